import Verif.Spec.History
/-
  The complete list of ways in which a call on a handle can panic.
-/
namespace Protoast

/-- How many elements there are around the declaration behind a handle. -/
def Node.depth : Node → Nat
  | .wrapped _ _ p => p.path.length
  | .option _ o _ _ => o.path.length
  | .oneof _ p => p.path.length
  | .map _ p => p.path.length
  | .repeated _ (some t) => t.depth
  | .repeated _ none => 0
  | .builtin _ => 0
  | .value _ => 0
  | .mapItem _ _ => 0

/-- The step budget of a call suffices for a handle nested `d` deep. Only `NodeHierarchy` and `Pos` have one. -/
def PlainQ.enough (d : Nat) : PlainQ → Prop
  | .hierarchy fuel => d < fuel
  | .pos fuel => d < fuel
  | _ => True

/-- The step budget of a call suffices for a handle nested `d` deep. -/
def Query.enough (d : Nat) : Query → Prop
  | .plain q => q.enough d
  | _ => True

/-- How making an option node may panic: the option class, or what the option's name resolves to, is not what it
    should be; or there is no such field in the class. -/
def optionPanics : List Panic := [.typeAssertion, .optionFieldNotFound]

/-- How an `Everything` iterator may panic: at an option, or at something that has no node type. -/
def everythingPanics : List Panic := [.unsupportedType, .typeAssertion, .optionFieldNotFound]

/-- Iterators over one kind of thing never panic. -/
def IterQ.panics : IterQ → List Panic
  | .fileEverything | .messageEverything | .enumEverything | .serviceEverything => everythingPanics
  | .methodOptions => optionPanics
  | .options => .unsupportedNode :: optionPanics
  | _ => []

/-- Lookups by name never panic, those of options aside. -/
def NamedQ.panics : NamedQ → List Panic
  | .optionNamed => .unsupportedNode :: optionPanics
  | _ => []

/-- How going from a node to its parent may panic. -/
def Node.climbPanics : Node → List Panic
  | .wrapped _ _ _ | .option _ _ _ _ | .oneof _ _ => []
  | .repeated _ (some t) => t.climbPanics
  | .value _ => [.unsupportedType]
  | .repeated _ none | .map _ _ | .builtin _ | .mapItem _ _ => [.unsupportedNode]

/-- How going from a node to its file may panic. -/
def Node.filePanics : Node → List Panic
  | .repeated _ (some t) => t.filePanics
  | .repeated _ none | .mapItem _ _ => [.nilDeref]
  | .value v => if v.opt.isSome then [] else [.nilDeref]
  | _ => []

/-- How `Pos` may panic. -/
def Node.posPanics : Node → List Panic
  | .wrapped _ _ _ | .option _ _ _ _ | .oneof _ _ => []
  | .repeated _ (some t) => .unsupportedNode :: t.climbPanics
  | .value _ => [.unsupportedType, .typeAssertion]
  | .repeated _ none | .map _ _ | .builtin _ | .mapItem _ _ => [.unsupportedNode]

/-- How `NodeDescription` may panic. -/
def Node.descPanics : Node → List Panic
  | .wrapped _ _ _ | .option _ _ _ _ | .oneof _ _ => []
  | .repeated _ (some t) => t.descPanics
  | .map _ _ => [.badMapKey, .unsupportedNode]
  | _ => [.unsupportedNode]

/-- How `TypeName` may panic. -/
def Node.typeNamePanics : Node → List Panic
  | .wrapped _ .message _ | .wrapped _ .enum _ | .oneof _ _ | .builtin _ => []
  | .repeated _ (some t) => t.typeNamePanics
  | _ => [.unsupportedNode]

/-- How the other calls may panic. -/
def PlainQ.panics (n : Node) : PlainQ → List Panic
  | .fieldType | .branchType => [.notAType]
  | .methodInput | .methodOutput => [.notAType, .typeAssertion]
  | .mapKey => [.badMapKey]
  | .mapValue => [.badMapValue]
  | .optionValue _ => [.badLiteral, .unknownEnumValue, .unknownField, .unknownFieldType, .typeAssertion, .notAType]
  | .parent | .hierarchy _ => n.climbPanics
  | .file => n.filePanics
  | .pos _ => n.posPanics
  | .description => n.descPanics
  | .typeName => n.typeNamePanics
  | .goPackage => n.filePanics ++ .noGoPackage :: everythingPanics
  | .goPackageOption => [.noGoPackage]
  | .number => [.oneofHasNoValue]
  | .repeatedElem | .valueParts | .index | .comment | .typeIsDefined _ | .optionIs _ | .optionName | .name | .package
  | .isExtension | .optional | .importPath | .syntaxValue | .reservedValues => []

/-- The complete list of ways in which a call on the handle `n` can panic. -/
def Query.panics (n : Node) : Query → List Panic
  | .iter q _ => q.panics
  | .named q _ => q.panics
  | .plain q => q.panics n

end Protoast
