import Verif.Spec.Panics
import Verif.Spec.Origin
import Verif.Spec.Types
/-
  Conditions on the loaded files under which no call panics, and the panics that are left: calls that make no sense for
  the kind of node.
-/
namespace Protoast

/-- The descriptor message that lists the predefined options of what is declared at `p`. -/
def ownerClass (r : Reg) (p : Ptr) : Option Str :=
  if p.path = [] then some b!".google.protobuf.FileOptions"
  else match r.kind p with
    | some (.message _ _) => some b!".google.protobuf.MessageOptions"
    | some (.normalField _ _ _ _ _) | some (.mapField _ _ _ _) => some b!".google.protobuf.FieldOptions"
    | some (.oneof _) => some b!".google.protobuf.OneofOptions"
    | some (.enum _) => some b!".google.protobuf.EnumOptions"
    | some (.enumField _ _) => some b!".google.protobuf.EnumValueOptions"
    | some (.service _) => some b!".google.protobuf.ServiceOptions"
    | some (.rpc _ _ _ _ _) => some b!".google.protobuf.MethodOptions"
    | _ => none

/-- The innermost scope around the statements of what is declared at `p`, as the library sees it: the package for a file,
    the fully qualified name for a declaration; the outermost scope for enum values and for what has no name. -/
def PlaceScope (r : Reg) (p : Ptr) (s : Str) : Prop :=
  if p.path = [] then ∃ es, r.children p = some es ∧ s = packageDot es
  else match r.kind p with
    | some (.enumField _ _) => s = []
    | _ => Declared r s p ∨ (s = [] ∧ ∀ s', ¬ Declared r s' p)

/-- What is declared at `p` has an `Everything` iterator, or is a method: its options are (also) looked up in the
    outermost scope. -/
def LooksOutside (r : Reg) (p : Ptr) : Prop :=
  p.path = [] ∨ ∃ kd, r.kind p = some kd ∧
    ((∃ n e, kd = .message n e) ∨ (∃ n, kd = .enum n) ∨ (∃ n, kd = .service n) ∨ ∃ n a b c d, kd = .rpc n a b c d)

/-- Conditions on the loaded files. All of them are about the text of the files and what names refer to; none is about
    handles or earlier calls. -/
structure SoundSchema (r : Reg) : Prop where
  /-- No two declarations have the same fully qualified name. -/
  unique : UniqueNames r
  /-- No groups, `extensions`, editions or free-standing comments in files, messages, enums and services. -/
  supported : ∀ p es e, LooksOutside r p → r.children p = some es → e ∈ es →
    e.kind.hasNode = true ∨ ∃ w l, e.kind = .option w l
  /-- The descriptor messages are there. -/
  classes : ∀ p cn, ownerClass r p = some cn → ∃ cls, ClassAt r cn cls
  /-- The name of every option statement is bound to a field, in the scope of what it belongs to. -/
  bound : ∀ p cn cls s, ownerClass r p = some cn → ClassAt r cn cls → PlaceScope r p s →
    ∀ x ∈ optionsOf r p, ∃ f, Binds r s cls x.2 f
  /-- In files, messages, enums, services and methods it is also bound to a field in the outermost scope. -/
  outside : ∀ p cn cls, ownerClass r p = some cn → ClassAt r cn cls → LooksOutside r p →
    ∀ x ∈ optionsOf r p, ∃ f, Binds r [] cls x.2 f
  /-- Types of fields are not the names of services, methods, fields... They may be undefined. -/
  fields : ∀ p n typ v rep opt s q kd, r.kind p = some (.normalField n typ v rep opt) → ¬ IsKeyword typ →
    PlaceScope r p s → Refers r s typ q → r.kind q = some kd → kd.isType = true
  /-- The same for the branches of oneofs. -/
  branches : ∀ p n typ v s q kd, r.kind p = some (.oneofField n typ v) → ¬ IsKeyword typ →
    PlaceScope r p s → Refers r s typ q → r.kind q = some kd → kd.isType = true
  /-- The types of methods are messages. -/
  methods : ∀ p n req ret a b s, r.kind p = some (.rpc n req ret a b) → PlaceScope r p s →
    ∀ typ, (typ = req ∨ typ = ret) → ¬ IsKeyword typ ∧ ∃ q nm ext, Refers r s typ q ∧ r.kind q = some (.message nm ext)
  /-- The keys of maps are keywords other than `bytes`. -/
  keys : ∀ p n kt typ v, r.kind p = some (.mapField n kt typ v) → ∃ b : Builtin, kt = b.toStr ∧ b ≠ .bytes
  /-- The values of maps are keywords, or messages and enums written with their full names, without the leading dot. -/
  values : ∀ p n kt typ v, r.kind p = some (.mapField n kt typ v) → IsKeyword typ ∨
    (hasDotPrefix typ = false ∧ ∃ q nm, Declared r (dot :: typ) q ∧
      (r.kind q = some (.message nm false) ∨ r.kind q = some (.enum nm)))
  /-- `go_package` is a field of the options of files. -/
  goPackage : ∀ cls, ClassAt r b!".google.protobuf.FileOptions" cls →
    ∃ gf, r.registry b!".google.protobuf.FileOptions.go_package" = some gf ∧ FieldNamed r cls b!"go_package" gf

/-- How `NodeDescription` may still panic. -/
def Node.descMisuse : Node → List Panic
  | .wrapped _ _ _ | .option _ _ _ _ | .oneof _ _ => []
  | .repeated _ (some t) => t.descMisuse
  | _ => [.unsupportedNode]

/-- The panics that are left for the calls without arguments: parents, files and positions of types and values that
    have none, descriptions and names of nodes that have none, and the number of a oneof. -/
def PlainQ.misuse (r : Reg) (n : Node) : PlainQ → List Panic
  | .parent | .hierarchy _ => n.climbPanics
  | .file | .goPackage => n.filePanics
  | .pos _ => n.posPanics
  | .description => n.descMisuse
  | .typeName => n.typeNamePanics
  | .number => match n with
    | .wrapped _ .messageField p => match r.kind p with
      | some (.oneof _) => [.oneofHasNoValue]
      | _ => []
    | _ => []
  | _ => []

/-- The panics that are left when the loaded files are sound: besides those above, `Options` and `OptionNamed` on nodes
    that cannot have options, and `OptionNamed` on fields other than oneofs and maps, which the library does not
    support. -/
def Query.misuse (r : Reg) (n : Node) : Query → List Panic
  | .iter .options _ => if (optionClassOf r n).isSome then [] else [.unsupportedNode]
  | .iter _ _ => []
  | .named .optionNamed _ => match optionClassOf r n with
    | some (p, _) => match n, r.kind p with
      | .wrapped _ .messageField _, some (.normalField _ _ _ _ _) => [.unsupportedNode]
      | _, _ => []
    | none => [.unsupportedNode]
  | .named _ _ => []
  | .plain q => q.misuse r n

end Protoast
