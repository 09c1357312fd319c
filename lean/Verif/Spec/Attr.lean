import Verif.Spec.History
/-
  The attributes a client can read off a handle, with the values they return.
-/
namespace Protoast

/-- Values of attributes. -/
inductive AttrVal where
  | str (s : Str)
  | lines (l : Option (List Str))
  | int (i : Int)
  | bool (b : Bool)
  | reserved (l : List ReservedValue)
  | undefined

/-- Attributes. -/
inductive Attr where
  | index | description | comment | typeName | name | package | isExtension | number | optional
  | importPath | syntaxValue | reservedValues
deriving DecidableEq

/-- Read an attribute; by static type of the handle. -/
def Attr.read : Attr → Node → M AttrVal
  | .index, n => do let s ← nodeIndex n; pure (.str s)
  | .description, n => do let s ← nodeDescription n; pure (.str s)
  | .comment, n => do let s ← Protoast.comment n; pure (.lines s)
  | .typeName, n => do let s ← Protoast.typeName n; pure (.str s)
  | .name, .wrapped _ .file p => do let s ← File.name p; pure (.str s)
  | .name, .wrapped _ .message p => do let s ← Message.name p; pure (.str s)
  | .name, .wrapped _ .enum p => do let s ← Enum.name p; pure (.str s)
  | .name, .wrapped _ .enumValue p => do let s ← EnumValue.name p; pure (.str s)
  | .name, .wrapped _ .messageField p => do let s ← MessageField.name p; pure (.str s)
  | .name, .wrapped _ .oneofBranch p => do let s ← OneOfBranch.name p; pure (.str s)
  | .name, .wrapped _ .service p => do let s ← Service.name p; pure (.str s)
  | .name, .wrapped _ .method p => do let s ← Method.name p; pure (.str s)
  | .package, .wrapped _ .file p => do let s ← File.package p; pure (.str s)
  | .package, .wrapped _ .packageW p => do let s ← Package.package p; pure (.str s)
  | .isExtension, .wrapped _ .message p => do let b ← Message.isExtension p; pure (.bool b)
  | .number, .wrapped _ .messageField p => do let i ← MessageField.value p; pure (.int i)
  | .number, .wrapped _ .enumValue p => do let i ← EnumValue.value p; pure (.int i)
  | .number, .wrapped _ .oneofBranch p => do let i ← OneOfBranch.value p; pure (.int i)
  | .optional, .wrapped _ .messageField p => do let b ← MessageField.optional p; pure (.bool b)
  | .importPath, .wrapped _ .importW p => do let s ← Import.path p; pure (.str s)
  | .syntaxValue, .wrapped _ .syntaxW p => do let s ← Syntax.value p; pure (.str s)
  | .reservedValues, .wrapped _ .reserved p => do
    let l ← Reserved.values p
    let vs ← collectSteps l
    pure (.reserved vs)
  | _, _ => pure .undefined

/-- The iterators over declarations (as opposed to options). -/
def IterQ.structural : IterQ → Bool
  | .fileEverything | .messageEverything | .enumEverything | .serviceEverything => false
  | .methodOptions | .options => false
  | _ => true

/-- The lookups of declarations by name (as opposed to options). -/
def NamedQ.structural : NamedQ → Bool
  | .optionNamed => false
  | _ => true

end Protoast
