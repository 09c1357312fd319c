import Verif.Model.Nodes
import Verif.Spec.Resolve
/-
  What a type reference written in a .proto file denotes.
-/
namespace Protoast

/-- The reference `name`, written in scope `scope`, denotes the declaration at `q`: an absolute name
    denotes what is registered under it, a relative name what the innermost enclosing scope declares
    under it. -/
def Refers (r : Reg) (scope name : Str) (q : Ptr) : Prop :=
  if hasDotPrefix name then r.registry name = some q
  else ∃ c, Innermost r.defined (dotted scope) name c ∧ r.registry c = some q

/-- The reference denotes nothing. -/
def Unresolved (r : Reg) (scope name : Str) : Prop :=
  if hasDotPrefix name then r.registry name = none
  else ∀ s', Encloses s' (dotted scope) → r.registry (s' ++ dot :: name) = none

/-- Kinds of declarations whose node implements the Go interface `Type`. Enum values do
    (ast_enum.go:18-24). -/
def Kind.isType : Kind → Bool
  | .message _ _ => true
  | .enum _ => true
  | .enumField _ _ => true
  | _ => false

/-- A handle of this type may stand for this kind of statement. -/
def WKind.standsFor : WKind → Kind → Bool
  | .message, .message _ _ => true
  | .messageField, .normalField _ _ _ _ _ => true
  | .messageField, .oneof _ => true
  | .messageField, .mapField _ _ _ _ => true
  | .enum, .enum _ => true
  | .enumValue, .enumField _ _ => true
  | .oneofBranch, .oneofField _ _ _ => true
  | .service, .service _ => true
  | .method, .rpc _ _ _ _ _ => true
  | .importW, .importK _ => true
  | .reserved, .reserved _ _ => true
  | .syntaxW, .syntaxK _ => true
  | .packageW, .packageK _ => true
  | _, _ => false

/-- The keyword of each builtin type, as the protobuf language spells it. -/
def Builtin.keyword : Builtin → Str
  | .bool => b!"bool"
  | .int32 => b!"int32"
  | .int64 => b!"int64"
  | .sint32 => b!"sint32"
  | .sint64 => b!"sint64"
  | .uint32 => b!"uint32"
  | .uint64 => b!"uint64"
  | .fixed32 => b!"fixed32"
  | .fixed64 => b!"fixed64"
  | .sfixed32 => b!"sfixed32"
  | .sfixed64 => b!"sfixed64"
  | .float => b!"float"
  | .double => b!"double"
  | .string => b!"string"
  | .bytes => b!"bytes"

/-- The name is one of the fifteen scalar keywords. -/
def IsKeyword (name : Str) : Prop := ∃ b : Builtin, name = b.toStr

/-- What the type name `typ` written in scope `scope` stands for: the builtin type of that keyword, the node of
    the declaration it refers to, or nothing. -/
def TypeDenotes (r : Reg) (scope typ : Str) (t : Option Node) : Prop :=
  (∃ b : Builtin, typ = b.toStr ∧ t = some (.builtin b)) ∨
  (¬ IsKeyword typ ∧ ∃ q a k, Refers r scope typ q ∧ t = some (.wrapped a k q)) ∨
  (¬ IsKeyword typ ∧ Unresolved r scope typ ∧ t = none)

/-- The number is in the range of a reserved statement. -/
def Range.Has (g : Range) (n : Int) : Prop := g.lo ≤ n ∧ (g.max = true ∨ n ≤ g.hi)

/-- The number is denoted by a value that `Reserved.Values` yields. -/
def ReservedValue.Has : ReservedValue → Int → Prop
  | .single v, n => n = v
  | .range lo hi, n => lo ≤ n ∧ n ≤ hi
  | .from lo, n => lo ≤ n
  | .name _, _ => False

end Protoast
