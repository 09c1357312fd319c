import Verif.Spec.Options
import Verif.Spec.Attr
import Verif.Spec.Iter
/-
  What the queries for go_package, comments, descriptions and names should return.
-/
namespace Protoast

/-- `source` is `path;name` with the first semicolon as separator, or just the path. -/
def SplitsAt (source path name : Str) : Prop :=
  ((59 : UInt8) ∉ path ∧ source = path ++ 59 :: name) ∨ ((59 : UInt8) ∉ source ∧ path = source ∧ name = [])

/-- The element a node stands for, options included. -/
def Node.element : Node → Option Ptr
  | .wrapped _ _ p => some p
  | .oneof _ p => some p
  | .map _ p => some p
  | .option _ p _ _ => some p
  | _ => none

/-- The comment lines attached to the element behind a node. -/
def commentOf (r : Reg) (n : Node) : Option (List Str) := (n.element.bind r.elem).bind Elem.comment

/-- How a node is described. -/
inductive Describes : Node → Str → Prop where
  | file {a p} : Describes (.wrapped a .file p) b!"file"
  | syntaxW {a p} : Describes (.wrapped a .syntaxW p) b!"syntax"
  | packageW {a p} : Describes (.wrapped a .packageW p) b!"package"
  | importW {a p} : Describes (.wrapped a .importW p) b!"import"
  | message {a p} : Describes (.wrapped a .message p) b!"message"
  | enum {a p} : Describes (.wrapped a .enum p) b!"enum"
  | service {a p} : Describes (.wrapped a .service p) b!"service"
  | method {a p} : Describes (.wrapped a .method p) b!"method"
  | messageField {a p} : Describes (.wrapped a .messageField p) b!"message field"
  | enumValue {a p} : Describes (.wrapped a .enumValue p) b!"enum value"
  | oneofBranch {a p} : Describes (.wrapped a .oneofBranch p) b!"oneof branch"
  | reserved {a p} : Describes (.wrapped a .reserved p) b!"reserved"
  | option {a p c f} : Describes (.option a p c f) b!"option"
  | oneof {a p} : Describes (.oneof a p) b!"oneof"
  | repeated {a t d} : Describes t d → Describes (.repeated a (some t)) (b!"[]" ++ d)

/-- The name in the source. Unlike for fully qualified names, extend blocks have one: what they extend. -/
def Kind.sourceName : Kind → Option Str
  | .message n _ => some n
  | k => k.declName

/-- The number in the source. -/
def Kind.sourceNumber : Kind → Option Int
  | .normalField _ _ n _ _ => some n
  | .mapField _ _ _ n => some n
  | .oneofField _ _ n => some n
  | .enumField _ n => some n
  | _ => none

/-- The go_package of the file at `p`, whose option class is `cls`, options being interpreted in scope `s`: that of
    the first option statement bound to the field `gf`, nothing if there is none. -/
def GoPackageOf (r : Reg) (p : Ptr) (s : Str) (cls gf : Ptr) (res : Option GoPackageInfo) : Prop :=
  (res = none ∧ ∀ x ∈ optionsOf r p, ¬ Binds r s cls x.2 gf) ∨
  (∃ pre x post w lit info, optionsOf r p = pre ++ x :: post ∧ (∀ y ∈ pre, ¬ Binds r s cls y.2 gf) ∧
    Binds r s cls x.2 gf ∧ r.kind x.1 = some (.option w lit) ∧ res = some info ∧ SplitsAt lit.source info.path info.name)

end Protoast
