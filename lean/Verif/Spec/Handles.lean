import Verif.Spec.Attr
import Verif.Spec.Parents
import Verif.Spec.Names
import Verif.Spec.Types
/-
  What the type of a handle says about the source, and how a full name is spelled out by the nodes around a
  declaration.
-/
namespace Protoast

/-- The option an option value mentions, if any, is an option statement. -/
def OptionMentioned (r : Reg) : Option Ptr → Prop
  | none => True
  | some p => ∃ n l, r.kind p = some (.option n l)

mutual
/-- Everything an option value refers to is what it should be. -/
def OptVal.typed (r : Reg) : OptVal → Prop
  | .bool o _ _ | .int o _ _ | .uint o _ _ | .float o _ _ | .string o _ _ | .bytes o _ _ => OptionMentioned r o
  | .enum o _ _ p => OptionMentioned r o ∧ ∃ n v, r.kind p = some (.enumField n v)
  | .array o vs => OptionMentioned r o ∧ OptVal.typedAll r vs
  | .map o _ items => OptionMentioned r o ∧ OptVal.typedItems r items
def OptVal.typedAll (r : Reg) : List OptVal → Prop
  | [] => True
  | v :: vs => v.typed r ∧ OptVal.typedAll r vs
def OptVal.typedItems (r : Reg) : List (Str × OptVal) → Prop
  | [] => True
  | kv :: rest => OptVal.typedItem r kv ∧ OptVal.typedItems r rest
def OptVal.typedItem (r : Reg) : Str × OptVal → Prop
  | (_, v) => v.typed r
end

/-- The handle is of the type that belongs to the thing it is a handle of. -/
def Node.Typed (r : Reg) : Node → Prop
  | .wrapped _ k p =>
    (k = .file ∧ p.path = [] ∧ ∃ f, r.heap[p.file]? = some f) ∨
    (p.path ≠ [] ∧ ∃ kd, r.kind p = some kd ∧ k.standsFor kd = true)
  | .option _ p cls field =>
    (∃ n l, r.kind p = some (.option n l)) ∧ (∃ n e, r.kind cls = some (.message n e)) ∧
      ∃ a b c d e, r.kind field = some (.normalField a b c d e)
  | .oneof _ p => ∃ n, r.kind p = some (.oneof n)
  | .map _ p => ∃ a b c d, r.kind p = some (.mapField a b c d)
  | .repeated _ none => True
  | .repeated _ (some t) => t.Typed r
  | .builtin _ => True
  | .value v => v.typed r
  | .mapItem _ v => v.typed r

/-- The name that the nodes around a declaration (the rest of its NodeHierarchy, innermost first) spell: the package of
    the file, then the names of the messages and services. Extend blocks, oneofs and enums are passed over. -/
inductive Spelled (r : Reg) : List Node → Str → Prop where
  | root {a p} : Attr.read .package (.wrapped a .file p) r = (.ok (.str []), r) →
      Spelled r [.wrapped a .file p] []
  | package {a p c cs} : Attr.read .package (.wrapped a .file p) r = (.ok (.str (c :: cs)), r) →
      Spelled r [.wrapped a .file p] (dot :: c :: cs)
  | message {a p rest s name} : Spelled r rest s →
      Attr.read .isExtension (.wrapped a .message p) r = (.ok (.bool false), r) →
      Attr.read .name (.wrapped a .message p) r = (.ok (.str name), r) →
      Spelled r (.wrapped a .message p :: rest) (s ++ dot :: name)
  | extend {a p rest s} : Spelled r rest s →
      Attr.read .isExtension (.wrapped a .message p) r = (.ok (.bool true), r) →
      Spelled r (.wrapped a .message p :: rest) s
  | service {a p rest s name} : Spelled r rest s →
      Attr.read .name (.wrapped a .service p) r = (.ok (.str name), r) →
      Spelled r (.wrapped a .service p :: rest) (s ++ dot :: name)
  | oneof {a p rest s} : Spelled r rest s → Spelled r (.wrapped a .messageField p :: rest) s
  | enum {a p rest s} : Spelled r rest s → Spelled r (.wrapped a .enum p :: rest) s

end Protoast
