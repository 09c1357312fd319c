import Verif.Spec.Names
import Verif.Spec.Types
/-
  Two sets of files with the same declarations: moved to other files, in another order, with other imports, options
  and comments, but with the same full names and the same text in each declaration itself.
-/
namespace Protoast

/-- Both registries have the same declarations: what one declares under a full name (a field of that type, label and
    number, a method with that signature, a message, an enum ...) the other declares under that name too, in any file
    and at any place. -/
def SameDeclarations (r1 r2 : Reg) : Prop :=
  ∀ name k, (∃ p, Declared r1 name p ∧ r1.kind p = some k) ↔ (∃ p, Declared r2 name p ∧ r2.kind p = some k)

/-- A type handed out by the one registry and one handed out by the other are the same type: the same builtin, handles
    of the same Go type for declarations of the same full name, or repeated types of the same element. Nil is only the
    same as nil. -/
inductive SameType (r1 r2 : Reg) : Option Node → Option Node → Prop where
  | nil : SameType r1 r2 none none
  | builtin (b : Builtin) : SameType r1 r2 (some (.builtin b)) (some (.builtin b))
  | declared {name : Str} {p1 p2 : Ptr} (a1 a2 : Nat) (k : WKind) (h1 : Declared r1 name p1) (h2 : Declared r2 name p2) :
      SameType r1 r2 (some (.wrapped a1 k p1)) (some (.wrapped a2 k p2))
  | oneof {name : Str} {p1 p2 : Ptr} (a1 a2 : Nat) (h1 : Declared r1 name p1) (h2 : Declared r2 name p2) :
      SameType r1 r2 (some (.oneof a1 p1)) (some (.oneof a2 p2))
  | map {name : Str} {p1 p2 : Ptr} (a1 a2 : Nat) (h1 : Declared r1 name p1) (h2 : Declared r2 name p2) :
      SameType r1 r2 (some (.map a1 p1)) (some (.map a2 p2))
  | repeated (a1 a2 : Nat) {e1 e2 : Option Node} (h : SameType r1 r2 e1 e2) :
      SameType r1 r2 (some (.repeated a1 e1)) (some (.repeated a2 e2))

/-- Two calls end alike: both return, with results related by `R`, or both panic, with the same panic. -/
inductive EndAlike {α β : Type} (R : α → β → Prop) : Res α → Res β → Prop where
  | ok {x : α} {y : β} (h : R x y) : EndAlike R (.ok x) (.ok y)
  | panic (e : Panic) : EndAlike R (.panic e) (.panic e)

/-- A stream flag and a message of the one registry, and those of the other, are the same. -/
def SameSignature (r1 r2 : Reg) (x y : Bool × Node) : Prop := x.1 = y.1 ∧ SameType r1 r2 (some x.2) (some y.2)

end Protoast
