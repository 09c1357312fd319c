import Verif.Model.Disk
import Verif.Spec.Names
import Verif.Spec.Imports
/-
  What it means that a changing disk behaves like one that does not change.
-/
namespace Protoast

/-- What a world shows of one path: the answer of every resolver, and what reading any location for it gives. -/
def World.view (W : World) (path : Str) : List (Str × Except Err Str) × (Str → Except Err (List Elem)) :=
  (W.resolvers.map fun x => (x.name, x.resolve path), fun loc => W.load loc path)

/-- Every path looks in `W` as it did on the changing disk at some moment between `a` and `b`. -/
def Disk.Blend (D : Disk) (a b : Nat) (W : World) : Prop :=
  ∀ path, ∃ k, a ≤ k ∧ k ≤ b ∧ W.view path = (D.now k).view path

/-- The same call, reading from `W`. -/
def Op.on (W : World) : Op → Op
  | .proto _ fuel path => .proto W fuel path
  | op => op

/-- The file `path` is loaded, with these contents. -/
def LoadedAs (r : Reg) (path : Str) (elems : List Elem) : Prop :=
  ∃ i, r.protos path = some i ∧ r.heap[i]? = some ⟨path, elems⟩

end Protoast
