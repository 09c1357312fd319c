import Verif.Spec.History
/-
  Go's `==` on two non-nil values of the interface `Node`.
-/
namespace Protoast

/-- `x == y`: the dynamic types agree and the pointers are equal. Builtin types are package-level values,
    one per type. (Option values and map items are compared by pointers that the model does not have; they
    are left out.) -/
def GoEq : Node → Node → Prop
  | .wrapped a k _, .wrapped b k' _ => k = k' ∧ a = b
  | .option a _ _ _, .option b _ _ _ => a = b
  | .oneof a _, .oneof b _ => a = b
  | .map a _, .map b _ => a = b
  | .repeated a _, .repeated b _ => a = b
  | .builtin x, .builtin y => x = y
  | _, _ => False

/-- The three calls that lead from a node `n` to file handles `f`. -/
inductive FileRoute (n : Node) (r : Reg) : Node → Reg → Prop where
  | file {f r'} : nodeFile n r = (.ok (some f), r') → FileRoute n r f r'
  | parent {f r'} : nodeParent n r = (.ok (some f), r') → FileRoute n r f r'
  | hierarchy {fuel f rest r'} : nodeHierarchy fuel (some n) r = (.ok (n :: rest), r') → f ∈ rest →
      FileRoute n r f r'

end Protoast
