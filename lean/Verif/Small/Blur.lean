import Verif.Small.Accessor
/-
  Results of goroutines that make their calls at the same time, compared up to the identity of new nodes.
-/
namespace Protoast.Small
open Protoast

mutual
/-- An option value without the identities of nodes that are not older than `N`. -/
def blurVal (N : Nat) : OptVal → OptVal
  | .enum o l a p => .enum o l (min a N) p
  | .array o vs => .array o (blurVals N vs)
  | .map o l items => .map o l (blurItems N items)
  | v => v
def blurVals (N : Nat) : List OptVal → List OptVal
  | [] => []
  | v :: vs => blurVal N v :: blurVals N vs
def blurItems (N : Nat) : List (Str × OptVal) → List (Str × OptVal)
  | [] => []
  | kv :: rest => blurItem N kv :: blurItems N rest
def blurItem (N : Nat) : Str × OptVal → Str × OptVal
  | (k, v) => (k, blurVal N v)
end

/-- A node without its identity if it is not older than `N`: addresses below `N` are kept, all others become `N`. What the
    node stands for (its kind and the declaration) is kept. -/
def blur (N : Nat) : Node → Node
  | .wrapped a k p => .wrapped (min a N) k p
  | .option a p c f => .option (min a N) p c f
  | .oneof a p => .oneof (min a N) p
  | .map a p => .map (min a N) p
  | .repeated a none => .repeated (min a N) none
  | .repeated a (some t) => .repeated (min a N) (some (blur N t))
  | .builtin b => .builtin b
  | .value v => .value (blurVal N v)
  | .mapItem k v => .mapItem k (blurVal N v)

/-- The result of a call without the identities of new nodes. -/
def blurResult (N : Nat) : Res Reply → Res Reply
  | .ok (ns, a) => .ok (ns.map (blur N), a)
  | .panic e => .panic e
  | .timeout => .timeout

end Protoast.Small
