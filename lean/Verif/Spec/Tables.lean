import Verif.Spec.History
/-
  Sizes: the number of entries of a map, the number of statements of the loaded files.
-/
namespace Protoast

/-- The map has at most `n` entries: no list of more than `n` different keys has a value at each of them. -/
def AtMost {α β : Type} (table : α → Option β) (n : Nat) : Prop :=
  ∀ keys : List α, keys.Nodup → (∀ k ∈ keys, table k ≠ none) → keys.length ≤ n

mutual
/-- The number of statements in an element, itself included. -/
def Elem.statements : Elem → Nat
  | .mk _ _ _ cs => 1 + Elem.statementsIn cs
/-- The number of statements in a list of elements. -/
def Elem.statementsIn : List Elem → Nat
  | [] => 0
  | e :: es => e.statements + Elem.statementsIn es
end

/-- The number of statements of all loaded files. -/
def Reg.statements (r : Reg) : Nat := (r.heap.map fun f => Elem.statementsIn f.elems).sum

/-- The number of loaded files. -/
def Reg.files (r : Reg) : Nat := r.heap.length

/-- The registry keeps no more than what `files` loaded files with altogether `statements` statements need: one entry
    per file, at most one name and one field type per statement, at most one scope and one node per file and statement
    (and one scope for the nil file, three nodes for nil pointers). -/
structure FitsIn (r : Reg) (files statements : Nat) : Prop where
  protos : AtMost r.protos files
  names : AtMost r.registry statements
  scopes : AtMost r.scopes (files + statements + 1)
  nodes : AtMost r.cache (files + statements + 3)
  types : AtMost r.ftcache statements

/-- A call that does not load. -/
def Op.isQuery : Op → Prop
  | .proto _ _ _ => False
  | _ => True

end Protoast
