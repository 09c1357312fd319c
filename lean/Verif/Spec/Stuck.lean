import Verif.Spec.Names
/-
  What a load that fails half way leaves behind: the files on the way to the import that cannot be read.
-/
namespace Protoast

/-- Statement number `k` of the file is an import of `q`. -/
def ImportAt (f : ProtoFile) (k : Nat) (q : Str) : Prop := ∃ e, f.elems[k]? = some e ∧ e.kind = .importK q

/-- What is at `path` belongs to a statement of the file that comes before statement number `k`. (A path lists the
    indices from the innermost to the outermost; the last one is the number of the statement in the file.) -/
def InFront (path : List Nat) (k : Nat) : Prop := ∃ j, path.getLast? = some j ∧ j < k

/-- A way from the loaded file `path` to `m`: loaded files, each with the number of the import statement through which
    the next one is reached; the last import statement is that of `m`. -/
inductive Way (r : Reg) (m : Str) : Str → List (Nat × Nat) → Prop where
  | last {path i f k} : r.protos path = some i → r.heap[i]? = some f → ImportAt f k m → Way r m path [(i, k)]
  | next {path i f k q way} : r.protos path = some i → r.heap[i]? = some f → ImportAt f k q → Way r m q way →
      Way r m path ((i, k) :: way)

/-- The declaration at `p` was reached by the load that broke off: its file is not one of those on the way, or it stands
    in front of the import statement on the way. -/
def ReachedIn (way : List (Nat × Nat)) (p : Ptr) : Prop := ∀ x ∈ way, x.1 = p.file → InFront p.path x.2

/-- How far the load came that took the registry from `r` to `r'` and then failed at the import of `m`: it went along
    `way`, through files that were not loaded before; `m` is not loaded; and of all the loaded files those imports are
    loaded that are not on the way or stand in front of the import statement on the way. -/
def BrokenOff (r r' : Reg) (path m : Str) (way : List (Nat × Nat)) : Prop :=
  Way r' m path way ∧ (∀ x ∈ way, r.heap.length ≤ x.1) ∧ (way.map (·.1)).Nodup ∧ r'.protos m = none ∧
  ∀ (i : Nat) f k q, r'.heap[i]? = some f → ImportAt f k q → (∀ x ∈ way, x.1 = i → k < x.2) →
    (r'.protos q).isSome = true

end Protoast
