import Verif.Small.Calls
/-
  Goroutines that repeat the calls of a warm-up: what they may do and what they must get.
-/
namespace Protoast.Small
open Protoast

/-- The same handle, or another handle for the same option (the same declaration, class and option field), or another
    handle for the same file. -/
inductive Like : Node → Node → Prop where
  | refl (n) : Like n n
  | option {a b p c f} : Like (.option a p c f) (.option b p c f)
  | file {a b p} : Like (.wrapped a .file p) (.wrapped b .file p)

/-- The replies say the same: as many handles, for the same things one by one, and the same answer. -/
structure SameReply (x y : Reply) : Prop where
  length : x.1.length = y.1.length
  handles : ∀ (i : Nat) (n m : Node), x.1[i]? = some n → y.1[i]? = some m → Like n m
  answer : x.2 = y.2

/-- The call `op'` is the call `op` of the warm-up, made on the caller's own handles: `origin` says for each of the
    caller's handles which handle of the warm-up it stands for. -/
inductive OnOwnHandles (origin : List Nat) : Op → Op → Prop where
  | proto {W fuel path} : OnOwnHandles origin (.proto W fuel path) (.proto W fuel path)
  | byName {name} : OnOwnHandles origin (.byName name) (.byName name)
  | query {i j q} : origin[j]? = some i → OnOwnHandles origin (.query i q) (.query j q)

/-- A goroutine's calls repeat calls of the warm-up `warm`, made by the client `c`: any of them, in any order, any number
    of times; the handles it receives stand for the handles received there. The last argument lists what the repeated
    calls came to in the warm-up; each of them returned. -/
inductive Replays (c : Client) (warm : List Op) : List Nat → List Op → List Reply → Prop where
  | nil {origin} : Replays c warm origin [] []
  | cons {origin pre op post op' ns a ops rs} : warm = pre ++ op :: post →
      (∀ i q, op = .query i q → ∃ n, (c.exec pre).pool[i]? = some n) →
      (op.run (c.exec pre).pool (c.exec pre).reg).1 = .ok ns →
      (op.answer (c.exec pre).pool (c.exec pre).reg).1 = .ok a →
      OnOwnHandles origin op op' →
      Replays c warm (origin ++ List.range' (c.exec pre).pool.length ns.length) ops rs →
      Replays c warm origin (op' :: ops) ((ns, a) :: rs)

/-- Goroutine `i` is scheduled again and again. -/
def Fair (schedule : Nat → Nat) (i : Nat) : Prop := ∀ n, ∃ m, n ≤ m ∧ schedule m = i

/-- The system after the first `n` steps of an infinite schedule. -/
def System.after (s : System) (schedule : Nat → Nat) (n : Nat) : System := s.run ((List.range n).map schedule)

end Protoast.Small
