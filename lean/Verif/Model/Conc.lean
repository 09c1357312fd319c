import Verif.Model.Wrap
/-
  `wrap` executed by several goroutines at once (internal/core/registry_types.go:139-207): the registry has no locks, so
  the cache lookup, the allocation and the deferred cache write of different calls interleave.

  Simplification: the interleavings are sequentially consistent. The Go runtime may in addition abort the process
  when it notices concurrent map accesses; such runs are left out.
-/
namespace Protoast

/-- A goroutine executing `wrap(v)`: before the lookup, after a miss, after the type switch (`none`: it panicked; the
    deferred write is still to come), and finished. -/
inductive Thread where
  | start (v : Vis)
  | missed (v : Vis)
  | built (v : Vis) (n : Option Node)
  | done (v : Vis) (res : Res (Option Node))

/-- Several goroutines on one registry. -/
structure Conc where
  reg : Reg
  threads : List Thread

/-- One atomic step of a goroutine: the lookup (internal/core/registry_types.go:140-142), the type switch
    (internal/core/registry_types.go:147-206), the deferred write (internal/core/registry_types.go:143-145). -/
def Thread.step (t : Thread) (r : Reg) : Thread × Reg :=
  match t with
  | .start v =>
    match r.cache v with
    | some n => (.done v (.ok n), r)
    | none => (.missed v, r)
  | .missed v =>
    match r.wrapTarget v with
    | some (k, p) => (.built v (some (.wrapped r.next k p)), { r with next := r.next + 1 })
    | none => (.built v none, r)
  | .built v n =>
    (.done v (match n with | some n => .ok (some n) | none => .panic .unsupportedType),
     { r with cache := upd r.cache v n })
  | .done v res => (.done v res, r)

/-- Goroutine `i` makes a step. -/
def Conc.step (c : Conc) (i : Nat) : Conc :=
  match c.threads[i]? with
  | none => c
  | some t => ⟨(t.step c.reg).2, c.threads.set i (t.step c.reg).1⟩

/-- A schedule: the goroutines in the order in which they make steps. -/
def Conc.run (c : Conc) (schedule : List Nat) : Conc := schedule.foldl Conc.step c

end Protoast
