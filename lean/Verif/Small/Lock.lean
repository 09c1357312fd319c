import Verif.Small.Calls
/-
  Goroutines that make their calls under a lock, and the sequential histories they amount to.
-/
namespace Protoast.Small
open Protoast

/-- No goroutine is inside a call. -/
def System.Idle (s : System) : Prop := ∀ (i : Nat) g, s.gs[i]? = some g → g.running = none

/-- Every step of the schedule is made by the goroutine that is inside a call, if there is one: the goroutines hold a
    lock during each call. -/
def Locked (s : System) : List Nat → Prop
  | [] => True
  | i :: rest => (∀ (j : Nat) g, s.gs[j]? = some g → g.running ≠ none → j = i) ∧ Locked (s.step i) rest

/-- A caller: its handles, and what its calls came to. -/
structure Caller where
  pool : List Node
  results : List (Res Reply)

/-- Callers of one registry. -/
structure Callers where
  reg : Reg
  all : List Caller

/-- What a call comes to, by the model of Model/*.lean. -/
def reply (pool : List Node) (op : Op) (r : Reg) : Res Reply :=
  match (op.run pool r).1, (op.answer pool r).1 with
  | .ok ns, .ok a => .ok (ns, a)
  | .panic e, _ => .panic e
  | _, _ => .timeout

/-- Caller `i` makes a call, from start to end. -/
def Callers.step (s : Callers) (x : Nat × Op) : Callers :=
  match s.all[x.1]? with
  | none => s
  | some c => ⟨(Client.step ⟨s.reg, c.pool⟩ x.2).reg,
      s.all.set x.1 ⟨(Client.step ⟨s.reg, c.pool⟩ x.2).pool, c.results ++ [reply c.pool x.2 s.reg]⟩⟩

/-- A sequential history. -/
def Callers.exec (s : Callers) (history : List (Nat × Op)) : Callers := history.foldl Callers.step s

/-- The goroutines as callers. -/
def System.callers (s : System) : Callers := ⟨s.reg, s.gs.map fun g => ⟨g.pool, g.results⟩⟩

/-- The calls of caller `i`, in order. -/
def callsOf (i : Nat) (history : List (Nat × Op)) : List Op :=
  (history.filter fun x => x.1 == i).map (·.2)

end Protoast.Small
