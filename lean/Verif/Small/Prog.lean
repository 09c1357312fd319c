import Verif.Model.Meta
/-
  Programs in small steps, for several goroutines on one registry. The functions of the library are written once more, in
  Small/Code.lean, as values of the type `P` below: the model of Model/*.lean says what a call does when nothing else
  happens meanwhile, the program says in which steps it does it. Small/Alone.lean proves that a program whose steps are
  executed without interruption does what the model says.

  Simplification: reads of several map entries with no write of the same goroutine in between are one step (the
  resolution of a name is one step). Steps of different goroutines interleave in any order, and every step sees all
  earlier ones.
-/
namespace Protoast.Small
open Protoast

/-- Writes to the maps of the registry. -/
inductive Write where
  /-- `r.protos[path] = ...`, internal/core/registry.go:101 -/
  | proto (path : Str) (i : Nat)
  /-- `v.r.registry[name] = ...`, internal/core/visitor_demark.go:28,42,45,86,92,97,109,118,126,132 -/
  | name (name : Str) (p : Ptr)
  /-- `v.r.scopes[...] = scope`, internal/core/visitor_demark.go:29,46,63,87,98,110,119,127,133 -/
  | scope (v : Vis) (scope : Str)
  /-- `r.cache[t] = res`, internal/core/registry_types.go:144 -/
  | node (v : Vis) (n : Option Node)
  /-- `r.ftcache[m] = res`, internal/core/ast_message.go:241 -/
  | fieldType (addr : Nat) (t : Option Node)

/-- The effect of a write. -/
def Write.apply : Write → Reg → Reg
  | .proto path i, r => { r with protos := upd r.protos path i }
  | .name s p, r => { r with registry := upd r.registry s p }
  | .scope v s, r => { r with scopes := upd r.scopes v s }
  | .node v n, r => { r with cache := upd r.cache v n }
  | .fieldType a t, r => { r with ftcache := upd r.ftcache a t }

/-- A program: what a goroutine still has to do. -/
inductive P (α : Type) where
  | ret (x : α)
  | panic (e : Panic)
  | timeout
  /-- read the maps -/
  | read (k : Reg → P α)
  /-- allocate a wrapper -/
  | alloc (k : Nat → P α)
  /-- allocate a parsed file -/
  | parse (f : ProtoFile) (k : Nat → P α)
  /-- write to a map -/
  | write (w : Write) (k : P α)

variable {α β : Type}

/-- Continue after a normal return and after a panic. -/
def P.handle (ok : α → P β) (failed : Panic → P β) : P α → P β
  | .ret x => ok x
  | .panic e => failed e
  | .timeout => .timeout
  | .read k => .read fun r => (k r).handle ok failed
  | .alloc k => .alloc fun a => (k a).handle ok failed
  | .parse f k => .parse f fun i => (k i).handle ok failed
  | .write w k => .write w (k.handle ok failed)

/-- Sequential composition. -/
def P.bind (p : P α) (f : α → P β) : P β := p.handle f .panic

instance : Monad P where
  pure := P.ret
  bind := P.bind

/-- Read the maps. -/
def P.get : P Reg := .read .ret

/-- Allocate a wrapper. -/
def P.new : P Nat := .alloc .ret

/-- Write to a map. -/
def P.put (w : Write) : P Unit := .write w (.ret ())

/-- `defer func() { ... }()` with a single write that depends on the result (nil after a panic). -/
def P.deferred (w : Option α → Write) (p : P α) : P α :=
  p.handle (fun x => .write (w (some x)) (.ret x)) (fun e => .write (w none) (.panic e))

/-- What the program does when it runs alone. -/
def P.alone : P α → M α
  | .ret x => pure x
  | .panic e => M.panic e
  | .timeout => fun r => (.timeout, r)
  | .read k => fun r => (k r).alone r
  | .alloc k => fun r => (k r.next).alone { r with next := r.next + 1 }
  | .parse f k => fun r => (k r.heap.length).alone { r with heap := r.heap ++ [f] }
  | .write w k => fun r => k.alone (w.apply r)

/-- One step of a program: the rest of the program and the registry after it. A finished program makes no steps. -/
def P.step : P α → Reg → P α × Reg
  | .ret x, r => (.ret x, r)
  | .panic e, r => (.panic e, r)
  | .timeout, r => (.timeout, r)
  | .read k, r => (k r, r)
  | .alloc k, r => (k r.next, { r with next := r.next + 1 })
  | .parse f k, r => (k r.heap.length, { r with heap := r.heap ++ [f] })
  | .write w k, r => (k, w.apply r)

/-- The next step is a write to a map. -/
def P.writes : P α → Bool
  | .write _ _ => true
  | _ => false

/-- The result of a finished program. -/
def P.result : P α → Option (Res α)
  | .ret x => some (.ok x)
  | .panic e => some (.panic e)
  | .timeout => some .timeout
  | _ => none

end Protoast.Small
