import Verif.Spec.History
/-
  A process with several registries. Registries are values without global state, but the handles do not know which
  registry they came from: `*Registry` is an argument of their methods (internal/core/ast_message.go:37 `Fields`, for
  example), and the methods of `Registry` take any handle (internal/core/registry_meta.go:14 `NodeIndex`, for example).
  So a program may use the handles of one registry with another.

  The parsed files of all registries live on one Go heap, and the wrappers of all registries have different addresses.
  A call sees the heap and the maps of the registry it is made with.
-/
namespace Protoast

/-- internal/core/registry.go:12-20 `Registry`: the maps. The resolvers are part of the `World` of the single call. -/
structure Tables where
  protos : Str → Option Nat
  registry : Str → Option Ptr
  scopes : Vis → Option Str
  cache : Vis → Option (Option Node)
  ftcache : Nat → Option (Option Node)

/-- internal/core/registry.go:23-30: the empty maps `NewRegistry` starts with. -/
def Tables.empty : Tables :=
  { protos := fun _ => none, registry := fun _ => none, scopes := fun _ => none, cache := fun _ => none,
    ftcache := fun _ => none }

/-- A process: the Go heap (the parsed files and the address of the next wrapper), the maps of its registries, and for
    every registry the handles received from calls made with it. Registries are numbered; those not yet created have
    empty maps. -/
structure Process where
  heap : List ProtoFile
  next : Nat
  regs : Nat → Tables
  pools : Nat → List Node

/-- The process at its start. -/
def Process.start : Process := { heap := [], next := 0, regs := fun _ => Tables.empty, pools := fun _ => [] }

/-- What a call with the maps `t` sees. -/
def Process.seen (p : Process) (t : Tables) : Reg :=
  { heap := p.heap, protos := t.protos, registry := t.registry, scopes := t.scopes, cache := t.cache,
    ftcache := t.ftcache, next := p.next }

/-- What a call with registry `i` sees. -/
def Process.view (p : Process) (i : Nat) : Reg := p.seen (p.regs i)

/-- Registry `i` and the handles received from it, as a client. -/
def Process.client (p : Process) (i : Nat) : Client := ⟨p.view i, p.pools i⟩

/-- The maps in a registry. -/
def Reg.tables (r : Reg) : Tables :=
  { protos := r.protos, registry := r.registry, scopes := r.scopes, cache := r.cache, ftcache := r.ftcache }

/-- The process after a call with registry `i` that left `r` behind and the handles `pool` of registry `i`. -/
def Process.put (p : Process) (i : Nat) (r : Reg) (pool : List Node) : Process :=
  { heap := r.heap, next := r.next, regs := fun j => if j = i then r.tables else p.regs j,
    pools := fun j => if j = i then pool else p.pools j }

/-- internal/core/registry.go:22-36 `NewRegistry`, after the maps were made. -/
def setUp (W : World) (fuel : Nat) : M (Except Err Unit) := do
  match ← demarkFile W fuel descriptorPath with
  | .error e => pure (.error (.wrap b!"set up proto descriptor" e))
  | .ok () => pure (.ok ())

/-- What a process does: it creates registry `i`; or it makes the call `op` with registry `i` and handles received from
    registry `j`. Creating a registry under a number in use drops the old one with its handles. When `NewRegistry` fails
    Go returns no registry; the model keeps the maps as they are then, and a program does not use them. -/
inductive Action where
  | create (i : Nat) (W : World) (fuel : Nat)
  | call (i j : Nat) (op : Op)

/-- One action; after a panic the process continues with what it has. -/
def Process.step (p : Process) : Action → Process
  | .create i W fuel => p.put i (setUp W fuel (p.seen Tables.empty)).2 []
  | .call i j op =>
    match op.run (p.pools j) (p.view i) with
    | (.ok ns, r) => p.put i r (p.pools i ++ ns)
    | (.panic _, r) => p.put i r (p.pools i)
    | (.timeout, r) => p.put i r (p.pools i)

/-- A history of actions. -/
def Process.exec (p : Process) (as : List Action) : Process := as.foldl Process.step p

end Protoast
