import Verif.Model.Load
/-
  Loading while the disk changes. `proto` of Model/Load.lean reads all files of one call from one `World`; here every file
  is read at its own moment. The functions are those of Model/Load.lean with only the world of each read replaced.
-/
namespace Protoast

/-- A disk that changes: what the resolvers answer and what reading a location gives (internal/core/registry.go:77-90 and
    138-152) at every moment. The moments a registry can tell apart are those between two files it has read, so moment `k`
    is the time after `k` files were read. (The resolvers and the contents at one moment are independent functions, so the
    disk may also change between `Resolve` and `os.ReadFile` of one file.) -/
structure Disk where
  resolvers : List (Str × (Nat → Str → Except Err Str))
  load : Nat → Str → Str → Except Err (List Elem)

/-- The disk at one moment. -/
def Disk.now (D : Disk) (k : Nat) : World := ⟨D.resolvers.map fun x => ⟨x.1, x.2 k⟩, D.load k⟩

/-- internal/core/registry.go:72-104 `protoFile`, at the present moment. -/
def protoFileD (D : Disk) (path : Str) : M (Except Err Nat) := fun r => protoFile (D.now r.heap.length) path r

/-- internal/core/visitor_demark.go:68-82 `VisitImport`. -/
def visitImportD (D : Disk) : Nat → Str → M Unit
  | 0, _ => fun r => (.timeout, r)
  | n + 1, path => do
    let r ← M.get
    match r.protos path with
    | some _ => pure ()
    | none => do
      match ← protoFileD D path with
      | .error e => M.panic (.importFailed path e)
      | .ok i => acceptFile (visitImportD D n) .nilProto i

/-- internal/core/registry.go:57-70 `demarkFile`. -/
def demarkFileD (D : Disk) (fuel : Nat) (path : Str) : M (Except Err Unit) := do
  match ← protoFileD D path with
  | .error e => pure (.error e)
  | .ok i => do
    acceptFile (visitImportD D fuel) (.at ⟨i, []⟩) i
    pure (.ok ())

/-- internal/core/registry.go:38-55 `Proto`. -/
def protoD (D : Disk) (fuel : Nat) (path : Str) : M (Except Err Node) := do
  let r ← M.get
  match r.protos path with
  | some i => do let f ← newFile i; pure (.ok f)
  | none => do
    match ← demarkFileD D fuel path with
    | .error e => pure (.error (.wrap (b!"resolve proto file " ++ path) e))
    | .ok () => do
      let r ← M.get
      match r.protos path with
      | some i => do let f ← newFile i; pure (.ok f)
      | none => pure (.error .protoNotFound)

end Protoast
