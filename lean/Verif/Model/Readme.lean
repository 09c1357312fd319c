import Verif.Model.Meta
/-
  The governance linter of the README: internal/readme/main.go, which README.md ("Advanced Example: Enforcing API
  Contracts") prints in full.

  Simplifications: building the resolvers from the environment is not part of it (the resolvers are part of the
  `World`); the file system does not change during a run; a printed line is represented by the values handed to
  `Printf`; the program's own `panic` calls are results of type `Failure`, so that panics inside the library stay
  recognisable.
-/
namespace Protoast.Readme
open Protoast

/-- A line printed for a violation (internal/readme/main.go:70-74 and 88-92). -/
inductive Line where
  /-- position of the field and name of the status type -/
  | onlyStatus (pos : Position) (type : Str)
  /-- position of the method, name of the status type, index of the method -/
  | missing (pos : Position) (type method : Str)
deriving DecidableEq, Repr

/-- The places where the program itself panics (internal/readme/main.go:25,30,35,48,53). -/
inductive Failure where
  | noRegistry (e : Err)
  | noStatusFile (e : Err)
  | noStatusType
  | noServiceFile (e : Err)
  | noService
deriving DecidableEq, Repr

/-- internal/readme/main.go:28 -/
def mainStatusPath : Str := b!"meta/v1/status.proto"
/-- internal/readme/main.go:33 -/
def mainStatusName : Str := b!"ResponseStatus"
/-- internal/readme/main.go:38-41 -/
def mainServices : List (Str × Str) :=
  [(b!"service/storage/v1/service.proto", b!"Storage"), (b!"service/meta/v1/meta.proto", b!"Meta")]
/-- internal/readme/main.go:62 -/
def mainExemption : Str := b!".meta.v1.non_standard_method"
/-- internal/readme/main.go:69 -/
def mainStatusField : Str := b!"response_status"

/-- `field.Type(registry) == responseStatusType` (internal/readme/main.go:68): an interface value against a
    `*Message`, equal iff it holds that very pointer. -/
def isStatus (status : Nat) : Option Node → Bool
  | some (.wrapped a .message _) => a == status
  | _ => false

/-- internal/readme/main.go:67-82, the loop body over the fields of a response. The state is
    (`responseStatusDetected`, lines printed so far). -/
def lintField (fuel : Nat) (sa : Nat) (sp : Ptr) (s : Bool × List Line) (field : Node) :
    M ((Bool × List Line) × Bool) :=
  match field with
  | .wrapped a .messageField p => do
    let t ← MessageField.type a p
    if isStatus sa t then do
      let name ← MessageField.name p
      if name ≠ mainStatusField then do
        let x ← pos fuel (.wrapped a .messageField p)
        let tn ← typeName (.wrapped sa .message sp)
        pure ((s.1, s.2 ++ [.onlyStatus x tn]), true)
      else pure ((true, s.2), true)
    else pure (s, true)
  | _ => M.panic .illTyped

/-- internal/readme/main.go:56-94, the loop body over the methods of a service. -/
def lintMethod (fuel : Nat) (sa : Nat) (sp : Ptr) (lines : List Line) (method : Node) :
    M (List Line × Bool) :=
  match method with
  | .wrapped a .method p => do
    let (isStream, resp) ← Method.output p
    if isStream then pure (lines, true)
    else do
      let opt ← optionNamed (.wrapped a .method p) mainExemption
      match opt with
      | some _ => pure (lines, true)
      | none =>
        match resp with
        | .wrapped _ .message q => do
          let (detected, lines) ← (Message.fields q).run (lintField fuel sa sp) (false, lines)
          if detected then pure (lines, true)
          else do
            let x ← pos fuel (.wrapped a .method p)
            let tn ← typeName (.wrapped sa .message sp)
            let idx ← nodeIndex (.wrapped a .method p)
            pure (lines ++ [.missing x tn idx], true)
        | _ => M.panic .illTyped
  | _ => M.panic .illTyped

/-- internal/readme/main.go:43-95, the loop over the services. -/
def lintServices (W : World) (fuel : Nat) (sa : Nat) (sp : Ptr) :
    List (Str × Str) → List Line → M (Except Failure (List Line))
  | [], lines => pure (.ok lines)
  | (path, name) :: rest, lines => do
    match ← proto W fuel path with
    | .error e => pure (.error (.noServiceFile e))
    | .ok (.wrapped _ .file f) => do
      match ← File.service f name with
      | some (.wrapped _ .service s) => do
        let lines ← (Service.methods s).run (lintMethod fuel sa sp) lines
        lintServices W fuel sa sp rest lines
      | some _ => M.panic .illTyped
      | none => pure (.error .noService)
    | .ok _ => M.panic .illTyped

/-- internal/readme/main.go:28-95, everything after the registry has been created. -/
def lint (W : World) (fuel : Nat) (svcs : List (Str × Str)) : M (Except Failure (List Line)) := do
  match ← proto W fuel mainStatusPath with
  | .error e => pure (.error (.noStatusFile e))
  | .ok (.wrapped _ .file f) => do
    match ← File.message f mainStatusName with
    | some (.wrapped sa .message sp) => lintServices W fuel sa sp svcs []
    | some _ => M.panic .illTyped
    | none => pure (.error .noStatusType)
  | .ok _ => M.panic .illTyped

/-- internal/readme/main.go:10-101 `main`. -/
def main (W : World) (fuel : Nat) : Res (Except Failure (List Line)) × Reg :=
  match newRegistry W fuel with
  | (.ok (.ok ()), r) => lint W fuel mainServices r
  | (.ok (.error e), r) => (.ok (.error (.noRegistry e)), r)
  | (.panic p, r) => (.panic p, r)
  | (.timeout, r) => (.timeout, r)

/-- The exit status of the process: 0 when no line was printed, 1 after violations
    (internal/readme/main.go:97-100), 2 after any panic (the Go runtime). `none`: the step budget was too small. -/
def exitStatus : Res (Except Failure (List Line)) → Option Nat
  | .ok (.ok []) => some 0
  | .ok (.ok (_ :: _)) => some 1
  | .ok (.error _) => some 2
  | .panic _ => some 2
  | .timeout => none

end Protoast.Readme
