import Verif.Model.Readme
import Verif.Model.QuickStart
/-
  The two programs of the README once more, now with what they print kept also when they panic later. Only the plumbing of
  the lines differs from Model/Readme.lean and Model/QuickStart.lean.
-/
namespace Protoast

/-- A computation on a registry that prints lines: the lines printed (also before a panic), and the outcome. -/
def Out (L α : Type) : Type := Reg → List L × (Res α × Reg)

/-- Normal return. -/
def Out.pure {L α : Type} (a : α) : Out L α := fun r => ([], (.ok a, r))

/-- Sequential composition. -/
def Out.bind {L α β : Type} (m : Out L α) (f : α → Out L β) : Out L β := fun r =>
  match m r with
  | (ls, (.ok a, r')) => (ls ++ (f a r').1, (f a r').2)
  | (ls, (.panic p, r')) => (ls, (.panic p, r'))
  | (ls, (.timeout, r')) => (ls, (.timeout, r'))

instance {L : Type} : Monad (Out L) where
  pure := Out.pure
  bind := Out.bind

/-- A call of the library prints nothing. -/
def Out.call {L α : Type} (m : M α) : Out L α := fun r => ([], m r)

/-- `fmt.Printf`. -/
def Out.say {L : Type} (l : L) : Out L Unit := fun r => ([l], (.ok (), r))

/-- The rounds of a loop over an iterator, as `runSteps`. -/
def Out.steps {L α σ : Type} (body : σ → α → Out L (σ × Bool)) : List (M α) → σ → Out L σ
  | [], s => pure s
  | m :: ms, s => do
    let a ← Out.call m
    let x ← body s a
    if x.2 then Out.steps body ms x.1 else pure x.1

/-- `for x := range seq { body }`, as `Seq.run`. -/
def Seq.out {L α σ : Type} (seq : Seq α) (body : σ → α → Out L (σ × Bool)) (init : σ) : Out L σ := do
  let steps ← Out.call seq
  Out.steps body steps init

namespace QuickStart

/-- README.md:82-84, the loop body over the options of the file. -/
def sayOption (F : FloatOps) (_ : Unit) (option : Node) : Out Line (Unit × Bool) :=
  match option with
  | .option _ q cls f => do
    let name ← Out.call (Option.name q cls f)
    let value ← Out.call (Option.value F q f)
    Out.say (.option name value)
    pure ((), true)
  | _ => Out.call (M.panic .illTyped)

/-- README.md:90-92, the loop body over the fields of a message. -/
def sayField (m : Ptr) (_ : Unit) (field : Node) : Out Line (Unit × Bool) :=
  match field with
  | .wrapped _ .messageField p => do
    let mn ← Out.call (Message.name m)
    let fn ← Out.call (MessageField.name p)
    Out.say (.field mn fn)
    pure ((), true)
  | _ => Out.call (M.panic .illTyped)

/-- README.md:87-93, the loop body over the messages of the file. -/
def sayMessage (_ : Unit) (msg : Node) : Out Line (Unit × Bool) :=
  match msg with
  | .wrapped _ .message m => do
    let mn ← Out.call (Message.name m)
    Out.say (.message mn)
    let _ ← (Message.fields m).out (sayField m) ()
    pure ((), true)
  | _ => Out.call (M.panic .illTyped)

/-- README.md:74-93, everything after the registry has been created. -/
def sayAll (W : World) (fuel : Nat) (F : FloatOps) (path : Str) : Out Line (Except Failure Unit) := do
  match ← Out.call (proto W fuel path) with
  | .error e => pure (.error (.noFile e))
  | .ok (.wrapped a .file f) => do
    let name ← Out.call (File.name f)
    let pkg ← Out.call (File.package f)
    Out.say (.file name pkg)
    let seq ← Out.call (options (.wrapped a .file f))
    let _ ← seq.out (sayOption F) ()
    let _ ← (File.messages f).out sayMessage ()
    pure (.ok ())
  | .ok _ => Out.call (M.panic .illTyped)

/-- README.md:56-94 `main`: the lines printed and how it ends. -/
def mainOut (W : World) (fuel : Nat) (F : FloatOps) (path : Str) : List Line × (Res (Except Failure Unit) × Reg) :=
  match newRegistry W fuel with
  | (.ok (.ok ()), r) => sayAll W fuel F path r
  | (.ok (.error e), r) => ([], (.ok (.error (.noRegistry e)), r))
  | (.panic p, r) => ([], (.panic p, r))
  | (.timeout, r) => ([], (.timeout, r))

end QuickStart

namespace Readme

/-- internal/readme/main.go:67-82, the loop body over the fields of a response; the state is `responseStatusDetected`. -/
def sayField (fuel : Nat) (sa : Nat) (sp : Ptr) (s : Bool) (field : Node) : Out Line (Bool × Bool) :=
  match field with
  | .wrapped a .messageField p => do
    let t ← Out.call (MessageField.type a p)
    if isStatus sa t then do
      let name ← Out.call (MessageField.name p)
      if name ≠ mainStatusField then do
        let x ← Out.call (pos fuel (.wrapped a .messageField p))
        let tn ← Out.call (typeName (.wrapped sa .message sp))
        Out.say (.onlyStatus x tn)
        pure (s, true)
      else pure (true, true)
    else pure (s, true)
  | _ => Out.call (M.panic .illTyped)

/-- internal/readme/main.go:56-94, the loop body over the methods of a service. -/
def sayMethod (fuel : Nat) (sa : Nat) (sp : Ptr) (_ : Unit) (method : Node) : Out Line (Unit × Bool) :=
  match method with
  | .wrapped a .method p => do
    let out ← Out.call (Method.output p)
    if out.1 then pure ((), true)
    else do
      let opt ← Out.call (optionNamed (.wrapped a .method p) mainExemption)
      match opt with
      | some _ => pure ((), true)
      | none =>
        match out.2 with
        | .wrapped _ .message q => do
          let detected ← (Message.fields q).out (sayField fuel sa sp) false
          if detected then pure ((), true)
          else do
            let x ← Out.call (pos fuel (.wrapped a .method p))
            let tn ← Out.call (typeName (.wrapped sa .message sp))
            let idx ← Out.call (nodeIndex (.wrapped a .method p))
            Out.say (.missing x tn idx)
            pure ((), true)
        | _ => Out.call (M.panic .illTyped)
  | _ => Out.call (M.panic .illTyped)

/-- internal/readme/main.go:43-95, one round of the loop over the services. -/
def sayService (W : World) (fuel : Nat) (sa : Nat) (sp : Ptr) (svc : Str × Str) : Out Line (Except Failure Unit) := do
  match ← Out.call (proto W fuel svc.1) with
  | .error e => pure (.error (.noServiceFile e))
  | .ok (.wrapped _ .file f) => do
    match ← Out.call (File.service f svc.2) with
    | some (.wrapped _ .service s) => do
      let _ ← (Service.methods s).out (sayMethod fuel sa sp) ()
      pure (.ok ())
    | some _ => Out.call (M.panic .illTyped)
    | none => pure (.error .noService)
  | .ok _ => Out.call (M.panic .illTyped)

/-- internal/readme/main.go:43-95, the loop over the services. -/
def sayServices (W : World) (fuel : Nat) (sa : Nat) (sp : Ptr) : List (Str × Str) → Out Line (Except Failure Unit)
  | [] => pure (.ok ())
  | svc :: rest => do
    match ← sayService W fuel sa sp svc with
    | .error e => pure (.error e)
    | .ok () => sayServices W fuel sa sp rest

/-- internal/readme/main.go:28-95, everything after the registry has been created. -/
def sayAll (W : World) (fuel : Nat) (svcs : List (Str × Str)) : Out Line (Except Failure Unit) := do
  match ← Out.call (proto W fuel mainStatusPath) with
  | .error e => pure (.error (.noStatusFile e))
  | .ok (.wrapped _ .file f) => do
    match ← Out.call (File.message f mainStatusName) with
    | some (.wrapped sa .message sp) => sayServices W fuel sa sp svcs
    | some _ => Out.call (M.panic .illTyped)
    | none => pure (.error .noStatusType)
  | .ok _ => Out.call (M.panic .illTyped)

/-- internal/readme/main.go:10-95 `main` for any list of services, up to the last line: the lines printed and how the
    program ends. -/
def mainOut (W : World) (fuel : Nat) (svcs : List (Str × Str)) : List Line × (Res (Except Failure Unit) × Reg) :=
  match newRegistry W fuel with
  | (.ok (.ok ()), r) => sayAll W fuel svcs r
  | (.ok (.error e), r) => ([], (.ok (.error (.noRegistry e)), r))
  | (.panic p, r) => ([], (.panic p, r))
  | (.timeout, r) => ([], (.timeout, r))

end Readme

end Protoast
