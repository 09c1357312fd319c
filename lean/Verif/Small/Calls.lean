import Verif.Small.Code
import Verif.Spec.Answer
/-
  API calls as programs, and goroutines that make them.
-/
namespace Protoast.Small
open Protoast

/-- What the caller gets: handles and an answer. -/
abbrev Reply := List Node × Answer

/-- A call on a handle other than iterators and lookups by name: `PlainQ.run` of Spec/History.lean and `PlainQ.answer`
    of Spec/Answer.lean at once. -/
def plainCall (q : PlainQ) (n : Node) : P Reply :=
  match q, n with
  | .fieldType, .wrapped a .messageField p => do let t ← MessageField.type a p; pure (t.toList, .nothing)
  | .branchType, .wrapped _ .oneofBranch p => do let t ← OneOfBranch.type p; pure (t.toList, .nothing)
  | .methodInput, .wrapped _ .method p => do let x ← Method.input p; pure ([x.2], .flag x.1)
  | .methodOutput, .wrapped _ .method p => do let x ← Method.output p; pure ([x.2], .flag x.1)
  | .mapKey, .map _ p => do let x ← Map.key p; pure ([x], .nothing)
  | .mapValue, .map _ p => do let x ← Map.value p; pure ([x], .nothing)
  | .repeatedElem, .repeated _ t => pure (t.toList, .nothing)
  | .optionValue F, .option _ p _ f => do let v ← Option.value F p f; pure ([.value v], .nothing)
  | .valueParts, .value v => pure (v.parts, .nothing)
  | .valueParts, .mapItem _ v => pure ([.value v], .nothing)
  | .parent, n => do let x ← nodeParent n; pure (x.toList, .nothing)
  | .hierarchy fuel, n => do let l ← nodeHierarchy fuel (some n); pure (l, .nothing)
  | .file, n => do let x ← nodeFile n; pure (x.toList, .nothing)
  | .pos fuel, n => do let x ← pos fuel n; pure ([], .position x)
  | .index, .wrapped _ .file p => do let _ ← nodeIndex (.wrapped 0 .file p); pure ([], .nothing)
  | .index, n => do let x ← Attr.read .index n; pure ([], .attr x)
  | .description, n => do let x ← Attr.read .description n; pure ([], .attr x)
  | .comment, n => do let x ← Attr.read .comment n; pure ([], .attr x)
  | .typeName, n => do let x ← Attr.read .typeName n; pure ([], .attr x)
  | .typeIsDefined ref, n => do let x ← typeIsDefined n ref; pure ([], .flag x)
  | .goPackage, n => do let x ← goPackage n; pure ([], .goPackage x)
  | .goPackageOption, n => do let x ← goPackageOption n; pure ([], .goPackage x)
  | .optionIs nm, .option _ _ _ f => do let x ← Option.is f nm; pure ([], .flag x)
  | .optionName, .option _ p c f => do let x ← Option.name p c f; pure ([], .text x)
  | .name, n => do let x ← Attr.read .name n; pure ([], .attr x)
  | .package, n => do let x ← Attr.read .package n; pure ([], .attr x)
  | .isExtension, n => do let x ← Attr.read .isExtension n; pure ([], .attr x)
  | .number, n => do let x ← Attr.read .number n; pure ([], .attr x)
  | .optional, n => do let x ← Attr.read .optional n; pure ([], .attr x)
  | .importPath, n => do let x ← Attr.read .importPath n; pure ([], .attr x)
  | .syntaxValue, n => do let x ← Attr.read .syntaxValue n; pure ([], .attr x)
  | .reservedValues, n => do let x ← Attr.read .reservedValues n; pure ([], .attr x)
  | _, _ => pure ([], .nothing)

/-- A call on a handle. -/
def queryCall (q : Query) (n : Node) : P Reply :=
  match q with
  | .iter q i => do let x ← IterQ.run q n i; pure (x.toList, .nothing)
  | .named q name => do let x ← NamedQ.run q n name; pure (x.toList, .nothing)
  | .plain q => plainCall q n

/-- An API call of a caller that has the given handles. -/
def call (pool : List Node) : Op → P Reply
  | .proto W fuel path => do
    match ← proto W fuel path with
    | .ok f => pure ([f], .nothing)
    | .error e => pure ([], .failed e)
  | .byName name => do let x ← nodeByFullName name; pure (x.toList, .nothing)
  | .query h q =>
    match pool[h]? with
    | some n => queryCall q n
    | none => pure ([], .nothing)

/-- A goroutine: the handles it has, the rest of the call it is making, the calls it will make, and what its
    finished calls came to. It recovers from panics. -/
structure Goroutine where
  pool : List Node
  running : Option (P Reply)
  todo : List Op
  results : List (Res Reply)

/-- One step of a goroutine: it starts the next call, makes a step of the call, or takes its result. -/
def Goroutine.step (g : Goroutine) (r : Reg) : Goroutine × Reg :=
  match g.running with
  | none =>
    match g.todo with
    | [] => (g, r)
    | op :: ops => ({ g with running := some (call g.pool op), todo := ops }, r)
  | some p =>
    match p.result with
    | some (.ok x) => ({ g with pool := g.pool ++ x.1, running := none, results := g.results ++ [.ok x] }, r)
    | some res => ({ g with running := none, results := g.results ++ [res] }, r)
    | none => ({ g with running := some (p.step r).1 }, (p.step r).2)

/-- The goroutine's next step is a write to a map of the registry. -/
def Goroutine.writes (g : Goroutine) : Bool :=
  match g.running with
  | some p => p.writes
  | none => false

/-- The goroutine has nothing left to do. -/
def Goroutine.finished (g : Goroutine) : Prop := g.running = none ∧ g.todo = []

/-- Goroutines on one registry. -/
structure System where
  reg : Reg
  gs : List Goroutine

/-- Goroutine `i` makes a step. -/
def System.step (s : System) (i : Nat) : System :=
  match s.gs[i]? with
  | none => s
  | some g => ⟨(g.step s.reg).2, s.gs.set i (g.step s.reg).1⟩

/-- A schedule: which goroutine makes the next step. -/
def System.run (s : System) (schedule : List Nat) : System := schedule.foldl System.step s

/-- Goroutine `i` writes to a map in the next step. -/
def System.writes (s : System) (i : Nat) : Bool :=
  match s.gs[i]? with
  | some g => g.writes
  | none => false

end Protoast.Small
