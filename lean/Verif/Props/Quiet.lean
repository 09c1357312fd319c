import Verif.Proof.Quiet6
import Verif.Props.LoadOrder
import Verif.Props.FieldType
import Verif.Props.Resolve
/-
  C86: successful queries leave no trace that a program could observe.
-/
namespace Protoast.Props

/-- The call loads no file: it is not a `Proto` call, or its file is already there. -/
def LoadsNothing (r : Reg) : Op → Prop
  | .proto _ _ path => (r.protos path).isSome = true
  | _ => True

/-- The call is `Type` on a field handle. -/
def IsTypeCall : Op → Prop
  | .query _ (.plain .fieldType) => True
  | _ => False

/-- Every call of the history returns. -/
def Succeeds : Client → List Op → Prop
  | _, [] => True
  | c, op :: ops => (∃ ns, (op.run c.pool c.reg).1 = .ok ns) ∧ Succeeds (c.step op) ops

/-- The call returned, or it panicked for a reason other than these two: a declaration has no handle type (`wrap` says
    "unsupported type"), or it is not a type ("does not represent a type"). -/
def Settled {α : Type} : Res α → Prop
  | .ok _ => True
  | .panic e => e ≠ .unsupportedType ∧ e ≠ .notAType
  | .timeout => False

/-- Every call of the history returns or panics for a reason other than those two. -/
def Settles : Client → List Op → Prop
  | _, [] => True
  | c, op :: ops => Settled (op.run c.pool c.reg).1 ∧ Settles (c.step op) ops

theorem Settled.tidy {α : Type} {x : Res α} (h : Settled x) : Quiet.Tidy x := by cases x <;> exact h

/-- Nothing tells the two clients apart, not even the numbers of their files. -/
structure Twins (c1 c2 : Client) : Prop extends Indistinguishable c1 c2 where
  index : ∀ (i : Nat) (n1 n2 : Node), c1.pool[i]? = some n1 → c2.pool[i]? = some n2 →
    (nodeIndex n1 c1.reg).1 = (nodeIndex n2 c2.reg).1
  files : c1.reg.heap = c2.reg.heap ∧ c1.reg.protos = c2.reg.protos

theorem quiet_loaded {r : Reg} {op : Op} (h : LoadsNothing r op) : Quiet.Loaded' r op := by cases op <;> exact h

theorem rel_twins {fl : Bool} {m : Quiet.Match} {c1 c2 : Client} (h : Quiet.Rel fl m c1 c2) : Twins c1 c2 where
  handles := h.same
  answers := h.answer
  texts F i v1 v2 e1 e2 := by
    have := h.pair e1 e2
    cases this with
    | value e => exact (Quiet.toStr_rel F h.sim.front e).symm
  index i n1 n2 e1 e2 := h.index e1 e2
  files := ⟨h.sim.heap.symm, h.sim.protos.symm⟩

/-! ### Field types are remembered by `Type` only -/

theorem op_ftcache {op : Op} (h : ¬ IsTypeCall op) (pool : List Node) (r : Reg) :
    (op.run pool r).2.ftcache = r.ftcache := by
  funext a
  cases op with
  | proto W' f p =>
    have := proto_ftcache W' f p r
    simp only [Op.run, M.bind_apply]
    rcases hp : proto W' f p r with ⟨res, r'⟩
    rw [hp] at this
    simp only at this
    cases res with
    | ok x => cases x <;> exact congrFun this _
    | panic e => exact congrFun this _
    | timeout => exact congrFun this _
  | byName m =>
    have hb : NK (SameFt a) (nodeByFullName m) := by
      unfold nodeByFullName
      refine NK.bind NK.get fun r => ?_
      split
      · exact NK.wrapAt _
      · exact ⟨wrap_sameFt _⟩
    have := hb.ext r
    simp only [Op.run, M.bind_apply]
    rcases hp : nodeByFullName m r with ⟨res, r'⟩
    rw [hp] at this
    cases res <;> exact this
  | query i q =>
    cases hp : pool[i]? with
    | none => simp [Op.run, hp]
    | some n =>
      simp only [Op.run, hp]
      refine (NK.queryRun (R := SameFt a) q n fun b p h1 _ => ?_).ext _
      subst h1
      exact (h trivial).elim

theorem step_ftcache {c : Client} {op : Op} (h : ¬ IsTypeCall op) : (c.step op).reg.ftcache = c.reg.ftcache := by
  have := op_ftcache h c.pool c.reg
  unfold Client.step
  rcases e : op.run c.pool c.reg with ⟨res, r'⟩
  rw [e] at this
  cases res <;> exact this

theorem exec_ftcache : ∀ (ops : List Op) {c : Client}, (∀ op ∈ ops, ¬ IsTypeCall op) →
    (c.exec ops).reg.ftcache = c.reg.ftcache := by
  intro ops
  induction ops with
  | nil => exact fun _ => rfl
  | cons op ops ih =>
    intro c h
    exact (ih (c := c.step op) fun op' ho => h op' (List.mem_cons_of_mem _ ho)).trans
      (step_ftcache (h op List.mem_cons_self))

/-! ### The theorem -/

theorem exec_grow : ∀ (pre : List Op) {c : Client}, Quiet.Fine c → (∀ op ∈ pre, LoadsNothing c.reg op) →
    Settles c pre → Quiet.Grow c.reg (c.exec pre).reg := by
  intro pre
  induction pre with
  | nil => exact fun _ _ _ => Quiet.Grow.refl _
  | cons op ops ih =>
    rintro c hf hl ⟨hok, hs⟩
    have h1 := hf.grow op (quiet_loaded (hl op List.mem_cons_self)) hok.tidy
    refine h1.trans (ih (hf.step op) ?_ hs)
    intro op' ho
    have := hl op' (List.mem_cons_of_mem _ ho)
    cases op' with
    | proto W fuel path =>
      show ((c.step op).reg.protos path).isSome = true
      rw [h1.protos]
      exact this
    | _ => trivial

theorem quiet_rel {c : Client} (hf : Quiet.Fine c) {pre : List Op} (hl : ∀ op ∈ pre, LoadsNothing c.reg op)
    (hs : Settles c pre) {pool : List Node} (hp : ∀ n ∈ pool, n ∈ c.pool) (fl : Bool)
    (hfl : fl = true → (c.exec pre).reg.ftcache = c.reg.ftcache) :
    Quiet.Rel fl (Quiet.Self c.reg) ⟨c.reg, pool⟩ ⟨(c.exec pre).reg, pool⟩ := by
  have hg := exec_grow pre hf hl hs
  obtain ⟨o, hi, hgood⟩ := hf.good
  obtain ⟨o', hx, hi', -⟩ := exec_inv pre hi hgood
  refine ⟨hg.sim hf.healthy (hf.exec pre).healthy fl hfl, Quiet.pool_refl hi _ fun n hn => hgood n (hp n hn),
    ⟨o, hi, fun n hn => hgood n (hp n hn)⟩, ⟨o', hi', fun n hn => hx.good n (hgood n (hp n hn))⟩⟩

/-- C86: let `pre` be calls that load nothing, and that return or panic for harmless reasons. Whether they are made or not makes no difference to
    any later program `ops` that loads nothing: the program receives the same handles, two of them are identical in
    the one case exactly if they are in the other, and every call answers the same. The program may use any of
    the handles from before (`pool`); its own calls may panic. -/
theorem C86_no_trace {P c pre ops pool} (h : Reachable P c) (hpre : ∀ op ∈ pre, LoadsNothing c.reg op)
    (hok : Settles c pre) (hpool : ∀ n ∈ pool, n ∈ c.pool) (hops : ∀ op ∈ ops, LoadsNothing c.reg op) :
    Twins (Client.exec ⟨c.reg, pool⟩ ops) (Client.exec ⟨(c.exec pre).reg, pool⟩ ops) := by
  have hr := quiet_rel (Quiet.reachable_fine h) hpre hok hpool false (fun e => by cases e)
  obtain ⟨m, -, hr⟩ := hr.exec ops fun op ho => .inr (quiet_loaded (hops op ho))
  exact rel_twins hr

/-- C86 for programs that load files: then no call of `pre` may be `Type`. -/
theorem C86_no_trace_loading {P c pre ops pool} (h : Reachable P c) (hpre : ∀ op ∈ pre, LoadsNothing c.reg op)
    (hok : Settles c pre) (hnt : ∀ op ∈ pre, ¬ IsTypeCall op) (hpool : ∀ n ∈ pool, n ∈ c.pool) :
    Twins (Client.exec ⟨c.reg, pool⟩ ops) (Client.exec ⟨(c.exec pre).reg, pool⟩ ops) := by
  have hr := quiet_rel (Quiet.reachable_fine h) hpre hok hpool true (fun _ => exec_ftcache pre hnt)
  obtain ⟨m, -, hr⟩ := hr.exec ops fun op ho => .inl rfl
  exact rel_twins hr

/-! ### Examples -/

/-- A checker for `Succeeds`. -/
def succeedsB : Client → List Op → Bool
  | _, [] => true
  | c, op :: ops => Ex.isOk (op.run c.pool c.reg).1 && succeedsB (c.step op) ops

theorem succeedsB_spec : ∀ {ops : List Op} {c : Client}, succeedsB c ops = true → Succeeds c ops := by
  intro ops
  induction ops with
  | nil => intro c _; trivial
  | cons op ops ih =>
    intro c h
    simp only [succeedsB, Bool.and_eq_true] at h
    refine ⟨?_, ih h.2⟩
    rcases e : (op.run c.pool c.reg).1 with ns | _ | _
    · exact ⟨ns, rfl⟩
    · rw [e] at h; cases h.1
    · rw [e] at h; cases h.1

/-- Checkers for `Settled` and `Settles`. -/
def settledB {α : Type} : Res α → Bool
  | .ok _ => true
  | .panic e => decide (e ≠ .unsupportedType ∧ e ≠ .notAType)
  | .timeout => false

def settlesB : Client → List Op → Bool
  | _, [] => true
  | c, op :: ops => settledB (op.run c.pool c.reg).1 && settlesB (c.step op) ops

theorem settledB_spec {α : Type} {x : Res α} (h : settledB x = true) : Settled x := by
  cases x with
  | ok _ => trivial
  | panic e => exact show e ≠ .unsupportedType ∧ e ≠ .notAType from of_decide_eq_true h
  | timeout => cases h

theorem settlesB_spec : ∀ {ops : List Op} {c : Client}, settlesB c ops = true → Settles c ops := by
  intro ops
  induction ops with
  | nil => intro c _; trivial
  | cons op ops ih =>
    intro c h
    simp only [settlesB, Bool.and_eq_true] at h
    exact ⟨settledB_spec h.1, ih h.2⟩

/-- Calls that find messages, fields, types and a service. -/
def quietPre : List Op :=
  [.proto Ex.W 5 Ex.pa, .byName b!".p.q.M", .query 2 (.iter .messageFields 0), .query 3 (.plain .fieldType),
   .query 2 (.iter .messageFields 3), .query 2 (.iter .messageFields 4), .query 6 (.plain .fieldType), .query 0 (.plain .parent)]

/-- The same, and a call that panics: a oneof has no number. -/
def noisyPre : List Op := quietPre ++ [.query 5 (.plain .number)]

/-- A program that asks for the same things. -/
def quietOps : List Op :=
  [.query 0 (.named .fileMessage b!"M"), .query 1 (.iter .messageFields 4), .query 2 (.plain .fieldType),
   .query 1 (.iter .messageFields 0), .query 1 (.iter .messageFields 4), .query 5 (.plain .fieldType),
   .proto Ex.W 5 Ex.pa]

/-- The program receives seven handles in either case, but at different addresses. -/
example : Reachable AnyTree Ex.c1 ∧ (∀ op ∈ noisyPre, LoadsNothing Ex.c1.reg op) ∧ Settles Ex.c1 noisyPre ∧ succeedsB Ex.c1 noisyPre = false ∧
    (∀ op ∈ quietOps, LoadsNothing Ex.c1.reg op) ∧
    (Client.exec ⟨Ex.c1.reg, Ex.c1.pool⟩ quietOps).pool.length = 8 ∧
    (Client.exec ⟨Ex.c1.reg, Ex.c1.pool⟩ quietOps).reg.next ≠
      (Client.exec ⟨(Ex.c1.exec noisyPre).reg, Ex.c1.pool⟩ quietOps).reg.next ∧
    Twins (Client.exec ⟨Ex.c1.reg, Ex.c1.pool⟩ quietOps) (Client.exec ⟨(Ex.c1.exec noisyPre).reg, Ex.c1.pool⟩ quietOps) := by
  have h1 : ∀ op ∈ noisyPre, LoadsNothing Ex.c1.reg op := by
    intro op ho
    simp only [noisyPre, quietPre, List.cons_append, List.nil_append, List.mem_cons, List.not_mem_nil, or_false] at ho
    rcases ho with rfl | rfl | rfl | rfl | rfl | rfl | rfl | rfl | rfl <;> trivial
  have h2 : ∀ op ∈ quietOps, LoadsNothing Ex.c1.reg op := by
    intro op ho
    simp only [quietOps, List.mem_cons, List.not_mem_nil, or_false] at ho
    rcases ho with rfl | rfl | rfl | rfl | rfl | rfl | rfl <;> trivial
  have h3 : Settles Ex.c1 noisyPre := settlesB_spec (by decide +kernel)
  exact ⟨Ex.c1_reach, h1, h3, by decide +kernel, h2, by decide +kernel, by decide +kernel,
    C86_no_trace Ex.c1_reach h1 h3 (fun _ h => h) h2⟩

/-! ### The conditions are needed -/

/-- Without the condition that `pre` returns the claim is false: a `Type` that panicked is remembered, the next one
    returns nil (C28), and the program sees that. -/
theorem C86_panic_shows : ∃ c pre ops, Reachable AnyTree c ∧ (∀ op ∈ pre, LoadsNothing c.reg op) ∧
    (∀ op ∈ ops, LoadsNothing c.reg op) ∧
    ¬ Indistinguishable (Client.exec ⟨c.reg, c.pool⟩ ops) (Client.exec ⟨(c.exec pre).reg, c.pool⟩ ops) := by
  refine ⟨shadowClient, [.query 2 (.plain .fieldType)], [], Ex.reach_any _, ?_, ?_, ?_⟩
  · intro op ho
    rw [List.mem_singleton.mp ho]
    trivial
  · intro op ho; cases ho
  · intro h
    have := h.answers (.query 2 (.plain .fieldType))
    have h1 : Ex.isOk ((Op.query 2 (.plain .fieldType)).answer shadowClient.pool shadowClient.reg).1 = false := by
      decide +kernel
    have h2 : Ex.isOk ((Op.query 2 (.plain .fieldType)).answer shadowClient.pool
        (shadowClient.exec [.query 2 (.plain .fieldType)]).reg).1 = true := by decide +kernel
    have h3 : ((Op.query 2 (.plain .fieldType)).answer shadowClient.pool shadowClient.reg).1 =
        ((Op.query 2 (.plain .fieldType)).answer shadowClient.pool
          (shadowClient.exec [.query 2 (.plain .fieldType)]).reg).1 := this
    rw [h3, h2] at h1
    cases h1

/-- A file with a field whose type is declared elsewhere, in a file it does not import. -/
def missFile : List Elem :=
  let f := b!"u.proto"
  [Ex.el f 1 (.packageK b!"p"), Ex.el f 2 (.message b!"M" false) [Ex.fld f 3 b!"x" b!"T" 1]]

/-- The file that declares the type. -/
def foundFile : List Elem :=
  let f := b!"t.proto"
  [Ex.el f 1 (.packageK b!"p"), Ex.el f 2 (.message b!"T" false)]

def missWorld : World := Ex.worldOf [(b!"u.proto", missFile), (b!"t.proto", foundFile)]

def missClient : Client :=
  Client.exec ⟨Ex.r0, []⟩ [.proto missWorld 1 b!"u.proto", .query 0 (.named .fileMessage b!"M"), .query 1 (.iter .messageFields 0)]

/-- Without the condition that `pre` has no `Type` call the second claim is false: a type that was asked for before
    its file was loaded is remembered as nil. -/
theorem C86_type_shows : ∃ c pre ops, Reachable AnyTree c ∧ (∀ op ∈ pre, LoadsNothing c.reg op) ∧ Settles c pre ∧
    ¬ Indistinguishable (Client.exec ⟨c.reg, c.pool⟩ ops) (Client.exec ⟨(c.exec pre).reg, c.pool⟩ ops) := by
  refine ⟨missClient, [.query 2 (.plain .fieldType)], [.proto missWorld 1 b!"t.proto", .query 2 (.plain .fieldType)],
    Ex.reach_any _, ?_, settlesB_spec (by decide +kernel), ?_⟩
  · intro op ho
    rw [List.mem_singleton.mp ho]
    trivial
  · intro h
    have := h.handles.length
    revert this
    decide +kernel

end Protoast.Props
