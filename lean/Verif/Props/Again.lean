import Verif.Proof.Again3
import Verif.Props.Quiet
import Verif.OptExamples
/-
  C95: a call that returned once only reads when it is made again.
-/
namespace Protoast.Props

/-- No table of the registry differs: the files, the file index, the names, the scopes, the node cache, the cache of
    field types. -/
structure SameTables (r r' : Reg) : Prop where
  files : r'.heap = r.heap
  index : r'.protos = r.protos
  names : r'.registry = r.registry
  scopes : r'.scopes = r.scopes
  nodes : r'.cache = r.cache
  types : r'.ftcache = r.ftcache

theorem SameTables.refl (r : Reg) : SameTables r r := ⟨rfl, rfl, rfl, rfl, rfl, rfl⟩
theorem SameTables.trans {a b c : Reg} (h : SameTables a b) (g : SameTables b c) : SameTables a c :=
  ⟨g.files.trans h.files, g.index.trans h.index, g.names.trans h.names, g.scopes.trans h.scopes,
    g.nodes.trans h.nodes, g.types.trans h.types⟩

/-- The same handle again: identical, unless it is an option, which is made anew for the same option declaration, the
    same class and the same option field; or the file handle a `Proto` call returns, which is made anew for the same
    file. -/
inductive SameAgain (op : Op) : Node → Node → Prop where
  | identical (n) : SameAgain op n n
  | option {a b p c f} : SameAgain op (.option a p c f) (.option b p c f)
  | file {a b p W fuel path} : op = .proto W fuel path → SameAgain op (.wrapped a .file p) (.wrapped b .file p)

/-- As many handles, the same one by one. -/
def SameHandlesAgain (op : Op) (ns ms : List Node) : Prop :=
  ns.length = ms.length ∧ ∀ (i : Nat) (n m : Node), ns[i]? = some n → ms[i]? = some m → SameAgain op n m

theorem allRel_length {α β : Type} {R : α → β → Prop} {l1 l2} (h : AllRel R l1 l2) : l1.length = l2.length := by
  induction h with
  | nil => rfl
  | cons _ _ ih => simp [ih]

theorem unwritten_tables {r r' : Reg} (h : Again.Unwritten r r') : SameTables r r' := by
  have e := h.eq
  refine ⟨?_, ?_, ?_, ?_, ?_, ?_⟩ <;> rw [e]

theorem cacheExt_of_tables {r r' : Reg} (h : SameTables r r') (hn : r.next ≤ r'.next) : CacheExt r r' :=
  ⟨h.files, h.index, h.names, h.scopes, fun v x e => by rw [h.nodes]; exact e, fun v x e => by rw [h.types]; exact e,
    hn, fun v a k p e => .inl (by rw [← h.nodes]; exact e)⟩

theorem again_op {op : Op} {pool pool' : List Node} {r r' : Reg} {ns : List Node} (hl : LoadsNothing r op)
    (hok : (op.run pool r).1 = .ok ns) (he : CacheExt (op.run pool r).2 r')
    (hp : ∀ (i : Nat) n, pool[i]? = some n → pool'[i]? = some n)
    (hq : ∀ i q, op = .query i q → ∃ n, pool[i]? = some n) :
    ∃ ms, (op.run pool' r').1 = .ok ms ∧ SameHandlesAgain op ns ms ∧ Again.Unwritten r' (op.run pool' r').2 ∧
      (op.answer pool' r').1 = (op.answer pool r).1 := by
  cases op with
  | proto W fuel path =>
    have hl' : (r'.protos path).isSome = true := by
      rw [(Again.op_ext (quiet_loaded hl) |>.trans he).protos]; exact hl
    have hpr := (Again.op_ext (pool := pool) (quiet_loaded hl) |>.trans he).protos
    obtain ⟨i, hi⟩ := Option.isSome_iff_exists.mp hl
    have e : ∀ s : Reg, s.protos path = some i →
        proto W fuel path s = (.ok (.ok (.wrapped s.next .file ⟨i, []⟩)), { s with next := s.next + 1 }) := by
      intro s hs
      unfold proto
      simp only [M.bind_apply, M.get_apply, hs]
      rfl
    have e1 := e r hi
    have e2 := e r' (by rw [hpr]; exact hi)
    have hr1 : ∀ pool, Op.run pool (.proto W fuel path) r = (.ok [.wrapped r.next .file ⟨i, []⟩], { r with next := r.next + 1 }) := by
      intro pool; simp only [Op.run, M.bind_apply, e1]; rfl
    have hr2 : ∀ pool, Op.run pool (.proto W fuel path) r' = (.ok [.wrapped r'.next .file ⟨i, []⟩], { r' with next := r'.next + 1 }) := by
      intro pool; simp only [Op.run, M.bind_apply, e2]; rfl
    rw [hr1] at hok
    cases hok
    rw [hr2]
    refine ⟨_, rfl, ⟨rfl, ?_⟩, ⟨rfl, Nat.le_succ _⟩, ?_⟩
    · intro j n m h1 h2
      cases j with
      | zero => cases h1; cases h2; exact .file rfl
      | succ j => cases h1
    · simp only [Op.answer, M.bind_apply, e1, e2]
      rfl
  | byName name =>
    have hrep : Again.Same (Op.run pool (.byName name)) :=
      Again.Same.bind (Again.Same.nodeByFullName name) fun _ => Again.Same.pure _
    rcases e : Op.run pool (.byName name) r with ⟨res, r1⟩
    rw [e] at hok he
    cases hok
    obtain ⟨-, h2⟩ := hrep.run r ns r1 e
    obtain ⟨ms, r'', h3, h4, rfl⟩ := h2 r' he
    have h3' : Op.run pool' (.byName name) r' = (.ok ns, r'') := h3
    rw [h3']
    refine ⟨ns, rfl, ⟨rfl, fun i n m a b => ?_⟩, h4, ?_⟩
    · rw [a] at b; cases b; exact .identical _
    · have ha : ∀ s : Reg, (Op.run pool (.byName name) s).1 = .ok ns →
          (Op.answer pool (.byName name) s).1 = .ok .nothing := by
        intro s hs
        simp only [Op.run, M.bind_apply] at hs
        simp only [Op.answer, M.bind_apply]
        rcases hb : nodeByFullName name s with ⟨res, s'⟩
        rw [hb] at hs
        cases res with
        | ok x => rfl
        | panic x => cases hs
        | timeout => cases hs
      have a1 := ha r (by rw [e])
      have a2 := ha r' (by rw [h3])
      exact Eq.trans a2 a1.symm
  | query i q =>
    obtain ⟨n, hn⟩ := hq i q rfl
    have hn' := hp i n hn
    have e1 : ∀ s, Op.run pool (.query i q) s = q.run n s := fun s => by simp only [Op.run, hn]
    have e2 : ∀ s, Op.run pool' (.query i q) s = q.run n s := fun s => by simp only [Op.run, hn']
    have a1 : ∀ s, Op.answer pool (.query i q) s = q.answer n s := fun s => by simp only [Op.answer, hn]
    have a2 : ∀ s, Op.answer pool' (.query i q) s = q.answer n s := fun s => by simp only [Op.answer, hn']
    rw [e1] at hok he
    rw [e2, a1, a2]
    rcases e : q.run n r with ⟨res, r1⟩
    rw [e] at hok he
    cases hok
    obtain ⟨-, h2⟩ := (Again.query_rep q n).run r ns r1 e
    obtain ⟨ms, r'', h3, h4, h5⟩ := h2 r' he
    rw [h3]
    refine ⟨ms, rfl, ⟨allRel_length h5, fun i x y hx hy => ?_⟩, h4, ?_⟩
    · rcases AllRel.get h5 i with ⟨g1, g2⟩ | ⟨s1, s2, g1, g2, hm⟩
      · rw [g1] at hx; cases hx
      · rw [g1] at hx; rw [g2] at hy; cases hx; cases hy
        cases hm with
        | refl => exact .identical _
        | option => exact .option
    · have hst := congrArg Prod.snd (Again.query_answer_sig q n r)
      rw [e] at hst
      rcases ea : q.answer n r with ⟨res, r2⟩
      rw [ea] at hst
      have hst' : r2 = r1 := hst
      subst hst'
      cases res with
      | ok a =>
        obtain ⟨-, k2⟩ := (Again.Same.answer q n).run r a r2 ea
        obtain ⟨a', r3, k3, -, rfl⟩ := k2 r' he
        rw [k3]
      | panic x =>
        exfalso
        obtain ⟨y, hy⟩ := Again.answer_ok (q := q) (n := n) (r := r) ⟨ns, by rw [e]⟩
        rw [ea] at hy
        cases hy
      | timeout =>
        exfalso
        obtain ⟨y, hy⟩ := Again.answer_ok (q := q) (n := n) (r := r) ⟨ns, by rw [e]⟩
        rw [ea] at hy
        cases hy

/-- The call is made on a handle the client has. -/
def HasHandle (pool : List Node) (op : Op) : Prop := ∀ i q, op = .query i q → ∃ n, pool[i]? = some n

theorem pool_mono {c c' : Client} (h : ∃ ns, c'.pool = c.pool ++ ns) (i : Nat) (n : Node) (e : c.pool[i]? = some n) :
    c'.pool[i]? = some n := by
  obtain ⟨ns, h⟩ := h
  rw [h, List.getElem?_append_left (List.getElem?_eq_some_iff.mp e).1]
  exact e

/-- C95: let a call that loads nothing return, and let any calls that load nothing follow (they may panic). The same
    call made again returns, hands out the same handles, answers the same, and changes no table of the registry. -/
theorem C95_again {c : Client} {op : Op} {ns : List Node} {ops : List Op} (hl : LoadsNothing c.reg op)
    (hh : HasHandle c.pool op) (hok : (op.run c.pool c.reg).1 = .ok ns) (hops : ∀ o ∈ ops, LoadsNothing c.reg o) :
    ∃ ms, (op.run ((c.step op).exec ops).pool ((c.step op).exec ops).reg).1 = .ok ms ∧ SameHandlesAgain op ns ms ∧
      SameTables ((c.step op).exec ops).reg (op.run ((c.step op).exec ops).pool ((c.step op).exec ops).reg).2 ∧
      (op.answer ((c.step op).exec ops).pool ((c.step op).exec ops).reg).1 = (op.answer c.pool c.reg).1 := by
  have h1 := Again.op_ext (pool := c.pool) (quiet_loaded hl)
  have he : CacheExt (op.run c.pool c.reg).2 ((c.step op).exec ops).reg := by
    rw [← Again.step_reg] at h1 ⊢
    exact Again.exec_ext ops fun o ho => Again.loaded_ext h1 (quiet_loaded (hops o ho))
  obtain ⟨ms, a, b, d, e⟩ := again_op (pool' := ((c.step op).exec ops).pool) hl hok he
    (fun i n hn => pool_mono (Again.exec_pool ops _) i n (pool_mono (Again.step_pool c op) i n hn)) hh
  exact ⟨ms, a, b, unwritten_tables d, e⟩

/-- The call was made in the history, on a handle the client had then, and returned. -/
def ReturnedIn (c : Client) (history : List Op) (op : Op) : Prop :=
  ∃ pre post ns, history = pre ++ op :: post ∧ HasHandle (c.exec pre).pool op ∧
    (op.run (c.exec pre).pool (c.exec pre).reg).1 = .ok ns

theorem again_from {c : Client} {warm : List Op} (hw : ∀ op ∈ warm, LoadsNothing c.reg op) {op : Op}
    (h : ReturnedIn c warm op) {c' : Client} (he : CacheExt (c.exec warm).reg c'.reg)
    (hp : ∃ ns, c'.pool = (c.exec warm).pool ++ ns) :
    (∃ ms, (op.run c'.pool c'.reg).1 = .ok ms) ∧ Again.Unwritten c'.reg (c'.step op).reg := by
  obtain ⟨pre, post, ns, rfl, hh, hok⟩ := h
  have hpre := Again.exec_ext pre (c := c) fun o ho => quiet_loaded (hw o (by simp [ho]))
  have hl : LoadsNothing (c.exec pre).reg op := by
    have := Again.loaded_ext hpre (quiet_loaded (hw op (by simp)))
    cases op <;> exact this
  have hpost : CacheExt (op.run (c.exec pre).pool (c.exec pre).reg).2 (c.exec (pre ++ op :: post)).reg := by
    have h1 := Again.op_ext (pool := (c.exec pre).pool) (quiet_loaded hl)
    rw [← Again.step_reg] at h1 ⊢
    have e : c.exec (pre ++ op :: post) = ((c.exec pre).step op).exec post := by simp [Client.exec, List.foldl_append]
    rw [e]
    exact Again.exec_ext post fun o ho =>
      Again.loaded_ext (hpre.trans h1) (quiet_loaded (hw o (by simp [ho])))
  have hpool : ∃ ns, (c.exec (pre ++ op :: post)).pool = (c.exec pre).pool ++ ns := by
    have e : c.exec (pre ++ op :: post) = (c.exec pre).exec (op :: post) := by simp [Client.exec, List.foldl_append]
    rw [e]
    exact Again.exec_pool _ _
  obtain ⟨ms, a, -, d, -⟩ := again_op (pool' := c'.pool) hl hok (hpost.trans he)
    (fun i n hn => pool_mono hp i n (pool_mono hpool i n hn)) hh
  exact ⟨⟨ms, a⟩, by rw [Again.step_reg]; exact d⟩

/-- C95 for whole programs: after a warm-up that loads nothing, a program that only repeats calls that returned in the
    warm-up, in any order and any number of times, never fails and changes no table. (So goroutines sharing a warmed-up
    registry and making such calls only read it.) -/
theorem C95_readers {c : Client} {warm again : List Op} (hw : ∀ op ∈ warm, LoadsNothing c.reg op)
    (ha : ∀ op ∈ again, ReturnedIn c warm op) :
    Succeeds (c.exec warm) again ∧ ∀ k, SameTables (c.exec warm).reg ((c.exec warm).exec (again.take k)).reg := by
  have key : ∀ (l : List Op) (c' : Client), (∀ op ∈ l, ReturnedIn c warm op) → CacheExt (c.exec warm).reg c'.reg →
      (∃ ns, c'.pool = (c.exec warm).pool ++ ns) → Succeeds c' l ∧ SameTables c'.reg (c'.exec l).reg := by
    intro l
    induction l with
    | nil => exact fun c' _ _ _ => ⟨trivial, SameTables.refl _⟩
    | cons op l ih =>
      intro c' hl he hp
      obtain ⟨h1, h2⟩ := again_from hw (hl op List.mem_cons_self) he hp
      obtain ⟨ns, hns⟩ := hp
      obtain ⟨ms, hms⟩ := Again.step_pool c' op
      obtain ⟨g1, g2⟩ := ih (c'.step op) (fun o ho => hl o (List.mem_cons_of_mem _ ho)) (he.trans h2.ext)
        ⟨ns ++ ms, by rw [hms, hns, List.append_assoc]⟩
      exact ⟨⟨h1, g1⟩, (unwritten_tables h2).trans g2⟩
  refine ⟨(key again _ ha (CacheExt.refl _) ⟨[], by simp⟩).1, fun k => ?_⟩
  exact (key (again.take k) _ (fun op ho => ha op (List.mem_of_mem_take ho)) (CacheExt.refl _) ⟨[], by simp⟩).2

/-! ### Examples -/

/-- A checker for `HasHandle`. -/
def hasHandleB (pool : List Node) : Op → Bool
  | .query i _ => pool[i]?.isSome
  | _ => true

theorem hasHandleB_spec {pool : List Node} {op : Op} (h : hasHandleB pool op = true) : HasHandle pool op := by
  rintro i q rfl
  exact Option.isSome_iff_exists.mp h

/-- All calls of a history are made on handles and return. -/
def allReturnB : Client → List Op → Bool
  | _, [] => true
  | c, op :: ops => hasHandleB c.pool op && Ex.isOk (op.run c.pool c.reg).1 && allReturnB (c.step op) ops

theorem allReturn_spec : ∀ {ops : List Op} {c : Client}, allReturnB c ops = true → ∀ op ∈ ops, ReturnedIn c ops op := by
  intro ops
  induction ops with
  | nil => intro c _ op ho; cases ho
  | cons o ops ih =>
    intro c h op ho
    simp only [allReturnB, Bool.and_eq_true] at h
    rcases List.mem_cons.mp ho with rfl | ho
    · rcases e : (op.run c.pool c.reg).1 with ns | _ | _
      · exact ⟨[], ops, ns, rfl, hasHandleB_spec h.1.1, e⟩
      · rw [e] at h; cases h.1.2
      · rw [e] at h; cases h.1.2
    · obtain ⟨pre, post, ns, rfl, h1, h2⟩ := ih h.2 op ho
      exact ⟨o :: pre, post, ns, rfl, h1, h2⟩

/-- A warm-up that finds messages, fields, types, a parent, and loads nothing; the first calls do change the tables,
    repeating them all does not. -/
example : (∀ op ∈ quietPre, LoadsNothing Ex.c1.reg op) ∧ (∀ op ∈ quietPre.reverse ++ quietPre, ReturnedIn Ex.c1 quietPre op) ∧
    ¬ SameTables Ex.c1.reg (Ex.c1.exec quietPre).reg ∧
    SameTables (Ex.c1.exec quietPre).reg ((Ex.c1.exec quietPre).exec (quietPre.reverse ++ quietPre)).reg := by
  have h1 : ∀ op ∈ quietPre, LoadsNothing Ex.c1.reg op := by
    intro op ho
    simp only [quietPre, List.mem_cons, List.not_mem_nil, or_false] at ho
    rcases ho with rfl | rfl | rfl | rfl | rfl | rfl | rfl | rfl <;> trivial
  have h2 : ∀ op ∈ quietPre.reverse ++ quietPre, ReturnedIn Ex.c1 quietPre op := by
    intro op ho
    refine allReturn_spec (by decide +kernel) op ?_
    simpa using ho
  refine ⟨h1, h2, ?_, ?_⟩
  · intro h
    have := congrFun h.types
    have h3 : ((Ex.c1.exec quietPre).pool.map fun n => match n with
        | .wrapped a _ _ => (Ex.c1.reg.ftcache a).isSome | _ => false).any id = false := by decide +kernel
    have h4 : ((Ex.c1.exec quietPre).pool.map fun n => match n with
        | .wrapped a _ _ => ((Ex.c1.exec quietPre).reg.ftcache a).isSome | _ => false).any id = true := by decide +kernel
    simp only [h.types] at h4
    rw [h3] at h4
    cases h4
  · have := (C95_readers h1 h2).2 (quietPre.reverse ++ quietPre).length
    rwa [List.take_length] at this

/-- No float syntax. -/
def noFloatsA : FloatOps := ⟨fun _ => none, fun _ => []⟩

/-- The handle, if there is exactly one. -/
def oneHandle : Res (List Node) → Option Node
  | .ok [n] => some n
  | _ => none

/-- Reading an option and its value: the second time, the option handle is a new one for the same option. -/
example : allReturnB Ex.cO [.query 2 (.iter .options 0), .query 12 (.plain (.optionValue noFloatsA)), .query 2 (.iter .options 0)] = true ∧
    (match oneHandle (Op.run Ex.cO.pool (.query 2 (.iter .options 0)) Ex.cO.reg).1,
        oneHandle (Op.run Ex.cO.pool (.query 2 (.iter .options 0)) (Ex.cO.step (.query 2 (.iter .options 0))).reg).1 with
      | some (.option a p c f), some (.option b p' c' f') =>
        decide (a ≠ b) && decide (p = p') && decide (c = c') && decide (f = f')
      | _, _ => false) = true := by
  decide +kernel

/-- The condition that the first call returned is needed: the first `Type` call on this field panics, the second returns. -/
example : Ex.isOk (Op.run shadowClient.pool (.query 2 (.plain .fieldType)) shadowClient.reg).1 = false ∧
    Ex.isOk (Op.run shadowClient.pool (.query 2 (.plain .fieldType))
      (shadowClient.step (.query 2 (.plain .fieldType))).reg).1 = true := by
  decide +kernel

end Protoast.Props
