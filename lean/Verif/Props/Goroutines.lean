import Verif.Small.Again2
import Verif.Props.Again
/-
  C96: goroutines that repeat the calls of a warm-up share a registry safely.
-/
namespace Protoast.Props
open Protoast.Small
open Protoast.Small.Again (ReadsTo Tables Likes LikeReply SameCall call_rep)

/-- Handles of a goroutine stand for handles of the warm-up. -/
def StandFor (pool : List Node) (origin : List Nat) (mine : List Node) : Prop :=
  AllRel (fun i n => ∃ m, pool[i]? = some m ∧ Like m n) origin mine

theorem standFor_append {pool origin mine origin' mine'} (h : StandFor pool origin mine) (g : StandFor pool origin' mine') :
    StandFor pool (origin ++ origin') (mine ++ mine') := AllRel.append h g

theorem standFor_range {pool pre ns post : List Node} (h : pool = pre ++ ns ++ post) {ms : List Node} (hl : Likes ns ms) :
    StandFor pool (List.range' pre.length ns.length) ms := by
  induction hl generalizing pre with
  | nil => exact .nil
  | cons hab _ ih =>
    rename_i a b as bs _
    rw [List.length_cons, List.range'_succ]
    refine .cons ⟨a, ?_, hab⟩ ?_
    · rw [h]; simp
    · have := ih (pre := pre ++ [a]) (by rw [h]; simp)
      rw [List.length_append] at this
      exact this

/-- The reply of a call that runs alone. -/
theorem call_ok {pool : List Node} {op : Op} {r : Reg} {ns : List Node} {a : Answer} (h : (op.run pool r).1 = .ok ns)
    (g : (op.answer pool r).1 = .ok a) : (call pool op).alone r = (.ok (ns, a), (op.run pool r).2) := by
  have h1 := congrFun (call_handles pool op) r
  have h2 := congrFun (call_answer pool op) r
  rw [Small.Again.alone_bind] at h1 h2
  rw [← h1] at h ⊢
  rw [← h2] at g
  rcases hc : (call pool op).alone r with ⟨res, r'⟩
  rw [hc] at h g
  cases res with
  | ok x =>
    obtain ⟨x1, x2⟩ := x
    cases h; cases g; rfl
  | panic e => cases h
  | timeout => cases h

/-- What holds of a goroutine at every moment. -/
structure Good (c : Client) (warm : List Op) (expected : List Reply) (g : Goroutine) : Prop where
  inv : ∃ origin done rest, expected = done ++ rest ∧ StandFor (c.exec warm).pool origin g.pool ∧
    AllRel (fun x res => ∃ y, res = .ok y ∧ LikeReply x y) done g.results ∧
    match g.running with
    | none => Replays c warm origin g.todo rest
    | some p => ∃ x rest' more, rest = x :: rest' ∧ ReadsTo (c.exec warm).reg (LikeReply x) p ∧
        (∀ ms, Likes x.1 ms → StandFor (c.exec warm).pool more ms) ∧ Replays c warm (origin ++ more) g.todo rest'

theorem exec_split {c : Client} {pre post : List Op} {op : Op} :
    c.exec (pre ++ op :: post) = ((c.exec pre).step op).exec post := by simp [Client.exec, List.foldl_append]

theorem tables_next {T r : Reg} (h : Tables T r) (n : Nat) : Tables T { r with next := n } := by
  have e : r = { T with next := r.next } := h
  show { r with next := n } = { T with next := n }
  rw [e]

theorem good_step {c : Client} {warm : List Op} (hw : ∀ op ∈ warm, LoadsNothing c.reg op) {expected : List Reply}
    {g : Goroutine} (h : Good c warm expected g) {r : Reg} (hr : Tables (c.exec warm).reg r) :
    Good c warm expected (g.step r).1 ∧ Tables (c.exec warm).reg (g.step r).2 ∧ g.writes = false := by
  obtain ⟨origin, done, rest, he, hs, hd, hrun⟩ := h.inv
  unfold Goroutine.step
  cases hg : g.running with
  | none =>
    rw [hg] at hrun
    have hwr : g.writes = false := by simp [Goroutine.writes, hg]
    cases ht : g.todo with
    | nil => exact ⟨h, hr, hwr⟩
    | cons op' ops =>
      simp only
      simp only [ht] at hrun
      cases hrun
      rename_i pre op post ns a rs e1 e2 e3 e4 hown hrest
      refine ⟨⟨origin, done, (ns, a) :: rs, he, hs, hd, (ns, a), rs, _, rfl, ?_, ?_, hrest⟩, hr, hwr⟩
      · -- the call only reads
        have hpre := Protoast.Again.exec_ext pre (c := c) fun o ho => quiet_loaded (hw o (by rw [e1]; simp [ho]))
        have hl : Protoast.Quiet.Loaded' (c.exec pre).reg op :=
          Protoast.Again.loaded_ext hpre (quiet_loaded (hw op (by rw [e1]; simp)))
        have hpost : CacheExt (op.run (c.exec pre).pool (c.exec pre).reg).2 (c.exec warm).reg := by
          have h1 := Protoast.Again.op_ext (pool := (c.exec pre).pool) hl
          rw [← Protoast.Again.step_reg] at h1 ⊢
          rw [e1, exec_split]
          exact Protoast.Again.exec_ext post fun o ho =>
            Protoast.Again.loaded_ext (hpre.trans h1) (quiet_loaded (hw o (by rw [e1]; simp [ho])))
        have hpool : ∃ ns, (c.exec warm).pool = (c.exec pre).pool ++ ns := by
          have e : c.exec (pre ++ op :: post) = (c.exec pre).exec (op :: post) := by simp [Client.exec, List.foldl_append]
          rw [e1, e]
          exact Protoast.Again.exec_pool _ _
        have hsame : SameCall (c.exec pre).pool g.pool op op' := by
          cases hown with
          | proto => exact .proto
          | byName => exact .byName
          | query hj =>
            rename_i i j q
            obtain ⟨n, hn⟩ := e2 i q rfl
            rcases AllRel.get hs j with ⟨g1, g2⟩ | ⟨i', m, g1, g2, m', hm, hlike⟩
            · rw [hj] at g1; cases g1
            · rw [hj] at g1
              cases g1
              have : (c.exec warm).pool[i]? = some n := pool_mono hpool i n hn
              rw [this] at hm
              cases hm
              exact .query hn g2 hlike
        exact (call_rep hsame hl (call_ok e3 e4)).2 _ hpost
      · -- its handles
        intro ms hms
        have hstep : ((c.exec pre).step op).pool = (c.exec pre).pool ++ ns := by
          unfold Client.step
          rcases hop : op.run (c.exec pre).pool (c.exec pre).reg with ⟨res, r'⟩
          rw [hop] at e3
          cases e3
          rfl
        obtain ⟨more, hmore⟩ := Protoast.Again.exec_pool post ((c.exec pre).step op)
        rw [← exec_split, ← e1, hstep] at hmore
        exact standFor_range hmore hms
  | some p =>
    rw [hg] at hrun
    obtain ⟨x, rest', more, hrest, hp, hm, hrep⟩ := hrun
    cases p with
    | ret y =>
      have hy : LikeReply x y := hp
      refine ⟨⟨origin ++ more, done ++ [x], rest', by rw [he, hrest]; simp, standFor_append hs (hm _ hy.1),
        AllRel.append hd (.cons ⟨y, rfl, hy⟩ .nil), hrep⟩, hr, by simp [Goroutine.writes, hg, P.writes]⟩
    | panic e => exact hp.elim
    | timeout => exact hp.elim
    | read k =>
      exact ⟨⟨origin, done, rest, he, hs, hd, x, rest', more, hrest, hp r hr, hm, hrep⟩, hr,
        by simp [Goroutine.writes, hg, P.writes]⟩
    | alloc k =>
      exact ⟨⟨origin, done, rest, he, hs, hd, x, rest', more, hrest, hp _, hm, hrep⟩, tables_next hr _,
        by simp [Goroutine.writes, hg, P.writes]⟩
    | parse f k => exact hp.elim
    | write w k => exact hp.elim

theorem run_append (s : System) (a b : List Nat) : s.run (a ++ b) = (s.run a).run b := by
  simp [System.run, List.foldl_append]

/-- What holds of the system at every moment. -/
structure AllGood (c : Client) (warm : List Op) (expected : List (List Reply)) (s : System) : Prop where
  tables : Tables (c.exec warm).reg s.reg
  good : ∀ (i : Nat) g, s.gs[i]? = some g → ∃ es, expected[i]? = some es ∧ Good c warm es g

theorem allGood_step {c : Client} {warm : List Op} (hw : ∀ op ∈ warm, LoadsNothing c.reg op) {expected : List (List Reply)}
    {s : System} (h : AllGood c warm expected s) (i : Nat) : AllGood c warm expected (s.step i) := by
  unfold System.step
  cases hg : s.gs[i]? with
  | none => exact h
  | some g =>
    obtain ⟨es, he, hgood⟩ := h.good i g hg
    obtain ⟨h1, h2, -⟩ := good_step hw hgood h.tables
    refine ⟨h2, fun j g' hj => ?_⟩
    simp only [List.getElem?_set] at hj
    split at hj
    · next hij =>
      subst hij
      split at hj
      · cases hj; exact ⟨es, he, h1⟩
      · cases hj
    · exact h.good j g' hj

theorem allGood_run {c : Client} {warm : List Op} (hw : ∀ op ∈ warm, LoadsNothing c.reg op) {expected : List (List Reply)}
    (schedule : List Nat) {s : System} (h : AllGood c warm expected s) : AllGood c warm expected (s.run schedule) := by
  induction schedule generalizing s with
  | nil => exact h
  | cons i l ih => exact ih (allGood_step hw h i)

theorem likes_same {x y : Reply} (h : LikeReply x y) : SameReply x y := by
  refine ⟨allRel_length h.1, fun i n m hn hm => ?_, h.2⟩
  rcases AllRel.get h.1 i with ⟨g1, _⟩ | ⟨a, b, g1, g2, hab⟩
  · rw [g1] at hn; cases hn
  · rw [g1] at hn; rw [g2] at hm; cases hn; cases hm; exact hab

/-- Goroutines that start with the handles of the warm-up and repeat calls of it. -/
def Readers (c : Client) (warm : List Op) (gs : List Goroutine) (expected : List (List Reply)) : Prop :=
  ∀ (i : Nat) g, gs[i]? = some g → g.pool = (c.exec warm).pool ∧ g.running = none ∧ g.results = [] ∧
    ∃ es, expected[i]? = some es ∧ Replays c warm (List.range g.pool.length) g.todo es

theorem readers_good {c : Client} {warm : List Op} {gs : List Goroutine} {expected : List (List Reply)}
    (hg : Readers c warm gs expected) : AllGood c warm expected ⟨(c.exec warm).reg, gs⟩ := by
  refine ⟨rfl, fun i g h => ?_⟩
  obtain ⟨h1, h2, h3, es, h4, h5⟩ := hg i g h
  refine ⟨es, h4, ⟨List.range g.pool.length, [], es, rfl, ?_, ?_, ?_⟩⟩
  · have := standFor_range (pool := (c.exec warm).pool) (pre := []) (ns := g.pool) (post := []) (by simp [h1])
      (Small.Again.Likes.refl _)
    rw [List.range_eq_range']
    exact this
  · rw [h3]; exact .nil
  · rw [h2]; exact h5

/-- C96: after a warm-up that loads nothing, let any number of goroutines repeat its calls, on the handles of the warm-up
    or on those they receive themselves. Whatever the schedule, no goroutine ever writes to a map of the registry (so
    there is no race), the tables of the registry stay as they are, no call panics, and every call comes to the same as
    in the warm-up; a goroutine that is done has repeated all its calls. -/
theorem C96_readers {c : Client} {warm : List Op} (hw : ∀ op ∈ warm, LoadsNothing c.reg op) {gs : List Goroutine}
    {expected : List (List Reply)} (hg : Readers c warm gs expected) (schedule : List Nat) :
    (∀ i, (System.run ⟨(c.exec warm).reg, gs⟩ schedule).writes i = false) ∧
    SameTables (c.exec warm).reg (System.run ⟨(c.exec warm).reg, gs⟩ schedule).reg ∧
    ∀ (i : Nat) g, (System.run ⟨(c.exec warm).reg, gs⟩ schedule).gs[i]? = some g → ∃ es, expected[i]? = some es ∧
      (∀ (k : Nat) res, g.results[k]? = some res → ∃ x y, es[k]? = some x ∧ res = .ok y ∧ SameReply x y) ∧
      (g.finished → g.results.length = es.length) := by
  have h := allGood_run hw schedule (readers_good hg)
  generalize System.run ⟨(c.exec warm).reg, gs⟩ schedule = s at h
  refine ⟨fun i => ?_, ?_, fun i g hi => ?_⟩
  · unfold System.writes
    cases hi : s.gs[i]? with
    | none => rfl
    | some g =>
      obtain ⟨es, -, hgood⟩ := h.good i g hi
      exact (good_step hw hgood h.tables).2.2
  · have e : s.reg = { (c.exec warm).reg with next := s.reg.next } := h.tables
    rw [e]
    exact ⟨rfl, rfl, rfl, rfl, rfl, rfl⟩
  · obtain ⟨es, he, hgood⟩ := h.good i g hi
    obtain ⟨origin, done, rest, h1, h2, h3, h4⟩ := hgood.inv
    refine ⟨es, he, fun k res hk => ?_, fun hf => ?_⟩
    · rcases AllRel.get h3 k with ⟨g1, g2⟩ | ⟨x, r, g1, g2, y, hy, hxy⟩
      · rw [hk] at g2; cases g2
      · rw [hk] at g2
        cases g2
        refine ⟨x, y, ?_, hy, likes_same hxy⟩
        rw [h1, List.getElem?_append_left (List.getElem?_eq_some_iff.mp g1).1]
        exact g1
    · rw [hf.1] at h4
      simp only [hf.2] at h4
      cases h4
      rw [h1, List.append_nil]
      exact (allRel_length h3).symm

/-! ### Progress -/

theorem after_succ (s : System) (σ : Nat → Nat) (n : Nat) : s.after σ (n + 1) = (s.after σ n).step (σ n) := by
  simp [System.after, List.range_succ, System.run]

theorem after_add (s : System) (σ : Nat → Nat) (n m : Nat) :
    s.after σ (n + m) = (s.after σ n).after (fun k => σ (n + k)) m := by
  induction m with
  | zero => simp [System.after, System.run]
  | succ m ih => rw [← Nat.add_assoc, after_succ, after_succ, ih]

theorem step_other {s : System} {i j : Nat} (h : j ≠ i) : (s.step j).gs[i]? = s.gs[i]? := by
  unfold System.step
  cases s.gs[j]? with
  | none => rfl
  | some g => simp only [List.getElem?_set_ne h]

theorem step_self {s : System} {i : Nat} {g : Goroutine} (h : s.gs[i]? = some g) :
    (s.step i).gs[i]? = some (g.step s.reg).1 := by
  unfold System.step
  rw [h]
  simp only [List.getElem?_set_self (List.getElem?_eq_some_iff.mp h).1]

theorem fair_shift {σ : Nat → Nat} {i : Nat} (h : Fair σ i) (n : Nat) : Fair (fun k => σ (n + k)) i := by
  intro k
  obtain ⟨m, hm, e⟩ := h (n + k)
  exact ⟨m - n, by omega, by simp only; rw [← e]; congr 1; omega⟩

/-- The goroutine's next turn. -/
theorem next_turn {s : System} {σ : Nat → Nat} {i : Nat} {g : Goroutine} (hf : Fair σ i) (h : s.gs[i]? = some g) :
    ∃ n r, (s.after σ (n + 1)).gs[i]? = some (g.step r).1 := by
  obtain ⟨m, -, hm⟩ := hf 0
  have key : ∀ m, σ m = i → ∃ n, σ n = i ∧ ∀ k, k < n → σ k ≠ i := by
    intro m
    induction m using Nat.strongRecOn with
    | ind m ih =>
      intro hm
      by_cases hk : ∃ k, k < m ∧ σ k = i
      · obtain ⟨k, hk, e⟩ := hk
        exact ih k hk e
      · exact ⟨m, hm, fun k hkm e => hk ⟨k, hkm, e⟩⟩
  obtain ⟨n, hn, hlt⟩ := key m hm
  have same : ∀ k, k ≤ n → (s.after σ k).gs[i]? = some g := by
    intro k
    induction k with
    | zero => intro _; exact h
    | succ k ih =>
      intro hk
      rw [after_succ, step_other (hlt k (by omega))]
      exact ih (by omega)
  refine ⟨n, (s.after σ n).reg, ?_⟩
  rw [after_succ, hn]
  exact step_self (same n (Nat.le_refl _))

theorem call_ends {i : Nat} (p : P Reply) : ∀ {s : System} {σ : Nat → Nat} {g : Goroutine}, Fair σ i → s.gs[i]? = some g →
    g.running = some p → ∃ n g', (s.after σ n).gs[i]? = some g' ∧ g'.running = none ∧ g'.todo = g.todo := by
  have last : ∀ (p : P Reply) {s : System} {σ : Nat → Nat} {g : Goroutine}, p.result.isSome = true → Fair σ i →
      s.gs[i]? = some g → g.running = some p → ∃ n g', (s.after σ n).gs[i]? = some g' ∧ g'.running = none ∧ g'.todo = g.todo := by
    intro p s σ g hp hf h hr
    obtain ⟨n, r, hn⟩ := next_turn hf h
    refine ⟨_, _, hn, ?_⟩
    unfold Goroutine.step
    rw [hr]
    cases p <;> first | exact ⟨rfl, rfl⟩ | cases hp
  have more : ∀ (p : P Reply) {s : System} {σ : Nat → Nat} {g : Goroutine}, p.result = none → Fair σ i →
      s.gs[i]? = some g → g.running = some p → ∃ n r, (s.after σ (n + 1)).gs[i]? = some { g with running := some (p.step r).1 } := by
    intro p s σ g hp hf h hr
    obtain ⟨n, r, hn⟩ := next_turn hf h
    refine ⟨n, r, ?_⟩
    rw [hn]
    unfold Goroutine.step
    rw [hr]
    simp only [hp]
  have glue : ∀ {s : System} {σ : Nat → Nat} {g : Goroutine} {n : Nat} {q : P Reply},
      (s.after σ n).gs[i]? = some { g with running := some q } →
      (∃ m g', ((s.after σ n).after (fun k => σ (n + k)) m).gs[i]? = some g' ∧ g'.running = none ∧
        g'.todo = ({ g with running := some q } : Goroutine).todo) →
      ∃ n g', (s.after σ n).gs[i]? = some g' ∧ g'.running = none ∧ g'.todo = g.todo := by
    intro s σ g n q _ ⟨m, g', h1, h2, h3⟩
    exact ⟨n + m, g', by rw [after_add]; exact h1, h2, h3⟩
  induction p with
  | ret x => exact fun hf h hr => last _ rfl hf h hr
  | panic e => exact fun hf h hr => last _ rfl hf h hr
  | timeout => exact fun hf h hr => last _ rfl hf h hr
  | read k ih =>
    intro s σ g hf h hr
    obtain ⟨n, r, hn⟩ := more _ rfl hf h hr
    exact glue hn (ih _ (fair_shift hf _) hn rfl)
  | alloc k ih =>
    intro s σ g hf h hr
    obtain ⟨n, r, hn⟩ := more _ rfl hf h hr
    exact glue hn (ih _ (fair_shift hf _) hn rfl)
  | parse f k ih =>
    intro s σ g hf h hr
    obtain ⟨n, r, hn⟩ := more _ rfl hf h hr
    exact glue hn (ih _ (fair_shift hf _) hn rfl)
  | write w k ih =>
    intro s σ g hf h hr
    obtain ⟨n, r, hn⟩ := more _ rfl hf h hr
    exact glue hn (ih (fair_shift hf _) hn rfl)

/-- C96, progress: calls do not wait for each other. Whatever the other goroutines do (loading files included), a
    goroutine that is scheduled again and again finishes all its calls. -/
theorem C96_progress {s : System} {schedule : Nat → Nat} {i : Nat} (hf : Fair schedule i) (hi : i < s.gs.length) :
    ∃ n g, (s.after schedule n).gs[i]? = some g ∧ g.finished := by
  have key : ∀ (ops : List Op) (s : System) (σ : Nat → Nat) (g : Goroutine), Fair σ i → s.gs[i]? = some g →
      g.running = none → g.todo = ops → ∃ n g', (s.after σ n).gs[i]? = some g' ∧ g'.finished := by
    intro ops
    induction ops with
    | nil => exact fun s σ g hf h hr ht => ⟨0, g, h, hr, ht⟩
    | cons op ops ih =>
      intro s σ g hf h hr ht
      obtain ⟨n, r, hn⟩ := next_turn hf h
      have e : (g.step r).1 = { g with running := some (call g.pool op), todo := ops } := by
        unfold Goroutine.step
        rw [hr]
        simp only [ht]
      rw [e] at hn
      obtain ⟨m, g', h1, h2, h3⟩ := call_ends _ (fair_shift hf (n + 1)) hn rfl
      obtain ⟨k, g'', h4, h5⟩ := ih _ _ g' (fair_shift (fair_shift hf (n + 1)) m) h1 h2 h3
      exact ⟨n + 1 + m + k, g'', by rw [after_add, after_add]; simpa only [Nat.add_assoc] using h4, h5⟩
  have h : s.gs[i]? = some s.gs[i] := List.getElem?_eq_getElem hi
  cases hr : s.gs[i].running with
  | none => exact key _ s schedule _ hf h hr rfl
  | some p =>
    obtain ⟨m, g', h1, h2, h3⟩ := call_ends p hf h hr
    obtain ⟨k, g'', h4, h5⟩ := key _ _ _ g' (fair_shift hf m) h1 h2 rfl
    exact ⟨m + k, g'', by rw [after_add]; exact h4, h5⟩

/-! ### Examples -/

/-- The call made on the caller's own handle number `j`. -/
def onOwn (origin : List Nat) (j : Nat) : Op → Option Op
  | .proto W fuel path => some (.proto W fuel path)
  | .byName name => some (.byName name)
  | .query i q => if origin[j]? = some i then some (.query j q) else none

theorem onOwn_spec {origin : List Nat} {j : Nat} {op op' : Op} (h : onOwn origin j op = some op') : OnOwnHandles origin op op' := by
  cases op with
  | proto W fuel path => cases h; exact .proto
  | byName name => cases h; exact .byName
  | query i q =>
    simp only [onOwn] at h
    split at h
    · cases h; exact .query (by assumption)
    · cases h

/-- The calls of a goroutine that repeats the warm-up calls with the given numbers, on the given handles of its own, and
    what they came to in the warm-up. -/
def replayOf (c : Client) (warm : List Op) : List Nat → List (Nat × Nat) → Option (List Op × List Reply)
  | _, [] => some ([], [])
  | origin, (k, j) :: plan =>
    match warm[k]? with
    | none => none
    | some op =>
      match onOwn origin j op, (op.run (c.exec (warm.take k)).pool (c.exec (warm.take k)).reg).1,
        (op.answer (c.exec (warm.take k)).pool (c.exec (warm.take k)).reg).1 with
      | some op', .ok ns, .ok a =>
        if hasHandleB (c.exec (warm.take k)).pool op then
          match replayOf c warm (origin ++ List.range' (c.exec (warm.take k)).pool.length ns.length) plan with
          | some (ops, rs) => some (op' :: ops, (ns, a) :: rs)
          | none => none
        else none
      | _, _, _ => none

theorem replayOf_spec {c : Client} {warm : List Op} : ∀ {plan : List (Nat × Nat)} {origin : List Nat} {ops : List Op}
    {rs : List Reply}, replayOf c warm origin plan = some (ops, rs) → Replays c warm origin ops rs := by
  intro plan
  induction plan with
  | nil => intro origin ops rs h; cases h; exact .nil
  | cons kj plan ih =>
    obtain ⟨k, j⟩ := kj
    intro origin ops rs h
    simp only [replayOf] at h
    split at h
    · cases h
    · next op hop =>
      split at h
      · next op' ns a h1 h2 h3 =>
        split at h
        · next hh =>
          split at h
          · next ops' rs' hrest =>
            cases h
            refine .cons (pre := warm.take k) (post := warm.drop (k + 1)) ?_ (hasHandleB_spec hh) h2 h3 (onOwn_spec h1) (ih hrest)
            obtain ⟨hk, e⟩ := List.getElem?_eq_some_iff.mp hop
            rw [← e, List.getElem_cons_drop, List.take_append_drop]
          · cases h
        · cases h
      · cases h

/-- A goroutine that follows a plan. -/
def planned (c : Client) (warm : List Op) (plan : List (Nat × Nat)) : Option (Goroutine × List Reply) :=
  match replayOf c warm (List.range (c.exec warm).pool.length) plan with
  | some (ops, rs) => some (⟨(c.exec warm).pool, none, ops, []⟩, rs)
  | none => none

theorem planned_readers {c : Client} {warm : List Op} {plans : List (List (Nat × Nat))} {gs : List Goroutine}
    {expected : List (List Reply)} (h : plans.mapM (planned c warm) = some (gs.zip expected)) (hl : gs.length = expected.length) :
    Readers c warm gs expected := by
  intro i g hg
  have hi := (List.getElem?_eq_some_iff.mp hg).1
  obtain ⟨es, he⟩ : ∃ es, expected[i]? = some es := ⟨expected[i], List.getElem?_eq_getElem (by omega)⟩
  have hz : (gs.zip expected)[i]? = some (g, es) := by rw [List.getElem?_zip_eq_some]; exact ⟨hg, he⟩
  have key : ∀ (plans : List (List (Nat × Nat))) l, plans.mapM (planned c warm) = some l → ∀ (i : Nat) x, l[i]? = some x →
      ∃ plan, planned c warm plan = some x := by
    intro plans
    induction plans with
    | nil => intro l h i x hx; cases h; cases hx
    | cons p ps ih =>
      intro l h i x hx
      simp only [List.mapM_cons, Option.bind_eq_bind, Option.bind_eq_some_iff] at h
      obtain ⟨y, hy, l', hl', e⟩ := h
      cases e
      cases i with
      | zero => cases hx; exact ⟨p, hy⟩
      | succ i => exact ih l' hl' i x hx
  obtain ⟨plan, hp⟩ := key _ _ h i _ hz
  unfold planned at hp
  split at hp
  · next ops rs hr =>
    cases hp
    exact ⟨rfl, rfl, rfl, es, he, replayOf_spec hr⟩
  · cases hp

theorem zip_maps {α β : Type} (l : List (α × β)) : l = (l.map (·.1)).zip (l.map (·.2)) := by
  induction l with
  | nil => rfl
  | cons x l ih => rw [List.map_cons, List.map_cons, List.zip_cons_cons, ← ih]

/-- One goroutine repeats the warm-up backwards on the handles of the warm-up, another one repeats it in order on the
    handles it receives itself. -/
def readerPlans : List (List (Nat × Nat)) :=
  [[(7, 0), (6, 6), (5, 2), (4, 2), (3, 3), (2, 2), (1, 0), (0, 0)],
   [(0, 0), (1, 0), (2, 9), (3, 10), (4, 9), (5, 9), (6, 13), (7, 0)]]

/-- These goroutines. -/
def twoReaders : List (Goroutine × List Reply) := (readerPlans.mapM (planned Ex.c1 quietPre)).getD []

theorem quietPre_loads : ∀ op ∈ quietPre, LoadsNothing Ex.c1.reg op := by
  intro op ho
  simp only [quietPre, List.mem_cons, List.not_mem_nil, or_false] at ho
  rcases ho with rfl | rfl | rfl | rfl | rfl | rfl | rfl | rfl <;> trivial

/-- The conditions of `C96_readers` are met by these goroutines; when they take turns, both finish their eight calls; and
    the calls of the warm-up did write. -/
example : Readers Ex.c1 quietPre (twoReaders.map (·.1)) (twoReaders.map (·.2)) ∧ twoReaders.length = 2 ∧
    ((System.run ⟨(Ex.c1.exec quietPre).reg, twoReaders.map (·.1)⟩ ((List.range 160).map (· % 2))).gs.map fun g =>
      (g.results.length, g.running.isNone, g.todo.length)) = [(8, true, 0), (8, true, 0)] ∧
    ((List.range 80).any fun n => (System.run ⟨Ex.c1.reg, [⟨Ex.c1.pool, none, quietPre, []⟩]⟩ (List.replicate n 0)).writes 0) = true := by
  have hs : (readerPlans.mapM (planned Ex.c1 quietPre)).isSome = true := by decide +kernel
  refine ⟨?_, by decide +kernel, by decide +kernel, by decide +kernel⟩
  refine planned_readers (plans := readerPlans) ?_ (by simp)
  obtain ⟨l, hl⟩ := Option.isSome_iff_exists.mp hs
  have hr : twoReaders = l := by simp [twoReaders, hl]
  rw [hl, hr]
  rw [← zip_maps]

end Protoast.Props
