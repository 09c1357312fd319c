import Verif.Small.Lock
import Verif.Props.Goroutines
/-
  C97: calls under a lock amount to a sequential history.
-/
namespace Protoast.Props
open Protoast.Small

theorem call_alone (pool : List Node) (op : Op) (r : Reg) :
    (call pool op).alone r = (reply pool op r, (op.run pool r).2) := by
  have h1 := congrFun (call_handles pool op) r
  have h2 := congrFun (call_answer pool op) r
  rw [Small.Again.alone_bind] at h1 h2
  unfold reply
  rw [← h1, ← h2]
  rcases (call pool op).alone r with ⟨res, r'⟩
  cases res <;> rfl

theorem alone_step (p : P Reply) (r : Reg) : (p.step r).1.alone (p.step r).2 = p.alone r := by
  cases p <;> rfl

theorem callsOf_snoc (i k : Nat) (op : Op) (h : List (Nat × Op)) :
    callsOf i (h ++ [(k, op)]) = callsOf i h ++ if k = i then [op] else [] := by
  unfold callsOf
  by_cases e : k = i <;> simp [List.filter_append, e]

theorem callers_snoc (s : Callers) (h : List (Nat × Op)) (x : Nat × Op) : s.exec (h ++ [x]) = (s.exec h).step x := by
  simp [Callers.exec, List.foldl_append]

theorem callers_length (s : Callers) (h : List (Nat × Op)) : (s.exec h).all.length = s.all.length := by
  induction h using List.reverseRecOn with
  | nil => rfl
  | append_singleton h x ih =>
    rw [callers_snoc, ← ih]
    unfold Callers.step
    split <;> simp

theorem set_same {α : Type} {l : List α} {i : Nat} {x : α} (h : l[i]? = some x) : l.set i x = l := by
  apply List.ext_getElem?
  intro j
  rw [List.getElem?_set]
  split
  · next e =>
    subst e
    rw [h]
    simp [(List.getElem?_eq_some_iff.mp h).1]
  · rfl

/-- The goroutine as a caller. -/
def asCaller (g : Goroutine) : Caller := ⟨g.pool, g.results⟩

/-- Between calls: the system is in a state of a sequential history. -/
structure Between (s0 s : System) : Prop where
  inv : ∃ history, s.Idle ∧ s.callers = s0.callers.exec history ∧
    (∀ x ∈ history, x.1 < s0.gs.length) ∧
    ∀ (i : Nat) g0 g, s0.gs[i]? = some g0 → s.gs[i]? = some g → g0.todo = callsOf i history ++ g.todo

/-- Inside a call of goroutine `i`. -/
structure Inside (s0 s : System) (i : Nat) : Prop where
  inv : ∃ history g p op, s.gs[i]? = some g ∧ g.running = some p ∧
    (∀ (j : Nat) g', s.gs[j]? = some g' → j ≠ i → g'.running = none) ∧
    s.gs.map asCaller = (s0.callers.exec history).all ∧
    p.alone s.reg = (call g.pool op).alone (s0.callers.exec history).reg ∧
    (∀ x ∈ history, x.1 < s0.gs.length) ∧
    ∀ (j : Nat) g0 g', s0.gs[j]? = some g0 → s.gs[j]? = some g' →
      g0.todo = callsOf j history ++ (if i = j then [op] else []) ++ g'.todo

theorem between_step {s0 s : System} (h : Between s0 s) (i : Nat) : Between s0 (s.step i) ∨ Inside s0 (s.step i) i := by
  obtain ⟨history, hidle, hc, hlt, ht⟩ := h.inv
  cases hg : s.gs[i]? with
  | none =>
    left
    have : s.step i = s := by simp [System.step, hg]
    rw [this]
    exact h
  | some g =>
    have hr := hidle i g hg
    cases htodo : g.todo with
    | nil =>
      left
      have : s.step i = s := by simp [System.step, hg, Goroutine.step, hr, htodo, set_same hg]
      rw [this]
      exact h
    | cons op ops =>
      right
      have e : s.step i = ⟨s.reg, s.gs.set i { g with running := some (call g.pool op), todo := ops }⟩ := by
        simp [System.step, hg, Goroutine.step, hr, htodo]
      have hi := (List.getElem?_eq_some_iff.mp hg).1
      rw [e]
      refine ⟨history, _, _, op, List.getElem?_set_self hi, rfl, ?_, ?_, ?_, ?_, ?_⟩
      · intro j g' hj hne
        rw [List.getElem?_set_ne (Ne.symm hne)] at hj
        exact hidle j g' hj
      · rw [List.map_set, ← hc]
        exact set_same (x := asCaller { g with running := some (call g.pool op), todo := ops })
          (by simp [hg, asCaller])
      · rw [← hc]; rfl
      · exact hlt
      · intro j g0 g' h0 hj
        by_cases hij : i = j
        · subst hij
          rw [List.getElem?_set_self hi] at hj
          cases hj
          rw [ht i g0 g h0 hg, htodo]
          simp
        · rw [List.getElem?_set_ne hij] at hj
          rw [ht j g0 g' h0 hj]
          simp [hij]

/-- The handles of a client after a call. -/
theorem client_pool (pool : List Node) (op : Op) (r : Reg) :
    (Client.step ⟨r, pool⟩ op).pool = match reply pool op r with | .ok x => pool ++ x.1 | _ => pool := by
  generalize hres : reply pool op r = res
  unfold reply at hres
  unfold Client.step
  have hans := call_alone pool op r
  have h1 := congrFun (call_handles pool op) r
  rw [Small.Again.alone_bind, hans] at h1
  rcases hop : op.run pool r with ⟨res', r'⟩
  unfold reply at h1
  rw [hop] at h1 hres
  simp only at h1 hres
  rcases ha : (op.answer pool r).1 with a | a | _
  all_goals rw [ha] at h1 hres
  all_goals cases res' <;> simp only at h1 hres <;> subst hres <;> first | rfl | cases h1

theorem inside_step {s0 s : System} {i : Nat} (h : Inside s0 s i) : Between s0 (s.step i) ∨ Inside s0 (s.step i) i := by
  obtain ⟨history, g, p, op, hg, hp, hother, hcal, halone, hlt, ht⟩ := h.inv
  have hi := (List.getElem?_eq_some_iff.mp hg).1
  have hcaller : (s0.callers.exec history).all[i]? = some (asCaller g) := by
    rw [← hcal]; simp [hg]
  rw [call_alone] at halone
  have finish : ∀ (res : Res Reply) (pool' : List Node), p.result = some res →
      (g.step s.reg).1 = { g with pool := pool', running := none, results := g.results ++ [res] } →
      (g.step s.reg).2 = s.reg →
      (∀ r', p.alone r' = (res, r')) →
      pool' = (Client.step ⟨(s0.callers.exec history).reg, g.pool⟩ op).pool → Between s0 (s.step i) := by
    intro res pool' hres e1 e2 hal hpool
    have e : s.step i = ⟨s.reg, s.gs.set i { g with pool := pool', running := none, results := g.results ++ [res] }⟩ := by
      simp only [System.step, hg, e1, e2]
    rw [hal] at halone
    have hrep : reply g.pool op (s0.callers.exec history).reg = res := (congrArg Prod.fst halone).symm
    have hreg : (op.run g.pool (s0.callers.exec history).reg).2 = s.reg := (congrArg Prod.snd halone).symm
    rw [e]
    refine ⟨history ++ [(i, op)], ?_, ?_, ?_, ?_⟩
    · intro j g' hj
      by_cases hij : i = j
      · subst hij
        rw [List.getElem?_set_self hi] at hj
        cases hj
        rfl
      · rw [List.getElem?_set_ne hij] at hj
        exact hother j g' hj (Ne.symm hij)
    · rw [callers_snoc]
      show (⟨s.reg, (s.gs.set i _).map asCaller⟩ : Callers) = (s0.callers.exec history).step (i, op)
      generalize s0.callers.exec history = sq at hcal hcaller hrep hreg hpool
      unfold Callers.step
      simp only [hcaller]
      rw [List.map_set, hcal, Protoast.Again.step_reg]
      simp only [asCaller]
      rw [hreg, hrep, ← hpool]
    · intro x hx
      rcases List.mem_append.mp hx with hx | hx
      · exact hlt x hx
      · rw [List.mem_singleton] at hx
        rw [hx]
        have := callers_length s0.callers history
        rw [← hcal, List.length_map] at this
        simpa [System.callers, this] using hi
    · intro j g0 g' h0 hj
      rw [callsOf_snoc]
      by_cases hij : i = j
      · subst hij
        rw [List.getElem?_set_self hi] at hj
        cases hj
        rw [ht i g0 g h0 hg]
      · rw [List.getElem?_set_ne hij] at hj
        rw [ht j g0 g' h0 hj]
  have pools : ∀ res, reply g.pool op (s0.callers.exec history).reg = res →
      (Client.step ⟨(s0.callers.exec history).reg, g.pool⟩ op).pool = match res with | .ok x => g.pool ++ x.1 | _ => g.pool :=
    fun _ h => h ▸ client_pool ..
  have go : p.result = none → Inside s0 (s.step i) i := by
    intro hres
    have e : s.step i = ⟨(p.step s.reg).2, s.gs.set i { g with running := some (p.step s.reg).1 }⟩ := by
      simp [System.step, hg, Goroutine.step, hp, hres]
    rw [e]
    refine ⟨history, _, _, op, List.getElem?_set_self hi, rfl, ?_, ?_, ?_, ?_, ?_⟩
    · intro j g' hj hne
      rw [List.getElem?_set_ne (Ne.symm hne)] at hj
      exact hother j g' hj hne
    · rw [List.map_set, ← hcal]
      exact set_same (x := asCaller { g with running := some (p.step s.reg).1 }) (by simp [hg, asCaller])
    · rw [alone_step, call_alone]; exact halone
    · exact hlt
    · intro j g0 g' h0 hj
      by_cases hij : i = j
      · subst hij
        rw [List.getElem?_set_self hi] at hj
        cases hj
        exact ht i g0 g h0 hg
      · rw [List.getElem?_set_ne hij] at hj
        exact ht j g0 g' h0 hj
  cases p with
  | ret x =>
    left
    have hx : reply g.pool op (s0.callers.exec history).reg = .ok x := (congrArg Prod.fst halone).symm
    refine finish (.ok x) (g.pool ++ x.1) rfl ?_ ?_ (fun _ => rfl) (pools _ hx).symm
    · simp [Goroutine.step, hp, P.result]
    · simp [Goroutine.step, hp, P.result]
  | panic x =>
    left
    have hx : reply g.pool op (s0.callers.exec history).reg = .panic x := (congrArg Prod.fst halone).symm
    refine finish (.panic x) g.pool rfl ?_ ?_ (fun _ => rfl) (pools _ hx).symm
    · simp [Goroutine.step, hp, P.result]
    · simp [Goroutine.step, hp, P.result]
  | timeout =>
    left
    have hx : reply g.pool op (s0.callers.exec history).reg = .timeout := (congrArg Prod.fst halone).symm
    refine finish .timeout g.pool rfl ?_ ?_ (fun _ => rfl) (pools _ hx).symm
    · simp [Goroutine.step, hp, P.result]
    · simp [Goroutine.step, hp, P.result]
  | read k => exact .inr (go rfl)
  | alloc k => exact .inr (go rfl)
  | parse f k => exact .inr (go rfl)
  | write w k => exact .inr (go rfl)

theorem locked_run {s0 : System} : ∀ (schedule : List Nat) {s : System}, Locked s schedule →
    (Between s0 s ∨ ∃ i, Inside s0 s i) → Between s0 (s.run schedule) ∨ ∃ i, Inside s0 (s.run schedule) i := by
  intro schedule
  induction schedule with
  | nil => exact fun _ h => h
  | cons i rest ih =>
    intro s hL h
    refine ih hL.2 ?_
    rcases h with h | ⟨j, h⟩
    · rcases between_step h i with h | h
      · exact .inl h
      · exact .inr ⟨i, h⟩
    · have hji : j = i := by
        obtain ⟨_, g, p, _, hg, hp, _⟩ := h.inv
        exact hL.1 j g hg (by rw [hp]; simp)
      subst hji
      rcases inside_step h with h | h
      · exact .inl h
      · exact .inr ⟨j, h⟩

/-- C97: let goroutines make their calls under a lock, each call from start to end. When no goroutine is inside a call,
    the registry, the handles of every goroutine and the results of all its calls are those of a sequential history of
    the same calls, which has the calls of each goroutine in their order. -/
theorem C97_locked {s0 : System} {schedule : List Nat} (h0 : s0.Idle) (hL : Locked s0 schedule)
    (hend : (s0.run schedule).Idle) : ∃ history, (s0.run schedule).callers = s0.callers.exec history ∧
      (∀ x ∈ history, x.1 < s0.gs.length) ∧
      ∀ (i : Nat) g0 g, s0.gs[i]? = some g0 → (s0.run schedule).gs[i]? = some g → g0.todo = callsOf i history ++ g.todo := by
  have hstart : Between s0 s0 := by
    refine ⟨[], h0, rfl, by simp, fun i g0 g h h' => ?_⟩
    rw [h] at h'
    cases h'
    rfl
  rcases locked_run schedule hL (.inl hstart) with h | ⟨i, h⟩
  · obtain ⟨history, -, h1, h2, h3⟩ := h.inv
    exact ⟨history, h1, h2, h3⟩
  · exfalso
    obtain ⟨_, g, p, _, hg, hp, _⟩ := h.inv
    rw [hend i g hg] at hp
    cases hp

/-! ### One client -/

/-- The calls of several callers as calls of one client that has all their handles. -/
theorem callers_client {P : Str → List Elem → Prop} {r0 : Reg} {n : Nat} : ∀ (history : List (Nat × Op)),
    (∀ x ∈ history, Op.Sat P x.2) →
    ∃ ops, (∀ op ∈ ops, Op.Sat P op) ∧
      (Client.exec ⟨r0, []⟩ ops).reg = (Callers.exec ⟨r0, List.replicate n ⟨[], []⟩⟩ history).reg ∧
      ∀ (i : Nat) c, (Callers.exec ⟨r0, List.replicate n ⟨[], []⟩⟩ history).all[i]? = some c →
        ∀ m ∈ c.pool, m ∈ (Client.exec ⟨r0, []⟩ ops).pool := by
  intro history
  induction history using List.reverseRecOn with
  | nil =>
    intro _
    refine ⟨[], by simp, rfl, fun i c h m hm => ?_⟩
    have h : (List.replicate n (⟨[], []⟩ : Caller))[i]? = some c := h
    rw [List.getElem?_replicate] at h
    split at h
    · cases h; cases hm
    · cases h
  | append_singleton history x ih =>
    intro hsat
    obtain ⟨ops, h1, h2, h3⟩ := ih fun y hy => hsat y (by simp [hy])
    rw [callers_snoc]
    generalize Callers.exec ⟨r0, List.replicate n ⟨[], []⟩⟩ history = sq at h2 h3
    obtain ⟨i, op⟩ := x
    cases hc : sq.all[i]? with
    | none =>
      refine ⟨ops, h1, ?_, ?_⟩
      · simp only [Callers.step, hc]; exact h2
      · simp only [Callers.step, hc]; exact h3
    | some c =>
      -- the same call on the handles of the one client
      obtain ⟨op', hop, hrun⟩ : ∃ op', Op.Sat P op' ∧
          op'.run (Client.exec ⟨r0, []⟩ ops).pool sq.reg = op.run c.pool sq.reg := by
        cases op with
        | proto W fuel path => exact ⟨.proto W fuel path, hsat (i, .proto W fuel path) (by simp), rfl⟩
        | byName name => exact ⟨.byName name, trivial, rfl⟩
        | query j q =>
          cases hj : c.pool[j]? with
          | none =>
            refine ⟨.query (Client.exec ⟨r0, []⟩ ops).pool.length q, trivial, ?_⟩
            simp [Op.run, hj]
          | some m =>
            obtain ⟨k, hk⟩ := List.mem_iff_getElem?.mp (h3 i c hc m (List.mem_of_getElem? hj))
            exact ⟨.query k q, trivial, by simp [Op.run, hj, hk]⟩
      refine ⟨ops ++ [op'], ?_, ?_, ?_⟩
      · intro o ho
        rcases List.mem_append.mp ho with ho | ho
        · exact h1 o ho
        · rw [List.mem_singleton] at ho; rw [ho]; exact hop
      · have e : Client.exec ⟨r0, []⟩ (ops ++ [op']) = (Client.exec ⟨r0, []⟩ ops).step op' := by
          simp [Client.exec, List.foldl_append]
        rw [e, Protoast.Again.step_reg, h2, hrun]
        simp only [Callers.step, hc, Protoast.Again.step_reg]
      · have e : Client.exec ⟨r0, []⟩ (ops ++ [op']) = (Client.exec ⟨r0, []⟩ ops).step op' := by
          simp [Client.exec, List.foldl_append]
        rw [e]
        have hpool : ((Client.exec ⟨r0, []⟩ ops).step op').pool = (Client.exec ⟨r0, []⟩ ops).pool ++
            match (op.run c.pool sq.reg).1 with | .ok ns => ns | _ => [] := by
          unfold Client.step
          rw [h2, hrun]
          rcases op.run c.pool sq.reg with ⟨res, r'⟩
          cases res <;> simp
        have hmine : (Client.step ⟨sq.reg, c.pool⟩ op).pool = c.pool ++
            match (op.run c.pool sq.reg).1 with | .ok ns => ns | _ => [] := by
          unfold Client.step
          rcases op.run c.pool sq.reg with ⟨res, r'⟩
          cases res <;> simp
        rw [hpool]
        intro j c' hj m hm
        simp only [Callers.step, hc] at hj
        rw [List.getElem?_set] at hj
        split at hj
        · split at hj
          · cases hj
            rw [hmine] at hm
            rcases List.mem_append.mp hm with hm | hm
            · exact List.mem_append_left _ (h3 i c hc m hm)
            · exact List.mem_append_right _ hm
          · cases hj
        · exact List.mem_append_left _ (h3 j c' hj m hm)

/-- C97: so whatever is proved about the handles of a client that makes calls one after the other holds of the handles
    of goroutines that make their calls under a lock: they are handles of a client in a reachable state with the same
    registry. -/
theorem C97_reachable {P : Str → List Elem → Prop} {W : World} {fuel : Nat} {r0 : Reg} (hW : W.Sat P)
    (hr : newRegistry W fuel = (.ok (.ok ()), r0)) {programs : List (List Op)} (hsat : ∀ p ∈ programs, ∀ op ∈ p, Op.Sat P op)
    {schedule : List Nat} (hL : Locked ⟨r0, programs.map fun p => ⟨[], none, p, []⟩⟩ schedule)
    (hend : (System.run ⟨r0, programs.map fun p => ⟨[], none, p, []⟩⟩ schedule).Idle) :
    ∃ c, Reachable P c ∧ c.reg = (System.run ⟨r0, programs.map fun p => ⟨[], none, p, []⟩⟩ schedule).reg ∧
      ∀ (i : Nat) g, (System.run ⟨r0, programs.map fun p => ⟨[], none, p, []⟩⟩ schedule).gs[i]? = some g →
        ∀ n ∈ g.pool, n ∈ c.pool := by
  have hidle : (System.mk r0 (programs.map fun p => ⟨[], none, p, []⟩)).Idle := by
    intro i g hg
    have hg : (programs.map fun p => (⟨[], none, p, []⟩ : Goroutine))[i]? = some g := hg
    rw [List.getElem?_map] at hg
    cases hp : programs[i]? with
    | none => rw [hp] at hg; cases hg
    | some p => rw [hp] at hg; cases hg; rfl
  obtain ⟨history, h1, h2, h3⟩ := C97_locked hidle hL hend
  have hlen : (System.run ⟨r0, programs.map fun p => ⟨[], none, p, []⟩⟩ schedule).gs.length = programs.length := by
    have a := congrArg (fun c => c.all.length) h1
    simp only [callers_length] at a
    simpa [System.callers] using a
  have e0 : (System.mk r0 (programs.map fun p => ⟨[], none, p, []⟩)).callers = ⟨r0, List.replicate programs.length ⟨[], []⟩⟩ := by
    simp only [System.callers, List.map_map]
    congr 1
    exact List.map_const (l := programs) (b := (⟨[], []⟩ : Caller))
  have hops : ∀ x ∈ history, Op.Sat P x.2 := by
    intro x hx
    have hlt : x.1 < programs.length := by simpa using h2 x hx
    have := h3 x.1 ⟨[], none, programs[x.1], []⟩ ((System.run ⟨r0, programs.map fun p => ⟨[], none, p, []⟩⟩ schedule).gs[x.1]'(by
      rw [hlen]; exact hlt)) (by simp [hlt]) (List.getElem?_eq_getElem _)
    refine hsat programs[x.1] (List.getElem_mem hlt) x.2 ?_
    have hm : x.2 ∈ callsOf x.1 history := by
      unfold callsOf
      exact List.mem_map.mpr ⟨x, List.mem_filter.mpr ⟨hx, by simp⟩, rfl⟩
    have this : programs[x.1] = _ := this
    rw [this]
    exact List.mem_append_left _ hm
  obtain ⟨ops, g1, g2, g3⟩ := callers_client (r0 := r0) (n := programs.length) history hops
  rw [e0] at h1
  rw [← h1] at g2 g3
  refine ⟨_, ⟨W, fuel, r0, ops, hW, hr, g1, rfl⟩, g2, fun i g hg n hn => ?_⟩
  exact g3 i ⟨g.pool, g.results⟩ (by simp [System.callers, hg]) n hn

/-! ### An example -/

/-- Checks `Locked`. -/
def lockedB (s : System) : List Nat → Bool
  | [] => true
  | i :: rest => ((List.range s.gs.length).all fun j => j == i || (s.gs[j]?.all fun g => g.running.isNone)) && lockedB (s.step i) rest

theorem lockedB_spec : ∀ {schedule : List Nat} {s : System}, lockedB s schedule = true → Locked s schedule := by
  intro schedule
  induction schedule with
  | nil => exact fun _ => trivial
  | cons i rest ih =>
    intro s h
    simp only [lockedB, Bool.and_eq_true, List.all_eq_true, List.mem_range, Bool.or_eq_true, beq_iff_eq] at h
    refine ⟨fun j g hg hr => ?_, ih h.2⟩
    rcases h.1 j (List.getElem?_eq_some_iff.mp hg).1 with e | e
    · exact e
    · rw [hg] at e
      cases hp : g.running with
      | none => exact absurd hp hr
      | some p => simp [hp] at e

/-- Checks `System.Idle`. -/
def idleB (s : System) : Bool := s.gs.all fun g => g.running.isNone

theorem idleB_spec {s : System} (h : idleB s = true) : s.Idle := by
  intro i g hg
  simp only [idleB, List.all_eq_true] at h
  simpa using h g (List.mem_of_getElem? hg)

/-- Goroutine `i` takes the lock, makes one call and releases the lock: its steps. -/
def turn (s : System) (i : Nat) : Nat → List Nat
  | 0 => []
  | n + 1 => if idleB (s.step i) then [i] else i :: turn (s.step i) i n

/-- The goroutines take the lock in the given order. -/
def lockTurns (s : System) (n : Nat) : List Nat → List Nat
  | [] => []
  | i :: rest => turn s i n ++ lockTurns (s.run (turn s i n)) n rest

/-- Two goroutines on a new registry: both load a file, look a message up and ask for the type of its first field. -/
def lockedPrograms : List (List Op) :=
  [[.proto Ex.W 5 Ex.pa, .query 0 (.named .fileMessage b!"M"), .query 1 (.iter .messageFields 0), .query 2 (.plain .fieldType)],
   [.proto Ex.W 5 Ex.pa, .query 0 (.named .fileMessage b!"M"), .query 1 (.iter .messageFields 0), .query 2 (.plain .fieldType)]]

/-- They start. -/
def lockedStart : System := ⟨Ex.r0, lockedPrograms.map fun p => ⟨[], none, p, []⟩⟩

/-- A schedule under a lock. -/
def lockedSchedule : List Nat := lockTurns lockedStart 200 [1, 0, 0, 1, 1, 0, 1, 0]

/-- The conditions of `C97_locked` and `C97_reachable` are met: the calls of the two goroutines alternate, and each of
    them gets its four handles. -/
example : Locked lockedStart lockedSchedule ∧ lockedStart.Idle ∧ (lockedStart.run lockedSchedule).Idle ∧
    lockedSchedule.length > 40 ∧
    ((lockedStart.run lockedSchedule).gs.map fun g => (g.pool.length, g.results.length, g.todo.length)) = [(4, 4, 0), (4, 4, 0)] :=
  ⟨lockedB_spec (by decide +kernel), idleB_spec (by decide +kernel), idleB_spec (by decide +kernel), by decide +kernel, by decide +kernel⟩

end Protoast.Props

