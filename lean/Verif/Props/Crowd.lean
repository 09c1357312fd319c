import Verif.Small.Crowd4
import Verif.Props.Race
/-
  C101: goroutines that load nothing do not disturb each other, but for the identity of new nodes.
-/
namespace Protoast.Props
open Protoast.Small
open Protoast.Small.Crowd

/-- Nothing was loaded: the files, and the tables of names and scopes are the same. -/
def NothingLoaded (r r' : Reg) : Prop :=
  r'.heap = r.heap ∧ r'.protos = r.protos ∧ r'.registry = r.registry ∧ r'.scopes = r.scopes

/-- What holds of a goroutine at every moment. -/
structure Kept (T : Reg) (s : Typing) (g g' : Goroutine) : Prop where
  inv : ∃ done, (∀ n ∈ g'.pool, Typed T s n) ∧
    Have.blur T.next (g'.pool, g'.results) = still T (Have.blur T.next (g.pool, g.results)) done ∧
    match g'.running with
    | none => g.todo = done ++ g'.todo
    | some p => ∃ op, g.todo = done ++ op :: g'.todo ∧
        Runs T (fun s' x => Protoast.ResRel (ReplyR T s') x (static T (call (g'.pool.map (blur T.next)) op))) p s

theorem resRel_mono {T : Reg} {s s' : Typing} (h : s.le s') {x y : Res Reply} (g : Protoast.ResRel (ReplyR T s) x y) :
    Protoast.ResRel (ReplyR T s') x y := by
  cases x <;> cases y <;> simp only [Protoast.ResRel] at g ⊢
  · exact ⟨⟨g.1.1, fun n hn => (g.1.2 n hn).mono h⟩, g.2⟩
  · exact g

theorem Kept.mono {T : Reg} {s s' : Typing} (h : s.le s') {g g' : Goroutine} (k : Kept T s g g') : Kept T s' g g' := by
  obtain ⟨done, h1, h2, h3⟩ := k.inv
  refine ⟨done, fun n hn => (h1 n hn).mono h, h2, ?_⟩
  cases hr : g'.running with
  | none => rw [hr] at h3; exact h3
  | some p =>
    rw [hr] at h3
    obtain ⟨op, h4, h5⟩ := h3
    exact ⟨op, h4, Runs.weaken
      (Q := fun s x => Protoast.ResRel (ReplyR T s) x (static T (call (g'.pool.map (blur T.next)) op)))
      (fun _ _ _ h g => resRel_mono h g) h h5⟩

theorem kept_step {T : Reg} {s : Typing} {g g' : Goroutine} (hops : ∀ op ∈ g.todo, LoadsNothing T op)
    (hset : StillSettles T (Have.blur T.next (g.pool, g.results)) g.todo) (k : Kept T s g g') {r : Reg} (hr : GoodReg T s r) :
    ∃ s', s.le s' ∧ GoodReg T s' (g'.step r).2 ∧ Kept T s' g (g'.step r).1 := by
  obtain ⟨done, h1, h2, h3⟩ := k.inv
  unfold Goroutine.step
  cases hrun : g'.running with
  | none =>
    rw [hrun] at h3
    simp only at h3 ⊢
    cases ht : g'.todo with
    | nil => exact ⟨s, .refl _, hr, k⟩
    | cons op ops =>
      refine ⟨s, .refl _, hr, done, h1, h2, op, by rw [h3, ht], ?_⟩
      exact call_sim h1 (quiet_loaded (hops op (by rw [h3, ht]; simp)))
  | some p =>
    rw [hrun] at h3
    obtain ⟨op, ht, hp⟩ := h3
    have hpool : g'.pool.map (blur T.next) = (still T (Have.blur T.next (g.pool, g.results)) done).1 := congrArg Prod.fst h2
    have fin : ∀ res, Protoast.ResRel (ReplyR T s) res (static T (call (g'.pool.map (blur T.next)) op)) →
        Kept T s g { g' with pool := (Have.add (g'.pool, g'.results) res).1, running := none, results := g'.results ++ [res] } := by
      intro res hres
      refine ⟨done ++ [op], add_typed (x := (g'.pool, g'.results)) (.refl _) h1 hres, ?_, by simp [ht]⟩
      rw [still_snoc, ← hpool, ← h2, ← add_blur hres]
      cases res <;> rfl
    have go : p.result = none → ∃ s', s.le s' ∧ GoodReg T s' (p.step r).2 ∧ Kept T s' g { g' with running := some (p.step r).1 } := by
      intro _
      obtain ⟨s', g1, g2, g3⟩ := hp.step (fun s e he hq => by
        rw [hpool] at hq
        have := StillSettles.at (T := T) (ops := done) (op := op) (rest := g'.todo) (by rw [← ht]; exact hset) e he
        cases hst : static T (call (still T (Have.blur T.next (g.pool, g.results)) done).1 op) with
        | ok y => rw [hst] at hq; exact hq
        | panic e' =>
          rw [hst] at hq
          have hq : e = e' := hq
          subst hq
          exact this hst
        | timeout => rw [hst] at hq; exact hq) hr
      exact ⟨s', g1, g2, done, fun n hn => (h1 n hn).mono g1, h2, op, ht, g3⟩
    cases p with
    | ret x => exact ⟨s, .refl _, hr, fin (.ok x) hp⟩
    | panic e => exact ⟨s, .refl _, hr, fin (.panic e) hp⟩
    | timeout => exact ⟨s, .refl _, hr, fin .timeout hp⟩
    | read k => exact go rfl
    | alloc k => exact go rfl
    | parse f k => exact go rfl
    | write w k => exact go rfl

/-- The goroutine is between calls at the start, its handles come from the client, and its calls load nothing and, when
    it makes them alone, return or panic for reasons other than a declaration with no handle type. -/
structure Queries (c : Client) (g : Goroutine) : Prop where
  idle : g.running = none
  pool : ∀ n ∈ g.pool, n ∈ c.pool
  ops : ∀ op ∈ g.todo, LoadsNothing c.reg op
  settles : Settles ⟨c.reg, g.pool⟩ g.todo

theorem settles_prefix : ∀ {xs ys : List Op} {c : Client}, Settles c (xs ++ ys) → Settles c xs
  | [], _, _, _ => trivial
  | _ :: _, _, _, h => ⟨h.1, settles_prefix h.2⟩

/-- C101: once the files are loaded, any number of goroutines may query the registry at the same time, with no lock and
    in any order of their steps. At every moment, every goroutine has the handles and the results that it has when it
    makes its calls alone, but for the identity of nodes created meanwhile; nothing is loaded. -/
theorem C101_queries {P : Str → List Elem → Prop} {c : Client} (hc : Reachable P c) {gs : List Goroutine}
    (hgs : ∀ g ∈ gs, Queries c g) (schedule : List Nat) :
    NothingLoaded c.reg (System.run ⟨c.reg, gs⟩ schedule).reg ∧
    ∀ (i : Nat) g, gs[i]? = some g →
      ∃ g' done alone, (System.run ⟨c.reg, gs⟩ schedule).gs[i]? = some g' ∧ done <+: g.todo ∧
        (g'.running = none → g.todo = done ++ g'.todo) ∧ (g.alone c.reg done).all = [alone] ∧
        g'.pool.map (blur c.reg.next) = alone.pool.map (blur c.reg.next) ∧
        g'.results.map (blurResult c.reg.next) = alone.results.map (blurResult c.reg.next) := by
  obtain ⟨o, hi, hgood⟩ := reachable_inv hc
  have hstart := goodReg_start hi
  have htyped : ∀ g ∈ gs, ∀ n ∈ g.pool, Typed c.reg (typing o) n := fun g hg n hn => typed_old (hgood n ((hgs g hg).pool n hn))
  have hlone : ∀ g ∈ gs, ∀ done, done <+: g.todo → ∃ alone, (g.alone c.reg done).all = [alone] ∧
      Have.blur c.reg.next (alone.pool, alone.results) = still c.reg (Have.blur c.reg.next (g.pool, g.results)) done ∧
      StillSettles c.reg (Have.blur c.reg.next (g.pool, g.results)) done := by
    intro g hg done ⟨rest, hd⟩
    have hq := hgs g hg
    exact alone_still done (x := (g.pool, g.results)) hstart (htyped g hg)
      (settles_prefix (ys := rest) (by rw [hd]; exact hq.settles)) fun op ho => hq.ops op (by rw [← hd]; simp [ho])
  have hset : ∀ g ∈ gs, StillSettles c.reg (Have.blur c.reg.next (g.pool, g.results)) g.todo := fun g hg => by
    obtain ⟨_, _, _, h⟩ := hlone g hg g.todo (List.prefix_refl _)
    exact h
  have key : ∀ (schedule : List Nat) (s : System),
      (∃ t, GoodReg c.reg t s.reg ∧ ∀ (i : Nat) g, gs[i]? = some g → ∃ g', s.gs[i]? = some g' ∧ Kept c.reg t g g') →
      s.gs.length = gs.length →
      ∃ t, GoodReg c.reg t (s.run schedule).reg ∧
        ∀ (i : Nat) g, gs[i]? = some g → ∃ g', (s.run schedule).gs[i]? = some g' ∧ Kept c.reg t g g' := by
    intro schedule
    induction schedule with
    | nil => exact fun s h _ => h
    | cons j rest ih =>
      intro s ⟨t, h1, h2⟩ hlen
      have hlen' : (s.step j).gs.length = gs.length := by
        rw [← hlen]
        unfold System.step
        split <;> simp
      refine ih (s.step j) ?_ hlen'
      cases hj : gs[j]? with
      | none =>
        have : s.gs[j]? = none := by
          rw [List.getElem?_eq_none_iff] at hj ⊢
          omega
        have e : s.step j = s := by simp [System.step, this]
        rw [e]
        exact ⟨t, h1, h2⟩
      | some g =>
        have hm := List.mem_of_getElem? hj
        obtain ⟨g', h3, h4⟩ := h2 j g hj
        obtain ⟨t', h5, h6, h7⟩ := kept_step (hgs g hm).ops (hset g hm) h4 h1
        have hreg : (s.step j).reg = (g'.step s.reg).2 := by simp [System.step, h3]
        refine ⟨t', by rw [hreg]; exact h6, fun i f hf => ?_⟩
        by_cases hij : j = i
        · subst hij
          rw [hj] at hf
          cases hf
          exact ⟨_, step_self h3, h7⟩
        · obtain ⟨f', h8, h9⟩ := h2 i f hf
          exact ⟨f', by rw [step_other hij]; exact h8, h9.mono h5⟩
  obtain ⟨t, h1, h2⟩ := key schedule ⟨c.reg, gs⟩ ⟨typing o, hstart, fun i g hg => ⟨g, hg, [],
    htyped g (List.mem_of_getElem? hg), rfl, by rw [(hgs g (List.mem_of_getElem? hg)).idle]; rfl⟩⟩ rfl
  refine ⟨⟨h1.front.heap, h1.front.protos, h1.front.names, h1.front.scopes⟩, fun i g hg => ?_⟩
  obtain ⟨g', h3, h4⟩ := h2 i g hg
  obtain ⟨done, -, h6, h7⟩ := h4.inv
  have hpre : done <+: g.todo := by
    cases hr : g'.running with
    | none => rw [hr] at h7; exact ⟨_, h7.symm⟩
    | some p =>
      rw [hr] at h7
      obtain ⟨op, h7, _⟩ := h7
      exact ⟨_, h7.symm⟩
  obtain ⟨alone, g1, g2, -⟩ := hlone g (List.mem_of_getElem? hg) done hpre
  rw [← h6] at g2
  exact ⟨g', done, alone, h3, hpre, fun hn => by rw [hn] at h7; exact h7, g1, (congrArg Prod.fst g2).symm,
    (congrArg Prod.snd g2).symm⟩

/-! ### The identity of nodes -/

/-- C102, the full statement: a goroutine that queries the registry while others do has one node for one declaration. -/
def C102 : Prop := ∀ (P : Str → List Elem → Prop) (c : Client) (gs : List Goroutine) (schedule : List Nat), Reachable P c →
  (∀ g ∈ gs, Queries c g) → ∀ g ∈ (System.run ⟨c.reg, gs⟩ schedule).gs, ∀ (a a' : Nat) (k : WKind) (p : Ptr), k ≠ .file →
    Node.wrapped a k p ∈ g.pool → Node.wrapped a' k p ∈ g.pool → a = a'

/-- Two goroutines that ask the same file for the same message, its fields and their types, one of them twice. -/
def crowd : List Goroutine :=
  [⟨Ex.c1.pool, none, [.query 0 (.named .fileMessage b!"M"), .query 0 (.named .fileMessage b!"M"),
      .query 1 (.iter .messageFields 0), .query 3 (.plain .fieldType), .query 1 (.iter .messageFields 3),
      .query 5 (.plain .fieldType), .query 5 (.plain .number), .query 6 (.plain .name)], []⟩,
   ⟨Ex.c1.pool, none, [.query 0 (.named .fileMessage b!"M"), .query 1 (.iter .messageFields 3), .query 2 (.plain .fieldType),
      .query 3 (.plain .typeName), .query 1 (.plain (.hierarchy 5))], []⟩]

/-- They take turns. -/
def crowdSchedule : List Nat := (List.range 120).map (· % 2)

theorem crowd_queries : ∀ g ∈ crowd, Queries Ex.c1 g := by
  intro g hg
  simp only [crowd, List.mem_cons, List.not_mem_nil, or_false] at hg
  rcases hg with rfl | rfl
  · refine ⟨rfl, fun n hn => hn, ?_, settlesB_spec (by decide +kernel)⟩
    intro op ho
    simp only [List.mem_cons, List.not_mem_nil, or_false] at ho
    rcases ho with rfl | rfl | rfl | rfl | rfl | rfl | rfl | rfl <;> trivial
  · refine ⟨rfl, fun n hn => hn, ?_, settlesB_spec (by decide +kernel)⟩
    intro op ho
    simp only [List.mem_cons, List.not_mem_nil, or_false] at ho
    rcases ho with rfl | rfl | rfl | rfl | rfl <;> trivial

/-- The addresses of the messages among the handles. -/
def messageAddresses (g : Goroutine) : List (Nat × Ptr) :=
  g.pool.filterMap fun n => match n with | .wrapped a .message p => some (a, p) | _ => none

/-- The conditions of `C101_queries` are met by goroutines that make all their calls, get different nodes for the same
    declarations, and call a function that panics. -/
example : Reachable AnyTree Ex.c1 ∧ (∀ g ∈ crowd, Queries Ex.c1 g) ∧
    ((System.run ⟨Ex.c1.reg, crowd⟩ crowdSchedule).gs.map fun g => (g.results.length, g.running.isNone, g.todo.length)) =
      [(8, true, 0), (5, true, 0)] ∧
    ((System.run ⟨Ex.c1.reg, crowd⟩ crowdSchedule).gs.map fun g => (g.results.filter fun r => !Ex.isOk r).length) = [1, 0] ∧
    ((System.run ⟨Ex.c1.reg, crowd⟩ crowdSchedule).gs.map messageAddresses) ≠
      (crowd.map fun g => ((g.alone Ex.c1.reg g.todo).all.flatMap fun c => messageAddresses ⟨c.pool, none, [], []⟩)) :=
  ⟨Ex.c1_reach, crowd_queries, by decide +kernel, by decide +kernel, by decide +kernel⟩

/-- C102 does not hold: two goroutines that ask for a declaration that has no node yet both create one, and the one that
    writes last decides which one is handed out from then on. -/
theorem C102_false : ¬ C102 := by
  intro h
  have hm : ∃ g ∈ (System.run ⟨Ex.c1.reg, crowd⟩ crowdSchedule).gs, ∃ p, Node.wrapped 1 .message p ∈ g.pool ∧
      Node.wrapped 2 .message p ∈ g.pool := by
    have hg : ((System.run ⟨Ex.c1.reg, crowd⟩ crowdSchedule).gs[0]?.map fun g => (messageAddresses g).take 2) =
        some [(1, ⟨1, [4]⟩), (2, ⟨1, [4]⟩)] := by decide +kernel
    obtain ⟨g, hg1, hg2⟩ := Option.map_eq_some_iff.mp hg
    have mem : ∀ a p, (a, p) ∈ (messageAddresses g).take 2 → Node.wrapped a .message p ∈ g.pool := by
      intro a p hap
      obtain ⟨n, hn, e⟩ := List.mem_filterMap.mp (List.mem_of_mem_take hap)
      split at e
      · cases e; exact hn
      · cases e
    exact ⟨g, List.mem_of_getElem? hg1, ⟨1, [4]⟩, mem 1 _ (by rw [hg2]; simp), mem 2 _ (by rw [hg2]; simp)⟩
  obtain ⟨g, hg, p, h1, h2⟩ := hm
  have := h AnyTree Ex.c1 crowd crowdSchedule Ex.c1_reach crowd_queries g hg 1 2 .message p (by simp) h1 h2
  cases this

/-- C102 for declarations that the client had a handle for before the goroutines started: the goroutines get this very
    node. (What is missing: declarations that got their first node while the goroutines ran, see `C102_false`; with a
    lock (C97) or after a warm-up (C96) they are covered too.) -/
theorem C102_partial {P : Str → List Elem → Prop} {c : Client} (hc : Reachable P c) {gs : List Goroutine}
    (hgs : ∀ g ∈ gs, Queries c g) (schedule : List Nat) {g : Goroutine} (hg : g ∈ (System.run ⟨c.reg, gs⟩ schedule).gs)
    {a a' : Nat} {k : WKind} {p : Ptr} (hk : k ≠ .file) (hold : Node.wrapped a k p ∈ c.pool) (hnew : Node.wrapped a' k p ∈ g.pool) :
    a' = a := by
  obtain ⟨i, hi⟩ := List.getElem?_of_mem hg
  have hlen : (System.run ⟨c.reg, gs⟩ schedule).gs.length = gs.length := by
    have : ∀ (schedule : List Nat) (s : System), (s.run schedule).gs.length = s.gs.length := by
      intro schedule
      induction schedule with
      | nil => exact fun _ => rfl
      | cons j rest ih =>
        intro s
        show ((s.step j).run rest).gs.length = _
        rw [ih]
        unfold System.step
        split <;> simp
    exact this schedule _
  have hi' : i < gs.length := by rw [← hlen]; exact (List.getElem?_eq_some_iff.mp hi).1
  obtain ⟨g', done, alone, h1, -, -, h4, h5, -⟩ := (C101_queries hc hgs schedule).2 i _ (List.getElem?_eq_getElem hi')
  rw [hi] at h1
  cases h1
  have hm := List.mem_map_of_mem (f := blur c.reg.next) hnew
  rw [h5] at hm
  obtain ⟨m, hm1, hm2⟩ := List.mem_map.mp hm
  obtain ⟨o, hinv, hgood⟩ := reachable_inv hc
  have hq := hgs gs[i] (List.getElem_mem hi')
  obtain ⟨o', hext, h7, h8⟩ := exec_inv done (c := ⟨c.reg, gs[i].pool⟩) hinv fun n hn => hgood n (hq.pool n hn)
  obtain ⟨results, e⟩ := alone_client gs[i] c.reg done
  rw [e] at h4
  simp only [List.cons.injEq, and_true] at h4
  subst h4
  have hgm := h8 m hm1
  have hold := hgood _ hold
  have hlt := hinv.fresh _ _ hold.owner
  have hc1 := hext.cache _ _ (hold.cached hk)
  cases m with
  | wrapped b k' p' =>
    simp only [blur, Node.wrapped.injEq] at hm2
    obtain ⟨e1, rfl, rfl⟩ := hm2
    have := hgm.cached hk
    rw [hc1] at this
    cases this
    omega
  | «repeated» b t => cases t <;> simp [blur] at hm2
  | _ => simp [blur] at hm2

/-- The conditions of `C102_partial` are met: the client has a handle of the message `M`, and so does a goroutine that asked
    for it again. -/
example : ∃ gs : List Goroutine, Reachable AnyTree Ex.c2 ∧ (∀ g ∈ gs, Queries Ex.c2 g) ∧
    ∃ g ∈ (System.run ⟨Ex.c2.reg, gs⟩ crowdSchedule).gs, ∃ a a', Node.wrapped a .message ⟨1, [4]⟩ ∈ Ex.c2.pool ∧
      Node.wrapped a' .message ⟨1, [4]⟩ ∈ g.pool ∧ g.results.length = 2 := by
  let g0 : Goroutine := ⟨Ex.c2.pool.take 1, none, [.query 0 (.named .fileMessage b!"M"), .query 1 (.iter .messageFields 3)], []⟩
  refine ⟨[g0, g0], Ex.c2_reach, ?_, ?_⟩
  · have : Queries Ex.c2 g0 := by
      refine ⟨rfl, fun n hn => List.mem_of_mem_take hn, ?_, settlesB_spec (by decide +kernel)⟩
      intro op ho
      simp only [g0, List.mem_cons, List.not_mem_nil, or_false] at ho
      rcases ho with rfl | rfl <;> trivial
    intro g hg
    simp only [List.mem_cons, List.not_mem_nil, or_false, or_self] at hg
    subst hg
    exact this
  · obtain ⟨a, ha⟩ := Ex.hasW_spec (c := Ex.c2) (i := 1) (k := .message) (p := ⟨1, [4]⟩) (by decide +kernel)
    have hb : ((System.run ⟨Ex.c2.reg, [g0, g0]⟩ crowdSchedule).gs[1]?.map fun g =>
        (Ex.hasW ⟨Ex.c2.reg, g.pool⟩ 1 .message ⟨1, [4]⟩, g.results.length)) = some (true, 2) := by decide +kernel
    obtain ⟨g, hg1, hg2⟩ := Option.map_eq_some_iff.mp hb
    obtain ⟨a', ha'⟩ := Ex.hasW_spec (congrArg Prod.fst hg2)
    exact ⟨g, List.mem_of_getElem? hg1, a, a', ha, ha', congrArg Prod.snd hg2⟩

end Protoast.Props
