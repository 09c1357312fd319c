import Verif.Model.Conc
import Verif.Proof.InvQuery
import Verif.Examples
/-
  C58: concurrent readers.
-/
namespace Protoast.Props
open Protoast

/-- The interleaved steps are those of `wrap`: a goroutine that runs undisturbed does what `wrap` does. -/
theorem conc_single (v : Vis) (r : Reg) :
    (Conc.run ⟨r, [.start v]⟩ [0, 0, 0]) = ⟨(wrap v r).2, [.done v (wrap v r).1]⟩ := by
  unfold wrap
  cases hc : r.cache v with
  | some n => simp [Conc.run, Conc.step, Thread.step, hc]
  | none =>
    cases ht : r.wrapTarget v with
    | none => simp [Conc.run, Conc.step, Thread.step, hc, ht]
    | some x => simp [Conc.run, Conc.step, Thread.step, hc, ht]

/-- Goroutines asking for `vs` on the registry of a client, after a schedule. -/
def readers (c : Client) (vs : List Vis) (schedule : List Nat) : Conc :=
  Conc.run ⟨c.reg, vs.map .start⟩ schedule

/-- C58 as promised: in every interleaving, goroutines asking for the same declaration get the same node. -/
def C58_statement : Prop :=
  ∀ c, CleanReachable WFFile c → ∀ vs schedule v n m,
    Thread.done v (.ok (some n)) ∈ (readers c vs schedule).threads →
    Thread.done v (.ok (some m)) ∈ (readers c vs schedule).threads → n = m

/-- The states the interleavings of goroutines go through, starting from `r0`. -/
structure ConcInv (r0 : Reg) (x : Conc) : Prop where
  heap : x.reg.heap = r0.heap
  /-- what was in the cache stays -/
  warm : ∀ v n, r0.cache v = some n → x.reg.cache v = some n
  /-- the cache only holds what `wrap` puts there -/
  cold : ∀ v n, r0.cache v = none → x.reg.cache v = some n →
    (n = none ∧ r0.wrapTarget v = none) ∨ ∃ a k p, n = some (.wrapped a k p) ∧ r0.wrapTarget v = some (k, p)
  missed : ∀ v, Thread.missed v ∈ x.threads → r0.cache v = none
  built : ∀ v n, Thread.built v n ∈ x.threads → r0.cache v = none ∧
    ((n = none ∧ r0.wrapTarget v = none) ∨ ∃ a k p, n = some (.wrapped a k p) ∧ r0.wrapTarget v = some (k, p))
  done : ∀ v res, Thread.done v res ∈ x.threads →
    (∃ n, r0.cache v = some n ∧ res = .ok n) ∨
    (r0.cache v = none ∧
      ((r0.wrapTarget v = none ∧ (res = .ok none ∨ res = .panic .unsupportedType)) ∨
       ∃ a k p, res = .ok (some (.wrapped a k p)) ∧ r0.wrapTarget v = some (k, p)))

theorem wrapTarget_congr {r r' : Reg} (h : r.heap = r'.heap) (v : Vis) : r.wrapTarget v = r'.wrapTarget v := by
  cases v <;> simp only [Reg.wrapTarget, Reg.kind, Reg.elem, h]

theorem concInv_step {r0 : Reg} {x : Conc} (h : ConcInv r0 x) (i : Nat) : ConcInv r0 (x.step i) := by
  unfold Conc.step
  split
  · exact h
  · next t ht =>
    have hm : t ∈ x.threads := List.mem_of_getElem? ht
    have mem : ∀ {t' s}, s ∈ x.threads.set i t' → s = t' ∨ s ∈ x.threads := by
      intro t' s hs
      exact (List.mem_or_eq_of_mem_set hs).symm
    have wt := fun v => wrapTarget_congr h.heap v
    cases t with
    | start v =>
      simp only [Thread.step]
      split
      · next n hc =>
        refine ⟨h.heap, h.warm, h.cold, ?_, ?_, ?_⟩
        · intro w hw; rcases mem hw with e | e
          · cases e
          · exact h.missed w e
        · intro w n hw; rcases mem hw with e | e
          · cases e
          · exact h.built w n e
        · intro w res hw; rcases mem hw with e | e
          · cases e
            cases h0 : r0.cache v with
            | some n' =>
              have := h.warm v n' h0
              rw [hc] at this
              cases this
              exact .inl ⟨n, rfl, rfl⟩
            | none =>
              right
              refine ⟨rfl, ?_⟩
              rcases h.cold v n h0 hc with ⟨rfl, ht⟩ | ⟨a, k, p, rfl, ht⟩
              · exact .inl ⟨ht, .inl rfl⟩
              · exact .inr ⟨a, k, p, rfl, ht⟩
          · exact h.done w res e
      · next hc =>
        refine ⟨h.heap, h.warm, h.cold, ?_, ?_, ?_⟩
        · intro w hw; rcases mem hw with e | e
          · cases e
            cases h0 : r0.cache v with
            | some n' =>
              have := h.warm v n' h0
              rw [hc] at this
              cases this
            | none => rfl
          · exact h.missed w e
        · intro w n hw; rcases mem hw with e | e
          · cases e
          · exact h.built w n e
        · intro w res hw; rcases mem hw with e | e
          · cases e
          · exact h.done w res e
    | missed v =>
      have h0 := h.missed v hm
      simp only [Thread.step]
      split
      · next k p hk =>
        refine ⟨h.heap, h.warm, h.cold, ?_, ?_, ?_⟩
        · intro w hw; rcases mem hw with e | e
          · cases e
          · exact h.missed w e
        · intro w n hw; rcases mem hw with e | e
          · cases e
            exact ⟨h0, .inr ⟨_, _, _, rfl, (wt v).symm.trans hk⟩⟩
          · exact h.built w n e
        · intro w res hw; rcases mem hw with e | e
          · cases e
          · exact h.done w res e
      · next hk =>
        refine ⟨h.heap, h.warm, h.cold, ?_, ?_, ?_⟩
        · intro w hw; rcases mem hw with e | e
          · cases e
          · exact h.missed w e
        · intro w n hw; rcases mem hw with e | e
          · cases e
            exact ⟨h0, .inl ⟨rfl, (wt v).symm.trans hk⟩⟩
          · exact h.built w n e
        · intro w res hw; rcases mem hw with e | e
          · cases e
          · exact h.done w res e
    | built v n =>
      obtain ⟨h0, hn⟩ := h.built v n hm
      simp only [Thread.step]
      refine ⟨h.heap, ?_, ?_, ?_, ?_, ?_⟩
      · intro w m hw
        simp only [upd]
        rw [if_neg (by rintro rfl; rw [h0] at hw; cases hw)]
        exact h.warm w m hw
      · intro w m hw hm'
        simp only [upd] at hm'
        split at hm'
        · next e => subst e; cases hm'; exact hn
        · exact h.cold w m hw hm'
      · intro w hw; rcases mem hw with e | e
        · cases e
        · exact h.missed w e
      · intro w m hw; rcases mem hw with e | e
        · cases e
        · exact h.built w m e
      · intro w res hw; rcases mem hw with e | e
        · cases e
          right
          refine ⟨h0, ?_⟩
          rcases hn with ⟨rfl, ht'⟩ | ⟨a, k, p, rfl, ht'⟩
          · exact .inl ⟨ht', .inr rfl⟩
          · exact .inr ⟨a, k, p, rfl, ht'⟩
        · exact h.done w res e
    | done v res =>
      simp only [Thread.step]
      refine ⟨h.heap, h.warm, h.cold, ?_, ?_, ?_⟩
      · intro w hw; rcases mem hw with e | e
        · cases e
        · exact h.missed w e
      · intro w n hw; rcases mem hw with e | e
        · cases e
        · exact h.built w n e
      · intro w res hw; rcases mem hw with e | e
        · cases e
          exact h.done _ _ hm
        · exact h.done w res e

theorem concInv_run {r0 : Reg} : ∀ (schedule : List Nat) {x : Conc}, ConcInv r0 x → ConcInv r0 (x.run schedule)
  | [], _, h => h
  | i :: s, _, h => concInv_run s (concInv_step h i)

theorem readers_inv (c : Client) (vs : List Vis) (schedule : List Nat) : ConcInv c.reg (readers c vs schedule) := by
  have no : ∀ {t : Thread}, t ∈ vs.map Thread.start → ∃ v, t = .start v := by
    intro t ht
    rw [List.mem_map] at ht
    obtain ⟨v, _, rfl⟩ := ht
    exact ⟨v, rfl⟩
  refine concInv_run schedule ⟨rfl, fun _ _ h => h, fun _ _ h g => ?_, ?_, ?_, ?_⟩
  · rw [h] at g; cases g
  · intro v hv; obtain ⟨_, e⟩ := no hv; cases e
  · intro v n hv; obtain ⟨_, e⟩ := no hv; cases e
  · intro v n hv; obtain ⟨_, e⟩ := no hv; cases e

/-- C58, the part that holds for declarations a node of which was handed out before the goroutines started: in every
    interleaving of any number of goroutines all obtain that node. Missing: declarations nobody asked for before. -/
theorem C58_partial {c a k p} (hr : Reachable AnyTree c) (hn : Node.wrapped a k p ∈ c.pool) (hk : k ≠ .file)
    (vs : List Vis) (schedule : List Nat) (res : Res (Option Node))
    (h : Thread.done (.at p) res ∈ (readers c vs schedule).threads) : res = .ok (some (.wrapped a k p)) := by
  obtain ⟨o, _, hg⟩ := reachable_inv hr
  have hc := (hg _ hn).cached hk
  rcases (readers_inv c vs schedule).done _ _ h with ⟨n, h1, h2⟩ | ⟨h1, _⟩
  · rw [hc] at h1
    cases h1
    exact h2
  · rw [hc] at h1
    cases h1

/-- C58, what holds for all declarations: whatever node a goroutine obtains, it is a handle of the declaration it
    asked for, with the right node type; so all goroutines read the same answers from it. -/
theorem C58_content {c : Client} (hr : Reachable AnyTree c) (vs : List Vis) (schedule : List Nat) (p : Ptr) (n : Node)
    (h : Thread.done (.at p) (.ok (some n)) ∈ (readers c vs schedule).threads) :
    ∃ a k, n = .wrapped a k p ∧ c.reg.wrapTarget (.at p) = some (k, p) := by
  have self : ∀ {k q}, c.reg.wrapTarget (.at p) = some (k, q) → q = p := by
    intro k q hq
    simp only [Reg.wrapTarget] at hq
    split at hq
    · split at hq <;> cases hq; rfl
    · rw [Option.map_eq_some_iff] at hq
      obtain ⟨_, _, e⟩ := hq
      cases e
      rfl
  rcases (readers_inv c vs schedule).done _ _ h with ⟨m, h1, h2⟩ | ⟨_, ⟨_, h2 | h2⟩ | ⟨a, k, q, h2, h3⟩⟩
  · cases h2
    obtain ⟨o, hi, _⟩ := reachable_inv hr
    obtain ⟨a, k, q, h3, rfl, h4, _⟩ := hi.cacheSome _ _ h1
    cases h3
    exact ⟨a, k, rfl, h4⟩
  · cases h2
  · cases h2
  · cases h2
    cases self h3
    exact ⟨a, k, rfl, h3⟩

/-- Goroutines that ask for the same declaration obtain handles that differ at most in identity. -/
theorem C58_same_declaration {c : Client} (hr : Reachable AnyTree c) (vs : List Vis) (schedule : List Nat) (p : Ptr)
    (n m : Node) (h : Thread.done (.at p) (.ok (some n)) ∈ (readers c vs schedule).threads)
    (g : Thread.done (.at p) (.ok (some m)) ∈ (readers c vs schedule).threads) :
    ∃ a b k, n = .wrapped a k p ∧ m = .wrapped b k p := by
  obtain ⟨a, k, rfl, h1⟩ := C58_content hr vs schedule p n h
  obtain ⟨b, k', rfl, h2⟩ := C58_content hr vs schedule p m g
  rw [h1] at h2
  cases h2
  exact ⟨a, b, k, rfl, rfl⟩

/-- What the `i`-th goroutine obtained, if it is a wrapper: its address. -/
def obtained (x : Conc) (i : Nat) (p : Ptr) : Option Nat :=
  match x.threads[i]? with
  | some (.done (.at q) (.ok (some (.wrapped a _ _)))) => if q = p then some a else none
  | _ => none

theorem obtained_spec {x i p a} (h : obtained x i p = some a) :
    ∃ k q, Thread.done (.at p) (.ok (some (.wrapped a k q))) ∈ x.threads := by
  unfold obtained at h
  split at h
  · next q a' k q' hx =>
    split at h
    · next e =>
      subst e
      cases h
      exact ⟨k, q', List.mem_of_getElem? hx⟩
    · cases h
  · cases h

/-- Two goroutines that ask for the same message of descriptor.proto at the same time. -/
def race : Conc := readers Ex.c2 [.at ⟨0, [1]⟩, .at ⟨0, [1]⟩] [0, 1, 0, 1, 0, 1]

/-- C58 is false: of two goroutines that both miss the cache each makes its own node. -/
theorem C58_false : ¬ C58_statement := by
  intro h
  have e : (obtained race 0 ⟨0, [1]⟩).isSome = true ∧ (obtained race 1 ⟨0, [1]⟩).isSome = true ∧
      obtained race 0 ⟨0, [1]⟩ ≠ obtained race 1 ⟨0, [1]⟩ := by decide +kernel
  obtain ⟨h1, h2, hne⟩ := e
  rw [Option.isSome_iff_exists] at h1 h2
  obtain ⟨a, h1⟩ := h1
  obtain ⟨b, h2⟩ := h2
  rw [h1, h2] at hne
  obtain ⟨k, q, h1⟩ := obtained_spec h1
  obtain ⟨k', q', h2⟩ := obtained_spec h2
  have := h Ex.c2 Ex.c2_clean _ _ _ _ _ h1 h2
  cases this
  exact hne rfl

/-- Non-vacuity of C58_partial: two goroutines interleaved on the message M, whose node was handed out before. -/
example : ∃ a b, Node.wrapped a .message ⟨1, [4]⟩ ∈ Ex.c2.pool ∧
    obtained (readers Ex.c2 [.at ⟨1, [4]⟩, .at ⟨1, [4]⟩] [1, 0]) 0 ⟨1, [4]⟩ = some b ∧ a = b := by
  obtain ⟨a, hm⟩ := Ex.hasW_spec (c := Ex.c2) (i := 1) (k := .message) (p := ⟨1, [4]⟩) (by decide +kernel)
  have hs : (obtained (readers Ex.c2 [.at ⟨1, [4]⟩, .at ⟨1, [4]⟩] [1, 0]) 0 ⟨1, [4]⟩).isSome = true := by decide +kernel
  rw [Option.isSome_iff_exists] at hs
  obtain ⟨b, hb⟩ := hs
  obtain ⟨k, q, h⟩ := obtained_spec hb
  have := C58_partial Ex.c2_reach hm (by decide) _ _ _ h
  cases this
  exact ⟨a, a, hm, hb, rfl⟩

end Protoast.Props
