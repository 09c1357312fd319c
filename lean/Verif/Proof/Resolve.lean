import Verif.Model.Load
import Verif.Spec.Resolve
namespace Protoast

theorem lastIndex_none {b : UInt8} {s : Str} : lastIndex b s = none ↔ b ∉ s := by
  induction s with
  | nil => simp [lastIndex]
  | cons c cs ih =>
    simp only [lastIndex, List.mem_cons, not_or]
    cases h : lastIndex b cs with
    | none =>
      simp only [h, true_iff] at ih
      by_cases hc : c = b
      · simp [hc]
      · simp only [hc, ite_false, true_iff]
        exact ⟨fun h => hc h.symm, ih⟩
    | some i =>
      simp only [h, reduceCtorEq, false_iff, Decidable.not_not] at ih
      simp [ih]

theorem lastIndex_some {b : UInt8} {s : Str} {i : Nat} (h : lastIndex b s = some i) :
    ∃ t, s = s.take i ++ b :: t ∧ b ∉ t ∧ i < s.length := by
  induction s generalizing i with
  | nil => simp [lastIndex] at h
  | cons c cs ih =>
    simp only [lastIndex] at h
    cases h' : lastIndex b cs with
    | none =>
      rw [h'] at h
      by_cases hc : c = b
      · simp only [hc, ite_true, Option.some.injEq] at h
        subst h
        exact ⟨cs, by simp [hc], lastIndex_none.mp h', by simp⟩
      · simp [hc] at h
    | some j =>
      rw [h'] at h
      simp only [Option.some.injEq] at h
      subst h
      obtain ⟨t, h1, h2, h3⟩ := ih h'
      refine ⟨t, ?_, h2, by simp; omega⟩
      rw [List.take_succ_cons, List.cons_append, ← h1]

/-- `dotted s` is empty or starts with a dot. -/
def IsDotted (s : Str) : Prop := s = [] ∨ ∃ t, s = dot :: t

theorem isDotted_dotted (s : Str) : IsDotted (dotted s) := by
  unfold dotted IsDotted
  split
  · simp
  · split <;> simp_all

theorem cutScope_spec {s : Str} (hd : IsDotted s) (hne : s ≠ []) :
    IsDotted (cutScope s) ∧ ∃ t, s = cutScope s ++ dot :: t ∧ dot ∉ t := by
  rcases hd with rfl | ⟨u, rfl⟩
  · exact absurd rfl hne
  unfold cutScope
  cases h : lastIndex dot (dot :: u) with
  | none => exact absurd (lastIndex_none.mp h) (by simp)
  | some i =>
    obtain ⟨t, h1, h2, h3⟩ := lastIndex_some h
    cases i with
    | zero =>
      refine ⟨.inl rfl, t, ?_, h2⟩
      simpa using h1
    | succ j =>
      refine ⟨.inr ⟨u.take j, by simp⟩, t, h1, h2⟩

theorem cutScope_length {s : Str} (hd : IsDotted s) (hne : s ≠ []) :
    (cutScope s).length < s.length := by
  obtain ⟨_, t, h, _⟩ := cutScope_spec hd hne
  have := congrArg List.length h
  simp at this
  omega

theorem encloses_cut {s s' : Str} (hd : IsDotted s) (hne : s ≠ []) :
    Encloses s' s ↔ s' = s ∨ Encloses s' (cutScope s) := by
  obtain ⟨_, t, h, ht⟩ := cutScope_spec hd hne
  generalize hu : cutScope s = u at h
  constructor
  · rintro (rfl | ⟨t', h'⟩)
    · exact .inl rfl
    · right
      rw [h] at h'
      rcases List.append_eq_append_iff.mp h' with ⟨a, ha, hb⟩ | ⟨a, ha, hb⟩
      · cases a with
        | nil => left; simpa using ha
        | cons x xs =>
          simp only [List.cons_append, List.cons.injEq] at hb
          exact absurd (hb.2 ▸ (by simp : dot ∈ xs ++ dot :: t')) ht
      · cases a with
        | nil => left; simpa using ha.symm
        | cons x xs =>
          simp only [List.cons_append, List.cons.injEq] at hb
          right
          exact ⟨xs, by rw [ha, ← hb.1]⟩
  · rintro (rfl | h' | ⟨t', h'⟩)
    · exact .inl rfl
    · right; exact ⟨t, by rw [h']; exact h⟩
    · right
      exact ⟨t' ++ dot :: t, by rw [h, h']; simp⟩

theorem encloses_length {s s' : Str} (h : Encloses s' s) : s'.length ≤ s.length := by
  rcases h with rfl | ⟨t, rfl⟩ <;> simp

theorem encloses_prefix {s s' : Str} (h : Encloses s' s) : s' = s.take s'.length := by
  rcases h with rfl | ⟨t, rfl⟩ <;> simp

theorem resolveLoop_some {defined : Str → Bool} {name : Str} :
    ∀ (n : Nat) (s c : Str), IsDotted s → s.length < n →
      (resolveLoop defined name n s = some c ↔ Innermost defined s name c) := by
  intro n
  induction n with
  | zero => intro s c _ h; omega
  | succ n ih =>
    intro s c hd hl
    rw [resolveLoop]
    by_cases hdef : defined (s ++ dot :: name) = true
    · simp only [hdef, ite_true, Option.some.injEq]
      constructor
      · rintro rfl
        refine ⟨s, .inl rfl, rfl, hdef, ?_⟩
        intro s'' h1 h2
        have := encloses_length h1
        omega
      · rintro ⟨s', h1, h2, h3, h4⟩
        by_cases hs : s' = s
        · rw [h2, hs]
        · have hlt : s'.length < s.length := by
            have := encloses_length h1
            rcases Nat.lt_or_eq_of_le this with h | h
            · exact h
            · exact absurd (by rw [encloses_prefix h1, h]; simp) hs
          simp [h4 s (.inl rfl) hlt] at hdef
    · simp only [hdef]
      by_cases hne : s = []
      · subst hne
        simp only [ite_true, Bool.false_eq_true, ite_false, reduceCtorEq, false_iff]
        rintro ⟨s', h1, h2, h3, h4⟩
        have : s' = [] := by
          rcases h1 with h | ⟨t, h⟩
          · exact h
          · simp at h
        subst this
        rw [h2] at h3
        exact hdef h3
      · simp only [hne, Bool.false_eq_true, ite_false]
        rw [ih (cutScope s) c (cutScope_spec hd hne).1
          (by have := cutScope_length hd hne; omega)]
        constructor
        · rintro ⟨s', h1, h2, h3, h4⟩
          refine ⟨s', (encloses_cut hd hne).mpr (.inr h1), h2, h3, ?_⟩
          intro s'' h5 h6
          rcases (encloses_cut hd hne).mp h5 with rfl | h7
          · simpa using hdef
          · exact h4 s'' h7 h6
        · rintro ⟨s', h1, h2, h3, h4⟩
          rcases (encloses_cut hd hne).mp h1 with rfl | h7
          · rw [h2] at h3; exact absurd h3 hdef
          · refine ⟨s', h7, h2, h3, ?_⟩
            intro s'' h5 h6
            exact h4 s'' ((encloses_cut hd hne).mpr (.inr h5)) h6

theorem resolveLoop_none {defined : Str → Bool} {name : Str} :
    ∀ (n : Nat) (s : Str), IsDotted s → s.length < n →
      (resolveLoop defined name n s = none ↔
        ∀ s', Encloses s' s → defined (s' ++ dot :: name) = false) := by
  intro n
  induction n with
  | zero => intro s _ h; omega
  | succ n ih =>
    intro s hd hl
    rw [resolveLoop]
    by_cases hdef : defined (s ++ dot :: name) = true
    · simp only [hdef, ite_true, reduceCtorEq, false_iff]
      intro h
      simp [h s (.inl rfl)] at hdef
    · simp only [hdef]
      by_cases hne : s = []
      · subst hne
        simp only [ite_true, Bool.false_eq_true, ite_false, true_iff]
        intro s' h1
        have : s' = [] := by
          rcases h1 with h | ⟨t, h⟩
          · exact h
          · simp at h
        subst this
        simpa using hdef
      · simp only [hne, Bool.false_eq_true, ite_false]
        rw [ih (cutScope s) (cutScope_spec hd hne).1
          (by have := cutScope_length hd hne; omega)]
        constructor
        · intro h s' h1
          rcases (encloses_cut hd hne).mp h1 with rfl | h7
          · simpa using hdef
          · exact h s' h7
        · intro h s' h1
          exact h s' ((encloses_cut hd hne).mpr (.inr h1))

/-- The iteration bound of the loop never runs out: any larger bound gives the same result. -/
theorem resolveLoop_fuel {defined : Str → Bool} {name s : Str} {n m : Nat} (hd : IsDotted s)
    (hn : s.length < n) (hm : s.length < m) :
    resolveLoop defined name n s = resolveLoop defined name m s := by
  cases h : resolveLoop defined name m s with
  | none =>
    rw [resolveLoop_none m s hd hm] at h
    rw [resolveLoop_none n s hd hn]
    exact h
  | some c =>
    rw [resolveLoop_some m s c hd hm] at h
    rw [resolveLoop_some n s c hd hn]
    exact h

theorem encloses_nil_of_dotted {s : Str} (hd : IsDotted s) : Encloses [] s := by
  rcases hd with rfl | ⟨t, rfl⟩
  · exact .inl rfl
  · exact .inr ⟨t, rfl⟩

theorem resolveNameRaw_rel (defined : Str → Bool) (scope name : Str)
    (hn : hasDotPrefix name = false) :
    resolveNameRaw defined scope name =
      match resolveLoop defined name ((dotted scope).length + 1) (dotted scope) with
      | some c => (c, true)
      | none => (dot :: name, defined (dot :: name)) := by
  have hs : (if scope ≠ [] ∧ hasDotPrefix scope = false then dot :: scope else scope) =
      dotted scope := by
    cases scope with
    | nil => simp [dotted]
    | cons c cs =>
      by_cases hc : c = dot <;> simp [dotted, hasDotPrefix, hc]
  simp only [resolveNameRaw, hn, Bool.false_eq_true, ite_false, hs]
  cases resolveLoop defined name ((dotted scope).length + 1) (dotted scope) <;> rfl

theorem resolve_true_iff {defined : Str → Bool} {scope name : Str}
    (hn : hasDotPrefix name = false) (c : Str) :
    resolveNameRaw defined scope name = (c, true) ↔
      Innermost defined (dotted scope) name c := by
  rw [resolveNameRaw_rel defined scope name hn]
  have hd := isDotted_dotted scope
  cases h : resolveLoop defined name ((dotted scope).length + 1) (dotted scope) with
  | some c' =>
    have h' := (resolveLoop_some _ _ c' hd (Nat.lt_succ_self _)).mp h
    constructor
    · intro he
      simp only [Prod.mk.injEq, and_true] at he
      exact he ▸ h'
    · intro hi
      have := (resolveLoop_some _ _ c hd (Nat.lt_succ_self _)).mpr hi
      rw [h] at this
      simpa using this
  | none =>
    have h' := (resolveLoop_none _ _ hd (Nat.lt_succ_self _)).mp h
    have h0 := h' [] (encloses_nil_of_dotted hd)
    simp only [List.nil_append] at h0
    constructor
    · intro he
      simp [h0] at he
    · rintro ⟨s', h1, rfl, h3, _⟩
      simp [h' s' h1] at h3

theorem resolve_false_iff {defined : Str → Bool} {scope name : Str}
    (hn : hasDotPrefix name = false) :
    (resolveNameRaw defined scope name).2 = false ↔
      ∀ s', Encloses s' (dotted scope) → defined (s' ++ dot :: name) = false := by
  rw [resolveNameRaw_rel defined scope name hn]
  have hd := isDotted_dotted scope
  cases h : resolveLoop defined name ((dotted scope).length + 1) (dotted scope) with
  | some c' =>
    have h' := (resolveLoop_some _ _ c' hd (Nat.lt_succ_self _)).mp h
    simp only [Bool.true_eq_false, false_iff]
    intro h2
    obtain ⟨s', h1, rfl, h3, _⟩ := h'
    simp [h2 s' h1] at h3
  | none =>
    have h' := (resolveLoop_none _ _ hd (Nat.lt_succ_self _)).mp h
    have h0 := h' [] (encloses_nil_of_dotted hd)
    simp only [List.nil_append] at h0
    simp only [h0, true_iff]
    exact h'

theorem resolve_abs {defined : Str → Bool} {scope name : Str} (hn : hasDotPrefix name = true) :
    resolveNameRaw defined scope name = (name, defined name) := by
  simp [resolveNameRaw, hn]

/-- Whatever is returned with `true` is defined. -/
theorem resolve_defined {defined : Str → Bool} {scope name c : Str}
    (h : resolveNameRaw defined scope name = (c, true)) : defined c = true := by
  cases hn : hasDotPrefix name with
  | true =>
    rw [resolve_abs hn] at h
    simp only [Prod.mk.injEq] at h
    rw [← h.1]; exact h.2
  | false =>
    obtain ⟨_, _, rfl, h3, _⟩ := (resolve_true_iff hn c).mp h
    exact h3

end Protoast
