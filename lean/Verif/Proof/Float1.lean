import Verif.Model.Float
import Mathlib.Data.Rat.Defs
import Mathlib.Algebra.Order.Field.Rat
import Mathlib.Data.Nat.Log
import Mathlib.Tactic.Linarith
import Mathlib.Tactic.Ring
import Mathlib.Tactic.FieldSimp
import Mathlib.Order.Monotone.Basic
import Mathlib.Tactic.Positivity
import Mathlib.Tactic.LinearCombination
import Mathlib.Data.Nat.Cast.Order.Field
/-
  Rounding to doubles, in units of 2^-1074.
-/
namespace Protoast

theorem divHalfEven_spec {n d : Nat} (hd : 0 < d) :
    (2 * n ≤ (2 * divHalfEven n d + 1) * d ∧ 2 * divHalfEven n d * d ≤ 2 * n + d) ∧
    (2 * n = (2 * divHalfEven n d + 1) * d → divHalfEven n d % 2 = 0) ∧
    (2 * divHalfEven n d * d = 2 * n + d → divHalfEven n d % 2 = 0) := by
  have h := Nat.div_add_mod n d
  have hlt := Nat.mod_lt n hd
  unfold divHalfEven
  generalize n / d = q at *
  generalize n % d = r at *
  subst h
  split
  · refine ⟨⟨by nlinarith, by nlinarith⟩, fun h => ?_, fun h => ?_⟩ <;> exfalso <;> nlinarith
  · split
    · refine ⟨⟨by nlinarith, by nlinarith⟩, fun h => ?_, fun h => ?_⟩ <;> exfalso <;> nlinarith
    · have hr : 2 * r = d := by omega
      rcases Nat.mod_two_eq_zero_or_one q with h2 | h2 <;> rw [h2]
      · refine ⟨⟨by nlinarith, by nlinarith⟩, fun _ => by omega, fun _ => by omega⟩
      · refine ⟨⟨by nlinarith, by nlinarith⟩, fun _ => by omega, fun _ => by omega⟩

/-- The integer multiple of `u` nearest to `ρ`, ties to even. -/
structure NearMultiple (ρ : ℚ) (u : ℚ) (m : Nat) : Prop where
  near : ∀ j : Nat, |(m : ℚ) * u - ρ| ≤ |(j : ℚ) * u - ρ|
  tie : ∀ j : Nat, j ≠ m → |(m : ℚ) * u - ρ| = |(j : ℚ) * u - ρ| → m % 2 = 0

theorem nearMultiple {n d s : Nat} (hd : 0 < d) :
    NearMultiple ((n : ℚ) / d) ((2 : ℚ) ^ s) (divHalfEven n (d * 2 ^ s)) := by
  have hD : 0 < d * 2 ^ s := by positivity
  obtain ⟨⟨h1, h2⟩, h3, h4⟩ := divHalfEven_spec (n := n) hD
  generalize divHalfEven n (d * 2 ^ s) = m at *
  have hdq : (0 : ℚ) < d := by exact_mod_cast hd
  have hu : (0 : ℚ) < 2 ^ s := by positivity
  have hm : (n : ℚ) = (n : ℚ) / d * d := by field_simp
  have e1 : 2 * ((n : ℚ) / d) ≤ (2 * m + 1) * 2 ^ s := by
    have : (2 * n : ℚ) ≤ (2 * m + 1) * (d * 2 ^ s) := by exact_mod_cast h1
    rw [hm] at this
    nlinarith
  have e2 : 2 * (m : ℚ) * 2 ^ s ≤ 2 * ((n : ℚ) / d) + 2 ^ s := by
    have : (2 * m * (d * 2 ^ s) : ℚ) ≤ 2 * n + d * 2 ^ s := by exact_mod_cast h2
    rw [hm] at this
    nlinarith
  have e3 : 2 * ((n : ℚ) / d) = (2 * m + 1) * 2 ^ s → m % 2 = 0 := by
    intro h
    apply h3
    have : (2 * n : ℚ) = (2 * m + 1) * (d * 2 ^ s) := by rw [hm]; linear_combination (d : ℚ) * h
    exact_mod_cast this
  have e4 : 2 * (m : ℚ) * 2 ^ s = 2 * ((n : ℚ) / d) + 2 ^ s → m % 2 = 0 := by
    intro h
    apply h4
    have : (2 * m * (d * 2 ^ s) : ℚ) = 2 * n + d * 2 ^ s := by rw [hm]; linear_combination (d : ℚ) * h
    exact_mod_cast this
  generalize (n : ℚ) / d = ρ at *
  generalize (2 : ℚ) ^ s = u at *
  have hab : |(m : ℚ) * u - ρ| ≤ u / 2 := abs_le.mpr ⟨by linarith, by linarith⟩
  have key : ∀ j : Nat, j ≠ m → (m : ℚ) * u + u ≤ j * u ∨ (j : ℚ) * u + u ≤ m * u := by
    intro j hj
    rcases Nat.lt_or_gt_of_ne hj with h | h
    · right
      have : ((j + 1 : Nat) : ℚ) ≤ m := by exact_mod_cast h
      push_cast at this
      nlinarith
    · left
      have : ((m + 1 : Nat) : ℚ) ≤ j := by exact_mod_cast h
      push_cast at this
      nlinarith
  constructor
  · intro j
    by_cases hj : j = m
    · rw [hj]
    · rcases key j hj with h | h
      · exact hab.trans ((by linarith : u / 2 ≤ (j : ℚ) * u - ρ).trans (le_abs_self _))
      · exact hab.trans ((by linarith : u / 2 ≤ -((j : ℚ) * u - ρ)).trans (neg_le_abs _))
  · intro j hj heq
    rcases key j hj with h | h
    · have hpos : 0 ≤ (j : ℚ) * u - ρ := by linarith
      rw [abs_of_nonneg hpos] at heq
      have : (m : ℚ) * u - ρ ≤ |(m : ℚ) * u - ρ| := le_abs_self _
      have hle : (j : ℚ) * u - ρ ≤ u / 2 := heq ▸ hab
      exact e3 (by linarith)
    · have hpos : (j : ℚ) * u - ρ ≤ 0 := by linarith
      rw [abs_of_nonpos hpos] at heq
      have hle : -((j : ℚ) * u - ρ) ≤ u / 2 := heq ▸ hab
      exact e4 (by linarith)

/-! ### Values of bit patterns -/

theorem magnitude_eq (s m : Nat) (hm : m < 2 ^ 53) (hs : s = 0 ∨ 2 ^ 52 ≤ m) : magnitude (s * 2 ^ 52 + m) = m * 2 ^ s := by
  unfold magnitude
  by_cases h : m < 2 ^ 52
  · have hs0 : s = 0 := by omega
    subst hs0
    rw [if_pos (by omega)]
    simp only [Nat.zero_mul, Nat.zero_add, Nat.pow_zero, Nat.mul_one]
    omega
  · have e1 : (s * 2 ^ 52 + m) / 2 ^ 52 = s + 1 := by omega
    have e2 : (s * 2 ^ 52 + m) % 2 ^ 52 = m - 2 ^ 52 := by omega
    have e3 : 2 ^ 52 + (m - 2 ^ 52) = m := by omega
    rw [e1, e2, if_neg (by omega), e3, Nat.add_sub_cancel]

theorem magnitude_top (s : Nat) : magnitude (s * 2 ^ 52 + 2 ^ 53) = 2 ^ 53 * 2 ^ s := by
  have : s * 2 ^ 52 + 2 ^ 53 = (s + 1) * 2 ^ 52 + 2 ^ 52 := by omega
  rw [this, magnitude_eq (s + 1) (2 ^ 52) (by omega) (.inr (Nat.le_refl _))]
  rw [Nat.pow_succ]
  ring

/-- The pattern split into exponent and significand. -/
theorem bits_split (b : Nat) : ∃ s m, b = s * 2 ^ 52 + m ∧ m < 2 ^ 53 ∧ (s = 0 ∨ 2 ^ 52 ≤ m) := by
  by_cases h : b < 2 ^ 53
  · exact ⟨0, b, by omega, h, .inl rfl⟩
  · exact ⟨b / 2 ^ 52 - 1, b % 2 ^ 52 + 2 ^ 52, by omega, by omega, .inr (by omega)⟩

theorem magnitude_mono : StrictMono magnitude := by
  apply strictMono_nat_of_lt_succ
  intro b
  obtain ⟨s, m, rfl, h1, h2⟩ := bits_split b
  rw [magnitude_eq s m h1 h2]
  by_cases h : m + 1 < 2 ^ 53
  · rw [Nat.add_assoc, magnitude_eq s (m + 1) h (by omega)]
    exact Nat.mul_lt_mul_of_pos_right (Nat.lt_succ_self m) (by positivity)
  · have hm : m + 1 = 2 ^ 53 := by omega
    rw [Nat.add_assoc, hm, magnitude_top]
    exact Nat.mul_lt_mul_of_pos_right (by omega) (by positivity)

theorem magnitude_multiple {s b : Nat} (h : 2 ^ 52 * 2 ^ s ≤ magnitude b) : ∃ j, magnitude b = j * 2 ^ s := by
  have h0 := magnitude_eq s (2 ^ 52) (by omega) (.inr (Nat.le_refl _))
  have hb : s * 2 ^ 52 + 2 ^ 52 ≤ b := by
    by_contra hlt
    have := magnitude_mono (Nat.lt_of_not_le hlt)
    rw [h0] at this
    omega
  obtain ⟨s', m, rfl, h1, h2⟩ := bits_split b
  rw [magnitude_eq s' m h1 h2]
  have hs : s ≤ s' := by omega
  refine ⟨m * 2 ^ (s' - s), ?_⟩
  rw [Nat.mul_assoc, ← Nat.pow_add]
  congr 2
  omega

/-! ### Rounding -/

/-- The pattern whose value is nearest to `ρ` (in units of 2^-1074), ties to even; exponents without bound. -/
structure NearBits (ρ : ℚ) (b : Nat) : Prop where
  near : ∀ b' : Nat, |(magnitude b : ℚ) - ρ| ≤ |(magnitude b' : ℚ) - ρ|
  tie : ∀ b' : Nat, b' ≠ b → |(magnitude b : ℚ) - ρ| = |(magnitude b' : ℚ) - ρ| → b % 2 = 0

theorem roundBits_near {n d : Nat} (hd : 0 < d) : NearBits ((n : ℚ) / d) (roundBits n d) := by
  have hu : ∀ s : Nat, ((2 ^ s : Nat) : ℚ) = (2 : ℚ) ^ s := fun s => by push_cast; rfl
  unfold roundBits
  generalize hk : Nat.log2 (n / d) - 52 = s
  have hn := nearMultiple (n := n) (s := s) hd
  -- the quotient has at most 53 + s bits, and at least 52 + s if s is not 0
  have hup : n / d < 2 ^ 53 * 2 ^ s := by
    rw [← Nat.pow_add]
    by_cases h0 : n / d = 0
    · rw [h0]; positivity
    · exact (Nat.log2_lt h0).mp (by omega)
  have hlo : s ≠ 0 → 2 ^ 52 * 2 ^ s ≤ n / d := by
    intro hs
    rw [← Nat.pow_add]
    have h0 : n / d ≠ 0 := by
      intro h0
      rw [h0] at hk
      simp at hk
      omega
    exact (Nat.le_log2 h0).mp (by omega)
  have hd2 := divHalfEven_spec (n := n) (d := d * 2 ^ s) (by positivity)
  generalize hm : divHalfEven n (d * 2 ^ s) = m at *
  have hq : n < d * (2 ^ 53 * 2 ^ s) := (Nat.div_lt_iff_lt_mul hd).mp hup |>.trans_eq (by ring)
  have hm53 : m ≤ 2 ^ 53 := by
    by_contra hgt
    have h1 := hd2.1.2
    have h2 : (2 ^ 53 + 1) * (d * 2 ^ s) ≤ m * (d * 2 ^ s) := Nat.mul_le_mul_right _ (by omega)
    have h3 : 0 < d * 2 ^ s := by positivity
    nlinarith
  have hm52 : s ≠ 0 → 2 ^ 52 ≤ m := by
    intro hs
    by_contra hlt
    have h1 := hd2.1.1
    have h2 : (m + 1) * (d * 2 ^ s) ≤ 2 ^ 52 * (d * 2 ^ s) := Nat.mul_le_mul_right _ (by omega)
    have h3 : 0 < d * 2 ^ s := by positivity
    have h4 : 2 ^ 52 * 2 ^ s * d ≤ n := (Nat.le_div_iff_mul_le hd).mp (hlo hs)
    nlinarith
  have hv : magnitude (s * 2 ^ 52 + m) = m * 2 ^ s := by
    rcases Nat.lt_or_eq_of_le hm53 with h | h
    · exact magnitude_eq s m h (by by_cases h0 : s = 0; exact .inl h0; exact .inr (hm52 h0))
    · rw [h, magnitude_top]
  have hvq : (magnitude (s * 2 ^ 52 + m) : ℚ) = m * 2 ^ s := by rw [hv]; push_cast; rfl
  -- a pattern is a multiple, or too small
  have key : ∀ b' : Nat, (∃ j : Nat, (magnitude b' : ℚ) = j * 2 ^ s) ∨
      |(m : ℚ) * 2 ^ s - (n : ℚ) / d| < |(magnitude b' : ℚ) - (n : ℚ) / d| := by
    intro b'
    by_cases hb : 2 ^ 52 * 2 ^ s ≤ magnitude b'
    · obtain ⟨j, hj⟩ := magnitude_multiple hb
      exact .inl ⟨j, by rw [hj]; push_cast; rfl⟩
    · by_cases hs : s = 0
      · exact .inl ⟨magnitude b', by rw [hs]; simp⟩
      · right
        have h1 : ((2 ^ 52 : Nat) : ℚ) * 2 ^ s ≤ (n : ℚ) / d := by
          have : ((2 ^ 52 * 2 ^ s : Nat) : ℚ) ≤ ((n / d : Nat) : ℚ) := by exact_mod_cast hlo hs
          push_cast at this ⊢
          exact this.trans (Nat.cast_div_le)
        have h2 : (magnitude b' : ℚ) < ((2 ^ 52 : Nat) : ℚ) * 2 ^ s := by
          have : ((magnitude b' : Nat) : ℚ) < ((2 ^ 52 * 2 ^ s : Nat) : ℚ) := by exact_mod_cast Nat.lt_of_not_le hb
          push_cast at this ⊢
          exact this
        refine (hn.near (2 ^ 52)).trans_lt ?_
        generalize ((2 ^ 52 : Nat) : ℚ) * 2 ^ s = A at h1 h2 ⊢
        rw [abs_of_nonpos (by linarith), abs_of_nonpos (by linarith)]
        linarith
  constructor
  · intro b'
    rw [hvq]
    rcases key b' with ⟨j, hj⟩ | h
    · rw [hj]; exact hn.near j
    · exact h.le
  · intro b' hne heq
    rw [hvq] at heq
    rcases key b' with ⟨j, hj⟩ | h
    · rw [hj] at heq
      have hjm : j ≠ m := by
        rintro rfl
        apply hne
        apply magnitude_mono.injective
        have : (magnitude b' : ℚ) = (magnitude (s * 2 ^ 52 + j) : ℚ) := by rw [hj, hvq]
        exact_mod_cast this
      have := hn.tie j hjm heq
      omega
    · exact absurd heq h.ne

theorem NearBits.unique {ρ : ℚ} {b b' : Nat} (h : NearBits ρ b) (h' : NearBits ρ b') : b = b' := by
  by_contra hne
  have heq := le_antisymm (h.near b') (h'.near b)
  have e1 := h.tie b' (Ne.symm hne) heq
  have e2 := h'.tie b hne heq.symm
  -- strictly between two neighbours with even patterns there is another one
  wlog hlt : b < b' generalizing b b'
  · exact this h' h (Ne.symm hne) heq.symm e2 e1 (by omega)
  have hb1 : b + 1 < b' := by omega
  have m1 : (magnitude b : ℚ) < magnitude (b + 1) := by exact_mod_cast magnitude_mono (Nat.lt_succ_self b)
  have m2 : (magnitude (b + 1) : ℚ) < magnitude b' := by exact_mod_cast magnitude_mono hb1
  have h3 := h.near (b + 1)
  have h4 := h'.near (b + 1)
  rcases le_total (magnitude (b + 1) : ℚ) ρ with h5 | h5
  · rw [abs_of_nonpos (by linarith), abs_of_nonpos (by linarith)] at h3
    linarith
  · rw [abs_of_nonneg (by linarith), abs_of_nonneg (by linarith)] at h4
    linarith

end Protoast
