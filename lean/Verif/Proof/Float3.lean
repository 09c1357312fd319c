import Verif.Proof.Float2
/-
  From rounding in units of 2^-1074 to doubles.
-/
namespace Protoast

theorem double_parts {b : UInt64} (hf : Double.Finite b) :
    b.toNat % 2 ^ 63 < infBits ∧
    Double.value b = (if Double.negative b then -1 else 1) * ((magnitude (b.toNat % 2 ^ 63) : ℚ) / 2 ^ 1074) ∧
    Double.fraction b % 2 = b.toNat % 2 ^ 63 % 2 := by
  have hlt : b.toNat < 2 ^ 64 := b.toNat_lt
  have hf' : b.toNat / 2 ^ 52 % 2 ^ 11 ≠ 2047 := hf
  have e1 : b.toNat % 2 ^ 63 / 2 ^ 52 = b.toNat / 2 ^ 52 % 2 ^ 11 := by omega
  have e2 : b.toNat % 2 ^ 63 % 2 ^ 52 = b.toNat % 2 ^ 52 := by omega
  refine ⟨by unfold infBits; omega, ?_, by unfold Double.fraction; omega⟩
  unfold Double.value
  congr 1
  unfold magnitude
  rw [e1, e2]
  unfold Double.exponent Double.fraction
  by_cases h : b.toNat / 2 ^ 52 % 2 ^ 11 = 0
  · rw [if_pos h, if_pos h, zpow_neg, div_eq_mul_inv]
    congr 1
  · rw [if_neg h, if_neg h]
    obtain ⟨k, hk⟩ : ∃ k, b.toNat / 2 ^ 52 % 2 ^ 11 = k + 1 := ⟨_, (Nat.succ_pred_eq_of_ne_zero h).symm⟩
    rw [hk]
    have : ((k + 1 : Nat) : ℤ) - 1075 = (k : ℤ) - (1074 : Nat) := by push_cast; ring
    rw [this, zpow_sub₀ (by norm_num), zpow_natCast, zpow_natCast, Nat.add_sub_cancel]
    rw [Nat.cast_mul, Nat.cast_add, Nat.cast_pow 2 k, mul_div_assoc]
    norm_num

theorem withSign_toNat {neg : Bool} {m : Nat} (hm : m < infBits) :
    (withSign neg m).toNat = if neg then 2 ^ 63 + m else m := by
  unfold withSign
  rw [UInt64.toNat_ofNat']
  unfold infBits at hm
  cases neg <;> simp only [if_true, if_false, Bool.false_eq_true] <;> omega

theorem withSign_parts {neg : Bool} {m : Nat} (hm : m < infBits) :
    Double.Finite (withSign neg m) ∧ Double.negative (withSign neg m) = neg ∧
      (withSign neg m).toNat % 2 ^ 63 = m := by
  have h := withSign_toNat (neg := neg) hm
  unfold infBits at hm
  unfold Double.Finite Double.exponent Double.negative
  rw [h]
  cases neg <;> simp only [if_true, if_false, Bool.false_eq_true, decide_eq_true_eq, decide_eq_false_iff_not] <;> omega

theorem magnitude_zero : magnitude 0 = 0 := by decide

theorem magnitude_inf : magnitude infBits = 2 ^ 54 * 2 ^ 2044 := by
  have : infBits = 2046 * 2 ^ 52 + 2 ^ 52 := by decide
  rw [this, magnitude_eq 2046 (2 ^ 52) (by omega) (.inr (Nat.le_refl _)), show 2046 = 2 + 2044 by rfl, Nat.pow_add]
  ring

theorem magnitude_max : magnitude (infBits - 1) = (2 ^ 54 - 2) * 2 ^ 2044 := by
  have : infBits - 1 = 2045 * 2 ^ 52 + (2 ^ 53 - 1) := by decide
  rw [this, magnitude_eq 2045 (2 ^ 53 - 1) (by omega) (.inr (by omega)), show 2045 = 1 + 2044 by rfl, Nat.pow_add]
  rw [← Nat.mul_assoc]
  congr 1

/-- Overflow. -/
theorem NearBits.overflow {ρ : ℚ} {b : Nat} (h : NearBits ρ b) :
    infBits ≤ b ↔ (2 ^ 54 - 1) * (2 : ℚ) ^ 2044 ≤ ρ := by
  have hA : (magnitude infBits : ℚ) = 2 ^ 54 * (2 : ℚ) ^ 2044 := by rw [magnitude_inf, Nat.cast_mul, Nat.cast_pow 2 2044, Nat.cast_pow 2 54]; rfl
  have hB : (magnitude (infBits - 1) : ℚ) = (2 ^ 54 - 2) * (2 : ℚ) ^ 2044 := by
    rw [magnitude_max]
    have : ((2 ^ 54 - 2 : Nat) : ℚ) = 2 ^ 54 - 2 := by norm_num
    rw [← this, Nat.cast_mul, Nat.cast_pow (2 : Nat) 2044]; rfl
  have hH : (0 : ℚ) < 2 ^ 2044 := by positivity
  have n1 := h.near infBits
  have n2 := h.near (infBits - 1)
  have t1 := h.tie infBits
  generalize (2 : ℚ) ^ 2044 = H at *
  rw [hA] at n1 t1
  rw [hB] at n2
  constructor
  · intro hb
    have hm : (2 : ℚ) ^ 54 * H ≤ magnitude b := by rw [← hA]; exact_mod_cast magnitude_mono.monotone hb
    by_contra hlt
    rw [not_le] at hlt
    rw [abs_of_nonneg (by nlinarith)] at n2
    rcases le_total ((2 ^ 54 - 2) * H) ρ with h5 | h5
    · rw [abs_of_nonpos (by linarith)] at n2; nlinarith
    · rw [abs_of_nonneg (by linarith)] at n2; nlinarith
  · intro hr
    by_contra hlt
    have hb : b ≤ infBits - 1 := by omega
    have hm : (magnitude b : ℚ) ≤ (2 ^ 54 - 2) * H := by rw [← hB]; exact_mod_cast magnitude_mono.monotone hb
    have hne : infBits ≠ b := by omega
    have t2 := t1 hne
    have hpos : (magnitude b : ℚ) - ρ ≤ 0 := by nlinarith
    rw [abs_of_nonpos hpos] at n1 t2
    rcases le_total (2 ^ 54 * H) ρ with h5 | h5
    · rw [abs_of_nonpos (by linarith)] at n1; nlinarith
    · rw [abs_of_nonneg (by linarith)] at n1 t2
      have e1 : ρ = (2 ^ 54 - 1) * H := by nlinarith
      have e2 : (magnitude b : ℚ) = (2 ^ 54 - 2) * H := by nlinarith
      have e3 := t2 (by rw [e2, e1]; ring)
      have e4 : b = infBits - 1 := by
        apply magnitude_mono.injective
        rw [← hB] at e2
        exact_mod_cast e2
      rw [e4] at e3
      exact absurd e3 (by decide)

theorem outOfRange_iff {q : ℚ} : Double.OutOfRange q ↔ (2 ^ 54 - 1) * (2 : ℚ) ^ 2044 ≤ |q| * 2 ^ 1074 := by
  have e : (2 ^ 54 - 1) * (2 : ℚ) ^ 2044 = (2 ^ 1024 - 2 ^ 970) * 2 ^ 1074 := by
    rw [show (2044 : Nat) = 970 + 1074 by rfl, show (1024 : Nat) = 54 + 970 by rfl, pow_add, pow_add]; ring
  have hpos : (0 : ℚ) < 2 ^ 1074 := by positivity
  rw [e]
  unfold Double.OutOfRange
  exact (mul_le_mul_iff_of_pos_right hpos).symm

/-- The double with the pattern nearest to `q` in magnitude, and the sign of `q`. -/
theorem nearest_of_nearBits {q : ℚ} {neg : Bool} {m : Nat} (h : NearBits (|q| * 2 ^ 1074) m) (hm : m < infBits)
    (hs : if neg then q ≤ 0 else 0 ≤ q) : Double.Nearest q (withSign neg m) := by
  obtain ⟨hf, hn, hmod⟩ := withSign_parts (neg := neg) hm
  obtain ⟨-, hv, hfr⟩ := double_parts hf
  rw [hn, hmod] at hv
  rw [hmod] at hfr
  have hP : (0 : ℚ) < 2 ^ 1074 := by positivity
  -- distances
  have dist : |Double.value (withSign neg m) - q| = |(magnitude m : ℚ) - |q| * 2 ^ 1074| / 2 ^ 1074 := by
    rw [hv]
    rw [eq_div_iff hP.ne', ← abs_of_pos hP, ← abs_mul, abs_of_pos hP]
    generalize (2 : ℚ) ^ 1074 = P at *
    cases neg
    · simp only [Bool.false_eq_true, if_false] at hs ⊢
      rw [abs_of_nonneg hs]
      congr 1; field_simp
    · simp only [if_true] at hs ⊢
      rw [abs_of_nonpos hs, ← abs_neg]
      congr 1; field_simp; ring
  have others : ∀ b', Double.Finite b' →
      |(magnitude (b'.toNat % 2 ^ 63) : ℚ) - |q| * 2 ^ 1074| / 2 ^ 1074 ≤ |Double.value b' - q| ∧
      (Double.negative b' ≠ neg → |Double.value b' - q| = ((magnitude (b'.toNat % 2 ^ 63) : ℚ) + |q| * 2 ^ 1074) / 2 ^ 1074) := by
    intro b' hb'
    obtain ⟨-, hv', -⟩ := double_parts hb'
    rw [hv']
    generalize hM : (magnitude (b'.toNat % 2 ^ 63) : ℚ) = M
    have hM0 : 0 ≤ M := by rw [← hM]; exact Nat.cast_nonneg _
    generalize (2 : ℚ) ^ 1074 = P at *
    have hD : 0 ≤ M / P := by positivity
    have hM' : M = M / P * P := by field_simp
    generalize M / P = D at *
    have opp : Double.negative b' ≠ neg → |(if Double.negative b' then -1 else 1) * D - q| = D + |q| := by
      intro hne
      have : Double.negative b' = !neg := by revert hne; cases Double.negative b' <;> cases neg <;> simp
      rw [this]
      cases neg
      · simp only [Bool.false_eq_true, if_false, Bool.not_false, if_true] at hs ⊢
        rw [abs_of_nonneg hs, abs_of_nonpos (by linarith)]; ring
      · simp only [Bool.false_eq_true, if_false, Bool.not_true, if_true] at hs ⊢
        rw [abs_of_nonpos hs, abs_of_nonneg (by linarith)]; ring
    have e1 : |M - |q| * P| / P = |D - abs q| := by
      rw [hM', ← sub_mul, abs_mul, abs_of_pos hP, mul_div_assoc, div_self hP.ne', mul_one]
    have e2 : (M + |q| * P) / P = D + |q| := by
      rw [hM', ← add_mul, mul_div_assoc, div_self hP.ne', mul_one]
    rw [e1, e2]
    refine ⟨?_, opp⟩
    by_cases hne : Double.negative b' = neg
    · rw [hne]
      cases neg
      · simp only [Bool.false_eq_true, if_false] at hs ⊢
        rw [abs_of_nonneg hs]; simp
      · simp only [if_true] at hs ⊢
        rw [abs_of_nonpos hs, ← abs_neg (-1 * D - q)]
        apply le_of_eq; congr 1; ring
    · rw [opp hne, abs_le]
      have := abs_nonneg q
      constructor <;> linarith
  refine ⟨hf, fun b' hb' => ?_, fun b' hb' hne heq => ?_⟩
  · rw [dist]
    exact (div_le_div_of_nonneg_right (h.near _) hP.le).trans (others b' hb').1
  · rw [hfr]
    obtain ⟨o1, o2⟩ := others b' hb'
    by_cases hmm : b'.toNat % 2 ^ 63 = m
    · exfalso
      obtain ⟨-, hv', -⟩ := double_parts hb'
      rw [hmm] at hv' o2
      have hsg : Double.negative b' ≠ neg := by
        intro hs'; apply hne; rw [hv', hv, hs']
      have o3 := o2 hsg
      rw [← heq, dist, div_left_inj' hP.ne'] at o3
      have hM0 : (0 : ℚ) ≤ magnitude m := Nat.cast_nonneg _
      have hr0 : 0 ≤ |q| * 2 ^ 1074 := mul_nonneg (abs_nonneg q) hP.le
      have hz : (magnitude m : ℚ) = 0 := by
        rcases le_total (magnitude m : ℚ) (|q| * 2 ^ 1074) with h5 | h5
        · rw [abs_of_nonpos (by linarith)] at o3; linarith
        · rw [abs_of_nonneg (by linarith)] at o3
          have hq0 : |q| * 2 ^ 1074 = 0 := by linarith
          have n0 := h.near 0
          rw [hq0, magnitude_zero, sub_zero, abs_of_nonneg hM0] at n0
          simp only [Nat.cast_zero, sub_zero, abs_zero] at n0
          linarith
      apply hne
      rw [hv', hv, hz]; simp
    · apply h.tie _ hmm
      apply le_antisymm (h.near _)
      rw [dist] at heq
      rw [← heq] at o1
      exact (div_le_div_iff_of_pos_right hP).mp o1

end Protoast
