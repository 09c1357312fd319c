import Verif.Proof.Float4
/-
  FormatFloat.
-/
namespace Protoast

theorem dist_same {q : ℚ} {neg : Bool} {m : Nat} (hm : m < infBits) (hs : if neg then q ≤ 0 else 0 ≤ q) :
    |Double.value (withSign neg m) - q| = |(magnitude m : ℚ) - |q| * 2 ^ 1074| / 2 ^ 1074 := by
  obtain ⟨hf, hn, hmod⟩ := withSign_parts (neg := neg) hm
  obtain ⟨-, hv, -⟩ := double_parts hf
  rw [hn, hmod] at hv
  have hP : (0 : ℚ) < 2 ^ 1074 := by positivity
  rw [hv]
  rw [eq_div_iff hP.ne', ← abs_of_pos hP, ← abs_mul, abs_of_pos hP]
  generalize (2 : ℚ) ^ 1074 = P at *
  cases neg
  · simp only [Bool.false_eq_true, if_false] at hs ⊢
    rw [abs_of_nonneg hs]
    congr 1; field_simp
  · simp only [if_true] at hs ⊢
    rw [abs_of_nonpos hs, ← abs_neg]
    congr 1; field_simp; ring

theorem withSign_of_finite {b : UInt64} (h : Double.Finite b) :
    b.toNat % 2 ^ 63 < infBits ∧ withSign (Double.negative b) (b.toNat % 2 ^ 63) = b := by
  have hm := (double_parts h).1
  refine ⟨hm, ?_⟩
  apply UInt64.toNat_inj.mp
  rw [withSign_toNat hm]
  have hlt : b.toNat < 2 ^ 64 := b.toNat_lt
  unfold Double.negative
  by_cases hn : b.toNat / 2 ^ 63 = 1
  · rw [if_pos (by simpa using hn)]; omega
  · rw [if_neg (by simpa using hn)]; omega

/-- The converse of `nearest_of_nearBits`. -/
theorem nearBits_of_nearest {q : ℚ} {neg : Bool} {m : Nat} (hm : m < infBits) (hn : Double.Nearest q (withSign neg m))
    (hs : if neg then q ≤ 0 else 0 ≤ q) (ho : ¬ Double.OutOfRange q) : NearBits (|q| * 2 ^ 1074) m := by
  have hP : (0 : ℚ) < 2 ^ 1074 := by positivity
  obtain ⟨c, hc⟩ := nearBits_exists (ρ := |q| * 2 ^ 1074) (mul_nonneg (abs_nonneg q) hP.le)
  have hci : c < infBits := by
    by_contra hlt
    apply ho
    rw [outOfRange_iff, ← hc.overflow]
    omega
  have hnc := nearest_of_nearBits hc hci hs
  have e := le_antisymm (hn.nearest _ hnc.finite) (hnc.nearest _ hn.finite)
  by_cases hcm : m = c
  · rw [hcm]; exact hc
  · have hv : Double.value (withSign neg c) ≠ Double.value (withSign neg m) := by
      obtain ⟨hf, hg, hmod⟩ := withSign_parts (neg := neg) hm
      obtain ⟨hf', hg', hmod'⟩ := withSign_parts (neg := neg) hci
      rw [(double_parts hf).2.1, (double_parts hf').2.1, hg, hg', hmod, hmod']
      intro h
      have h1 : (if neg then (-1 : ℚ) else 1) ≠ 0 := by cases neg <;> norm_num
      have h2 := mul_left_cancel₀ h1 h
      rw [div_left_inj' hP.ne'] at h2
      exact hcm (magnitude_mono.injective (by exact_mod_cast h2.symm))
    have hev := hn.even _ hnc.finite hv e
    rw [(double_parts hn.finite).2.2, (withSign_parts hm).2.2] at hev
    rw [dist_same hm hs, dist_same hci hs, div_left_inj' hP.ne'] at e
    exact ⟨fun b' => by rw [e]; exact hc.near b', fun _ _ _ => hev⟩

/-! ### Shortest -/

theorem tens_between {ρ τ : ℚ} {b d t : Nat} (h1 : NearBits ρ b) (h2 : NearBits τ b) (a1 : ρ ≤ tens d t) (a2 : tens d t ≤ τ) :
    NearBits (tens d t) b := by
  have h0 : 0 ≤ tens d t := by
    have : tens 0 0 ≤ tens d t := tens_le.mpr (by simp)
    simpa [tens] using this
  obtain ⟨c, hc⟩ := nearBits_exists h0
  have := h1.between h2 hc a1 a2
  rwa [this] at hc

theorem ints_tens (n : Nat) (x : ℤ) (u : Nat) (h : (u : ℤ) ≤ x + 1074) :
    (n : ℚ) * 10 ^ x * 2 ^ 1074 = tens (n * 10 ^ (x + 1074 - u).toNat) u := by
  obtain ⟨k, hk⟩ := Int.eq_ofNat_of_zero_le (show 0 ≤ x + 1074 - u by omega)
  have hx : x = ((k + u : Nat) : ℤ) - (1074 : Nat) := by push_cast; omega
  rw [hk, Int.toNat_natCast]
  unfold tens
  rw [hx, zpow_sub₀ (by norm_num), zpow_natCast, zpow_natCast, pow_add, Nat.cast_mul, Nat.cast_pow 10 k]
  push_cast
  ring

theorem below_tens (n : Nat) (x : ℤ) (k N : Nat) (hn : n < 10 ^ k) (h : x + 1074 + k ≤ N) :
    (n : ℚ) * 10 ^ x * 2 ^ 1074 ≤ tens 1 N := by
  have h1 : (n : ℚ) ≤ 10 ^ k := by exact_mod_cast hn.le
  have hp : (0 : ℚ) < 10 ^ x := by positivity
  have h2 : (n : ℚ) * 10 ^ x ≤ 10 ^ ((N : ℤ) - (1074 : Nat)) := by
    calc (n : ℚ) * 10 ^ x ≤ 10 ^ k * 10 ^ x := by gcongr
      _ = 10 ^ ((k : ℤ) + x) := by rw [zpow_add₀ (by norm_num), zpow_natCast]
      _ ≤ 10 ^ ((N : ℤ) - (1074 : Nat)) := zpow_le_zpow_right₀ (by norm_num) (by push_cast; omega)
  rw [zpow_sub₀ (by norm_num), zpow_natCast, zpow_natCast] at h2
  unfold tens
  have h3 : (0 : ℚ) < 2 ^ 1074 := by positivity
  have h4 := mul_le_mul_of_nonneg_right h2 h3.le
  refine h4.trans (le_of_eq ?_)
  rw [Nat.cast_one, one_mul]
  ring

theorem dropZeros_last : ∀ fuel d t d' t', d ≤ 10 ^ fuel → d ≠ 0 → dropZeros fuel d t = (d', t') → d' % 10 ≠ 0 := by
  intro fuel
  induction fuel with
  | zero =>
    intro d t d' t' h1 h2 h
    cases h
    have : d = 1 := by simp at h1; omega
    omega
  | succ fuel ih =>
    intro d t d' t' h1 h2 h
    rw [dropZeros] at h
    split at h
    · next hd =>
      rw [Nat.pow_succ] at h1
      exact ih _ _ _ _ (by omega) (by omega) h
    · next hd => cases h; omega

theorem tens_dist (d t a : Nat) : |tens d t - tens a 0| = |((d * 10 ^ t : Nat) : ℤ) - (a : ℤ)| * (2 ^ 1074 / 10 ^ 1074 : ℚ) := by
  have e : tens d t - tens a 0 = ((((d * 10 ^ t : Nat) : ℤ) - (a : ℤ) : ℤ) : ℚ) * (2 ^ 1074 / 10 ^ 1074 : ℚ) := by
    unfold tens
    push_cast
    generalize (2 : ℚ) ^ 1074 = y
    generalize (10 : ℚ) ^ 1074 = z
    ring
  rw [e, abs_mul, abs_of_pos (a := (2 ^ 1074 / 10 ^ 1074 : ℚ)) (by positivity), Int.cast_abs]

/-- `d` is the closest to `a` of those multiples of `10^t` that round to `b`, and even if another one is as close. -/
theorem shortest_closest {b a d t : Nat} (ha : NearBits (tens a 0) b) (h1 : d = a / 10 ^ t ∨ d = a / 10 ^ t + 1)
    (h2 : NearBits (tens (a / 10 ^ t) t) b → NearBits (tens (a / 10 ^ t + 1) t) b →
      if 2 * (a % 10 ^ t) + a / 10 ^ t % 2 ≤ 10 ^ t then d = a / 10 ^ t else d = a / 10 ^ t + 1)
    (h3 : NearBits (tens d t) b) {m : Nat} (hm : NearBits (tens m t) b) :
    |tens d t - tens a 0| ≤ |tens m t - tens a 0| ∧
    (|tens d t - tens a 0| = |tens m t - tens a 0| → m ≠ d → d % 2 = 0 ∧ (m = d + 1 ∨ d = m + 1)) := by
  have hP : 0 < 10 ^ t := Nat.pow_pos (by decide)
  have hK : (0 : ℚ) < 2 ^ 1074 / 10 ^ 1074 := by positivity
  have hr := Nat.mod_lt a hP
  have hdm := Nat.div_add_mod a (10 ^ t)
  have hlo : a / 10 ^ t < m ∨ NearBits (tens (a / 10 ^ t) t) b := by
    rcases Nat.lt_or_ge (a / 10 ^ t) m with h | h
    · exact .inl h
    · refine .inr (tens_between hm ha (tens_le.mpr (Nat.mul_le_mul_right _ h)) (tens_le.mpr ?_))
      rw [Nat.pow_zero, Nat.mul_one]
      exact Nat.div_mul_le_self a _
  have hup : m ≤ a / 10 ^ t ∨ NearBits (tens (a / 10 ^ t + 1) t) b := by
    rcases Nat.lt_or_ge (a / 10 ^ t) m with h | h
    · refine .inr (tens_between ha hm (tens_le.mpr ?_) (tens_le.mpr (Nat.mul_le_mul_right _ h)))
      have := Nat.lt_div_mul_add hP (a := a)
      rw [Nat.add_mul, Nat.one_mul, Nat.pow_zero, Nat.mul_one]
      omega
    · exact .inl h
  rw [tens_dist, tens_dist, mul_le_mul_iff_of_pos_right hK, mul_left_inj' hK.ne', Int.cast_le, Int.cast_inj]
  generalize 10 ^ t = P at *
  generalize a / P = lo at *
  generalize a % P = r at *
  have hmul : m ≤ lo → m * P + (lo - m) * P = lo * P := fun h => by rw [← Nat.add_mul]; congr 1; omega
  have hmul' : lo < m → m * P = lo * P + P + (m - lo - 1) * P := fun h => by
    conv_lhs => rw [show m = lo + 1 + (m - lo - 1) by omega, Nat.add_mul, Nat.add_mul, Nat.one_mul]
  rw [Nat.mul_comm] at hdm
  have hdiff : m < lo → P ≤ (lo - m) * P := fun h => Nat.le_mul_of_pos_left _ (by omega)
  have hdiff' : lo + 1 < m → P ≤ (m - lo - 1) * P := fun h => Nat.le_mul_of_pos_left _ (by omega)
  have hdP : (lo + 1) * P = lo * P + P := by rw [Nat.add_mul, Nat.one_mul]
  generalize hX : m * P = X at *
  generalize hL : lo * P = L at *
  have dlo : |((L : Nat) : ℤ) - (a : ℤ)| = r := by rw [abs_of_nonpos (by omega)]; omega
  have dup : |((L + P : Nat) : ℤ) - (a : ℤ)| = P - r := by rw [abs_of_nonneg (by omega)]; push_cast; omega
  -- the distance of the other one
  have dm : (m ≤ lo ∧ |((X : Nat) : ℤ) - (a : ℤ)| = r + ((lo - m) * P : Nat)) ∨
      (lo < m ∧ |((X : Nat) : ℤ) - (a : ℤ)| = P - r + ((m - lo - 1) * P : Nat)) := by
    rcases Nat.lt_or_ge lo m with h | h
    · right
      refine ⟨h, ?_⟩
      have := hmul' h
      rw [abs_of_nonneg (by omega)]
      omega
    · left
      refine ⟨h, ?_⟩
      have := hmul h
      rw [abs_of_nonpos (by omega)]
      omega
  generalize (lo - m) * P = U at *
  generalize (m - lo - 1) * P = V at *
  rcases h1 with rfl | rfl
  · rw [hL, dlo]
    rcases dm with ⟨g, e⟩ | ⟨g, e⟩
    · rw [e]
      refine ⟨by omega, fun h hne => ?_⟩
      have := hdiff (by omega)
      omega
    · rw [e]
      have := h2 h3 (hup.resolve_left (by omega))
      split at this
      · refine ⟨by omega, fun h hne => ?_⟩
        by_cases hl : d + 1 < m
        · have := hdiff' hl; omega
        · omega
      · omega
  · rw [hdP, dup]
    rcases dm with ⟨g, e⟩ | ⟨g, e⟩
    · rw [e]
      have := h2 (hlo.resolve_left (by omega)) h3
      split at this
      · omega
      · refine ⟨by omega, fun h hne => ?_⟩
        by_cases hl : m < lo
        · have := hdiff hl; omega
        · omega
    · rw [e]
      refine ⟨by omega, fun h hne => ?_⟩
      have := hdiff' (by omega)
      omega

/-- The digits `FormatFloat` writes. -/
theorem shortestText_spec {b a : Nat} (hb : 0 < b) (ha : NearBits (tens a 0) b) : ∃ d t, shortestText b a = plainDecimal d t ∧ NearBits (tens d t) b ∧
    d % 10 ≠ 0 ∧ (∀ (n : Nat) (x : ℤ) (k : Nat), n < 10 ^ k → NearBits ((n : ℚ) * 10 ^ x * 2 ^ 1074) b → d < 10 ^ k) ∧
    ∀ (n : Nat) (x : ℤ) (k : Nat), n < 10 ^ k → 10 ^ (k - 1) ≤ d → NearBits ((n : ℚ) * 10 ^ x * 2 ^ 1074) b →
      |tens d t - tens a 0| ≤ |(n : ℚ) * 10 ^ x * 2 ^ 1074 - tens a 0| ∧
      (|tens d t - tens a 0| = |(n : ℚ) * 10 ^ x * 2 ^ 1074 - tens a 0| → (n : ℚ) * 10 ^ x * 2 ^ 1074 ≠ tens d t →
        ∃ D T, tens d t = tens D T ∧ D % 2 = 0 ∧
          ((n : ℚ) * 10 ^ x * 2 ^ 1074 = tens (D + 1) T ∨ ∃ D', D = D' + 1 ∧ (n : ℚ) * 10 ^ x * 2 ^ 1074 = tens D' T)) := by
  have ha0 : 0 < a := by
    by_contra h
    have h0 : a = 0 := by omega
    have := ha.pos hb
    rw [h0] at this
    simp [tens] at this
  unfold shortestText
  obtain ⟨hN, hlo, hhi⟩ := numDigits_spec a ha0
  generalize numDigits a = N at *
  rcases hs : shortest b a (N - 1) with ⟨d0, t0⟩
  obtain ⟨s1, s2, s3, s5, s4⟩ := shortest_spec ha _ _ _ hs
  rcases hd : dropZeros N d0 t0 with ⟨d, t⟩
  obtain ⟨k0, rfl, hk⟩ := dropZeros_spec _ _ _ _ _ hd
  have hd0 : d0 ≠ 0 := by
    rintro rfl
    have := s2.pos hb
    simp [tens] at this
  have hd0le : d0 ≤ 10 ^ (N - t0) := by
    have : a / 10 ^ t0 < 10 ^ (N - t0) := by
      rw [Nat.div_lt_iff_lt_mul (Nat.pow_pos (by decide)), ← Nat.pow_add, Nat.sub_add_cancel (by omega)]
      exact hhi
    omega
  -- every multiple of a power of ten that rounds to `b` would have been found
  have cut : ∀ u m, t0 < u → u ≤ N - 1 → ¬ NearBits (tens m u) b := by
    intro u m u1 u2 hm
    have hpos : 0 < 10 ^ u := Nat.pow_pos (by decide)
    rcases Nat.lt_or_ge (a / 10 ^ u) m with h | h
    · refine (s4 u u1 u2).2 (tens_between ha hm (tens_le.mpr ?_) (tens_le.mpr (Nat.mul_le_mul_right _ h)))
      have := Nat.lt_div_mul_add hpos (a := a)
      rw [Nat.add_mul, Nat.one_mul, Nat.pow_zero, Nat.mul_one]
      omega
    · refine (s4 u u1 u2).1 (tens_between hm ha (tens_le.mpr (Nat.mul_le_mul_right _ h)) (tens_le.mpr ?_))
      rw [Nat.pow_zero, Nat.mul_one]
      exact Nat.div_mul_le_self a _
  have first : tens 1 (N - 1) ≤ tens a 0 := by
    refine tens_le.mpr ?_
    rw [Nat.pow_zero, Nat.mul_one, Nat.one_mul]
    exact hlo
  have digits : ∀ (n : Nat) (x : ℤ) (k : Nat), n < 10 ^ k → NearBits ((n : ℚ) * 10 ^ x * 2 ^ 1074) b → 1 ≤ k ∧ N - t0 ≤ k := by
    intro n x k hn hnear
    have hk1 : 1 ≤ k := by
      by_contra h
      have : k = 0 := by omega
      subst this
      have h0 : n = 0 := by simpa using hn
      have := hnear.pos hb
      rw [h0] at this
      simp at this
    refine ⟨hk1, ?_⟩
    by_contra hkN
    by_cases hy : ((N - k : Nat) : ℤ) ≤ x + 1074
    · rw [ints_tens n x (N - k) hy] at hnear
      exact cut _ _ (by omega) (by omega) hnear
    · have h1 := below_tens n x k (N - 1) hn (by omega)
      exact cut (N - 1) 1 (by omega) (Nat.le_refl _) (tens_between hnear ha h1 first)
  have hdle : d ≤ d0 := by
    rw [hk]; exact Nat.le_mul_of_pos_right _ (Nat.pow_pos (by decide))
  have hd1 : d0 = 10 ^ (N - t0) → d = 1 := by
    intro h
    rw [h, dropZeros_pow N (N - t0) t0 (by omega)] at hd
    exact (Prod.mk.inj hd).1.symm
  have hsame : tens d (t0 + k0) = tens d0 t0 := by rw [← tens_shift, ← hk]
  refine ⟨d, t0 + k0, by simp only [hd], by rw [hsame]; exact s2, ?_, ?_, ?_⟩
  · exact dropZeros_last _ _ _ _ _ (hd0le.trans (Nat.pow_le_pow_right (by decide) (by omega))) hd0 hd
  · intro n x k hn hnear
    obtain ⟨hk1, hkN⟩ := digits n x k hn hnear
    rcases Nat.lt_or_eq_of_le hd0le with h | h
    · exact (hdle.trans_lt h).trans_le (Nat.pow_le_pow_right (by decide) hkN)
    · rw [hd1 h]
      exact Nat.one_lt_pow (by omega) (by decide)
  · intro n x k hn hdk hnear
    obtain ⟨hk1, hkN⟩ := digits n x k hn hnear
    have hk2 : k ≤ N - t0 := by
      rcases Nat.lt_or_eq_of_le hd0le with h | h
      · have := (Nat.pow_lt_pow_iff_right (a := 10) (by decide)).mp (hdk.trans_lt (hdle.trans_lt h))
        omega
      · rw [hd1 h] at hdk
        have : k - 1 = 0 := by
          by_contra hc
          have := Nat.one_lt_pow hc (show 1 < 10 by decide)
          omega
        omega
    rw [hsame]
    have close := fun {m} (hm : NearBits (tens m t0) b) => shortest_closest ha s3 s5 s2 hm
    by_cases hy : (t0 : ℤ) ≤ x + 1074
    · rw [ints_tens n x t0 hy] at hnear ⊢
      generalize n * 10 ^ (x + 1074 - t0).toNat = m at *
      obtain ⟨g1, g2⟩ := close hnear
      refine ⟨g1, fun h hne => ?_⟩
      obtain ⟨g3, g4⟩ := g2 h (by rintro rfl; exact hne rfl)
      refine ⟨d0, t0, rfl, g3, ?_⟩
      rcases g4 with rfl | g4
      · exact .inl rfl
      · exact .inr ⟨m, g4, rfl⟩
    · have h1 := below_tens n x k (N - 1) hn (by omega)
      have hnear1 := tens_between hnear ha h1 first
      have ht0 : t0 = N - 1 := by
        by_contra hc
        exact cut (N - 1) 1 (by omega) (Nat.le_refl _) hnear1
      rw [← ht0] at h1 hnear1 first
      obtain ⟨g1, g2⟩ := close hnear1
      have hd : |tens 1 t0 - tens a 0| ≤ |(n : ℚ) * 10 ^ x * 2 ^ 1074 - tens a 0| := by
        rw [abs_of_nonpos (by linarith), abs_of_nonpos (by linarith)]
        linarith
      refine ⟨g1.trans hd, fun h hne => ?_⟩
      have he : (n : ℚ) * 10 ^ x * 2 ^ 1074 = tens 1 t0 := by
        have := le_antisymm (h ▸ g1 : |(n : ℚ) * 10 ^ x * 2 ^ 1074 - tens a 0| ≤ |tens 1 t0 - tens a 0|) hd
        rw [abs_of_nonpos (by linarith), abs_of_nonpos (by linarith)] at this
        linarith
      rw [he] at h hne ⊢
      obtain ⟨g3, g4⟩ := g2 h (by rintro rfl; exact hne rfl)
      refine ⟨d0, t0, rfl, g3, ?_⟩
      rcases g4 with g4 | g4
      · omega
      · exact .inr ⟨1, g4, rfl⟩

theorem formatMagnitude_spec {b : Nat} (hb : 0 < b) : ∃ d t, formatMagnitude b = plainDecimal d t ∧ NearBits (tens d t) b ∧
    d % 10 ≠ 0 ∧ (∀ (n : Nat) (x : ℤ) (k : Nat), n < 10 ^ k → NearBits ((n : ℚ) * 10 ^ x * 2 ^ 1074) b → d < 10 ^ k) ∧
    ∀ (n : Nat) (x : ℤ) (k : Nat), n < 10 ^ k → 10 ^ (k - 1) ≤ d → NearBits ((n : ℚ) * 10 ^ x * 2 ^ 1074) b →
      |tens d t - (magnitude b : ℚ)| ≤ |(n : ℚ) * 10 ^ x * 2 ^ 1074 - (magnitude b : ℚ)| ∧
      (|tens d t - (magnitude b : ℚ)| = |(n : ℚ) * 10 ^ x * 2 ^ 1074 - (magnitude b : ℚ)| → (n : ℚ) * 10 ^ x * 2 ^ 1074 ≠ tens d t →
        ∃ D T, tens d t = tens D T ∧ D % 2 = 0 ∧
          ((n : ℚ) * 10 ^ x * 2 ^ 1074 = tens (D + 1) T ∨ ∃ D', D = D' + 1 ∧ (n : ℚ) * 10 ^ x * 2 ^ 1074 = tens D' T)) := by
  have ha := NearBits.self b
  rw [← tens_exact b] at ha
  have h := shortestText_spec hb ha
  rw [tens_exact b] at h
  unfold formatMagnitude
  rw [if_neg (by omega)]
  exact h

/-! ### Text -/

theorem fixedDigits_length (k n : Nat) : (fixedDigits k n).length = k := by
  induction k generalizing n with
  | zero => rfl
  | succ k ih => rw [fixedDigits, List.length_append, ih, List.length_singleton]

theorem fixedDigits_numeral : ∀ (k n : Nat), 0 < k → Numeral (fixedDigits k n) (n % 10 ^ k) := by
  intro k
  induction k with
  | zero => intro n h; omega
  | succ k ih =>
    intro n _
    rw [fixedDigits]
    by_cases hk : k = 0
    · subst hk
      simpa [fixedDigits] using Numeral.digit (Nat.mod_lt n (show 0 < 10 by decide))
    · have := Numeral.snoc (ih (n / 10) (by omega)) (Nat.mod_lt n (show 0 < 10 by decide))
      have e : 10 * (n / 10 % 10 ^ k) + n % 10 = n % 10 ^ (k + 1) := by
        rw [Nat.pow_succ, Nat.mul_comm (10 ^ k) 10, Nat.mod_mul]; omega
      rwa [e] at this

/-- The text `%f` writes. -/
theorem plainDecimal_spec {d t : Nat} (hd : d % 10 ≠ 0) :
    ∃ q : ℚ, PlainDecimal (plainDecimal d t) q ∧ DecimalNumber (plainDecimal d t) q ∧ q * 2 ^ 1074 = tens d t ∧
      q = (d : ℚ) * 10 ^ ((t : ℤ) - 1074) := by
  have hq : ((d : ℚ) * 10 ^ ((t : ℤ) - 1074)) * 2 ^ 1074 = tens d t := by
    rw [ints_tens d _ t (by omega)]
    have : ((t : ℤ) - 1074 + 1074 - t).toNat = 0 := by omega
    rw [this, Nat.pow_zero, Nat.mul_one]
  refine ⟨_, ?_, ?_, hq, rfl⟩
  · unfold plainDecimal
    split
    · next h =>
      have := PlainDecimal.whole (formatUint_decimal (d * 10 ^ (t - 1074)))
      convert this using 1
      push_cast
      rw [show (t : ℤ) - 1074 = ((t - 1074 : Nat) : ℤ) by omega, zpow_natCast]
    · next h =>
      have hk : 0 < 1074 - t := by omega
      have := PlainDecimal.fraction (formatUint_decimal (d / 10 ^ (1074 - t))) (fixedDigits_numeral (1074 - t) d hk) (by
        rw [Nat.mod_mod_of_dvd]
        · exact hd
        · exact dvd_pow_self 10 (by omega))
      convert this using 1
      rw [fixedDigits_length, show (t : ℤ) - 1074 = -((1074 - t : Nat) : ℤ) by omega, zpow_neg, zpow_natCast]
      generalize 1074 - t = k
      have e := Nat.div_add_mod d (10 ^ k)
      have e' : (d : ℚ) = 10 ^ k * ((d / 10 ^ k : Nat) : ℚ) + ((d % 10 ^ k : Nat) : ℚ) := by exact_mod_cast e.symm
      rw [← div_eq_mul_inv]
      rw [eq_comm, eq_div_iff (by positivity), add_mul, div_mul_cancel₀ _ (by positivity)]
      linarith
  · unfold plainDecimal
    split
    · next h =>
      have := DecimalNumber.mk (Pointed.whole (decimal_numeral (formatUint_decimal (d * 10 ^ (t - 1074))))) .none (.inl (by norm_num))
      rw [List.append_nil] at this
      convert this using 1
      push_cast
      rw [show (t : ℤ) - 1074 = ((t - 1074 : Nat) : ℤ) by omega, zpow_natCast]
      simp
    · next h =>
      have hk : 0 < 1074 - t := by omega
      have hn := (decimal_numeral (formatUint_decimal (d / 10 ^ (1074 - t)))).append (fixedDigits_numeral (1074 - t) d hk)
      rw [fixedDigits_length, Nat.div_add_mod'] at hn
      have hl : fixedDigits (1074 - t) d ≠ [] := (fixedDigits_numeral (1074 - t) d hk).ne_nil
      have := DecimalNumber.mk (Pointed.both (decimal_pos_length (formatUint_decimal _)) hl hn) .none (.inl (by norm_num))
      rw [List.append_nil] at this
      convert this using 1
      rw [fixedDigits_length]
      congr 2
      omega

end Protoast
