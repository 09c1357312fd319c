import Verif.Proof.Float3
import Verif.Proof.Strconv
import Mathlib.Algebra.Order.Field.Power
/-
  ParseFloat on decimal numbers, and on what FormatFloat writes.
-/
namespace Protoast

theorem Pointed.start {s : Str} {n k : Nat} (h : Pointed s n k) :
    ∃ c rest, s = c :: rest ∧ ((∃ d, d < 10 ∧ c = UInt8.ofNat (48 + d)) ∨ c = 46) := by
  cases hs : s with
  | nil =>
    exfalso
    cases h with
    | whole h => exact h.ne_nil hs
    | dot h => simp at hs
    | behind h => simp at hs
    | both _ _ _ => simp at hs
  | cons c rest => exact ⟨c, rest, rfl, h.chars c (by rw [hs]; simp)⟩

theorem DecimalNumber.start {s : Str} {q : ℚ} (h : DecimalNumber s q) :
    ∃ c rest, s = c :: rest ∧ ((∃ d, d < 10 ∧ c = UInt8.ofNat (48 + d)) ∨ c = 46) := by
  cases h with
  | mk h1 h2 h3 =>
    obtain ⟨c, rest, rfl, hc⟩ := h1.start
    exact ⟨c, _, rfl, hc⟩

theorem start_lower {c : UInt8} (h : (∃ d, d < 10 ∧ c = UInt8.ofNat (48 + d)) ∨ c = 46) :
    lowerBit c ≠ 105 ∧ lowerBit c ≠ 110 ∧ c ≠ 43 ∧ c ≠ 45 := by
  rcases h with ⟨d, hd, rfl⟩ | rfl
  · have : ∀ d : Fin 10, lowerBit (UInt8.ofNat (48 + d.val)) ≠ 105 ∧ lowerBit (UInt8.ofNat (48 + d.val)) ≠ 110 ∧
        UInt8.ofNat (48 + d.val) ≠ 43 ∧ UInt8.ofNat (48 + d.val) ≠ 45 := by decide
    exact this ⟨d, hd⟩
  · decide

theorem DecimalNumber.nonneg {s : Str} {q : ℚ} (h : DecimalNumber s q) : 0 ≤ q := by
  cases h with
  | mk h1 h2 h3 => positivity

theorem not_infinity {s : Str} {q : ℚ} (h : DecimalNumber s q) : isInfinity s = false := by
  obtain ⟨c, rest, rfl, hc⟩ := h.start
  have := (start_lower hc).1
  unfold isInfinity
  have h1 : ((c :: rest).map lowerBit == b!"inf") = false := by
    rw [beq_eq_false_iff_ne]
    intro e
    exact this (List.cons.inj e).1
  have h2 : ((c :: rest).map lowerBit == b!"infinity") = false := by
    rw [beq_eq_false_iff_ne]
    intro e
    exact this (List.cons.inj e).1
  simp only [h1, h2, Bool.or_self]

theorem parseUnsigned_some {s : Str} {x : ReadFloat} (neg : Bool) (h1 : isInfinity s = false) (h2 : readFloat s = some x) :
    parseUnsigned neg s = if roundBits x.ratio.1 x.ratio.2 < infBits then some (withSign neg (roundBits x.ratio.1 x.ratio.2)) else none := by
  unfold parseUnsigned
  rw [h1, h2]
  simp only [Bool.false_eq_true, if_false]

theorem nearBits_exists {ρ : ℚ} (h : 0 ≤ ρ) : ∃ c, NearBits ρ c := by
  refine ⟨roundBits ρ.num.toNat ρ.den, ?_⟩
  have e : ((ρ.num.toNat : ℚ)) / (ρ.den : ℚ) = ρ := by
    have h1 : ((ρ.num.toNat : ℤ)) = ρ.num := Int.toNat_of_nonneg (Rat.num_nonneg.mpr h)
    have h2 : ((ρ.num.toNat : ℚ)) = ((ρ.num : ℤ) : ℚ) := by
      conv_rhs => rw [← h1]
      exact (Int.cast_natCast _).symm
    rw [h2]; exact Rat.num_div_den ρ
  have := roundBits_near (n := ρ.num.toNat) (d := ρ.den) ρ.den_pos
  rwa [e] at this

theorem Numeral.lt {s : Str} {n : Nat} (h : Numeral s n) : n < 10 ^ s.length := by
  induction h with
  | digit hd => simpa using hd
  | snoc _ hd ih => simp only [List.length_append, List.length_singleton, Nat.pow_succ]; omega

theorem Pointed.bounds {s : Str} {n k : Nat} (h : Pointed s n k) : n < 10 ^ s.length ∧ k ≤ s.length := by
  have up : ∀ {t : Str}, n < 10 ^ t.length → t.length ≤ s.length → n < 10 ^ s.length := by
    intro t h1 h2
    exact h1.trans_le (Nat.pow_le_pow_right (by decide) h2)
  cases h with
  | whole h => exact ⟨h.lt, Nat.zero_le _⟩
  | dot h => exact ⟨up h.lt (by simp), Nat.zero_le _⟩
  | behind h => exact ⟨up h.lt (by simp), by simp⟩
  | both _ _ h => exact ⟨up h.lt (by simp), by simp; omega⟩

/-- Numbers that are too large by far. -/
theorem NearBits.large {q : ℚ} {m : Nat} (h : NearBits (q * 2 ^ 1074) m) (hq : 10 ^ 1000 ≤ q) : infBits ≤ m := by
  rw [h.overflow]
  have e1 : (2 : ℚ) ^ 2044 ≤ 2 ^ 970 * 2 ^ 1074 := by rw [← pow_add]
  have e2 : (2 : ℚ) ^ 54 * 2 ^ 970 ≤ 10 ^ 1000 := by
    rw [← pow_add]
    calc (2 : ℚ) ^ (54 + 970) ≤ (2 ^ 3) ^ 1000 := by rw [← pow_mul]; exact pow_le_pow_right₀ (by norm_num) (by norm_num)
      _ ≤ 10 ^ 1000 := pow_le_pow_left₀ (by norm_num) (by norm_num) _
  have p1 : (0 : ℚ) < 2 ^ 2044 := by positivity
  have p2 : (0 : ℚ) < 2 ^ 1074 := by positivity
  calc ((2 : ℚ) ^ 54 - 1) * 2 ^ 2044 ≤ 2 ^ 54 * 2 ^ 2044 := mul_le_mul_of_nonneg_right (by norm_num) p1.le
    _ ≤ 2 ^ 54 * (2 ^ 970 * 2 ^ 1074) := mul_le_mul_of_nonneg_left e1 (by positivity)
    _ = (2 ^ 54 * 2 ^ 970) * 2 ^ 1074 := by rw [mul_assoc]
    _ ≤ q * 2 ^ 1074 := mul_le_mul_of_nonneg_right (e2.trans hq) p2.le

theorem nearBits_zero {ρ : ℚ} (h0 : 0 ≤ ρ) (h : ρ < 1 / 2) : NearBits ρ 0 := by
  have key : ∀ b : Nat, b ≠ 0 → |(magnitude 0 : ℚ) - ρ| < |(magnitude b : ℚ) - ρ| := by
    intro b hb
    have h1 : magnitude 0 < magnitude b := magnitude_mono (Nat.pos_of_ne_zero hb)
    rw [magnitude_zero] at h1 ⊢
    have h2 : (1 : ℚ) ≤ magnitude b := by exact_mod_cast h1
    rw [Nat.cast_zero, zero_sub, abs_neg, abs_of_nonneg h0, abs_of_nonneg (by linarith)]
    linarith
  refine ⟨fun b => ?_, fun b hb e => absurd e (key b hb).ne⟩
  by_cases hb : b = 0
  · rw [hb]
  · exact (key b hb).le

/-- Numbers that are too small by far. -/
theorem nearBits_small {q : ℚ} (h0 : 0 ≤ q) (h : q * 10 ^ 1000 ≤ 1) : NearBits (q * 2 ^ 1074) 0 := by
  refine nearBits_zero (by positivity) ?_
  have e : (2 : ℚ) ^ 1074 * 4 ≤ 10 ^ 1000 := by
    calc (2 : ℚ) ^ 1074 * 4 = 2 ^ 1074 * 2 ^ 2 := by norm_num
      _ = 2 ^ 1076 := by rw [← pow_add]
      _ ≤ (2 ^ 3) ^ 1000 := by rw [← pow_mul]; exact pow_le_pow_right₀ (by norm_num) (by norm_num)
      _ ≤ 10 ^ 1000 := pow_le_pow_left₀ (by norm_num) (by norm_num) _
  have := mul_le_mul_of_nonneg_left e h0
  have h3 : q * 2 ^ 1074 * 4 ≤ 1 := by
    calc q * 2 ^ 1074 * 4 = q * (2 ^ 1074 * 4) := by rw [mul_assoc]
      _ ≤ 1 := this.trans h
  clear this e h
  generalize q * 2 ^ 1074 = y at *
  linarith

/-- The exponent that is read gives the same double. -/
theorem saturated_bits {n k l : Nat} {e e' : Int} (h : Saturated e e') (hn : n < 10 ^ l) (hk : k ≤ l)
    (hl : |e| < 100000 ∨ l ≤ 9000) {m' : Nat} (hm : NearBits ((n : ℚ) * 10 ^ (e' - k) * 2 ^ 1074) m') :
    ∃ m, NearBits ((n : ℚ) * 10 ^ (e - k) * 2 ^ 1074) m ∧ (m < infBits ↔ m' < infBits) ∧ (m < infBits → m = m') := by
  obtain ⟨h1, h2, h3⟩ := h
  by_cases he : |e| < 100000
  · rw [h1 he] at hm
    exact ⟨m', hm, Iff.rfl, fun _ => rfl⟩
  · have hl : l ≤ 9000 := hl.resolve_left he
    by_cases h0 : n = 0
    · subst h0
      refine ⟨m', ?_, Iff.rfl, fun _ => rfl⟩
      simpa using hm
    · rw [not_lt, le_abs] at he
      have hn1 : (1 : ℚ) ≤ n := by exact_mod_cast Nat.pos_of_ne_zero h0
      rcases he with he | he
      · have large : ∀ x : Int, 10000 ≤ x → (10 : ℚ) ^ 1000 ≤ (n : ℚ) * 10 ^ (x - k) := by
          intro x hx
          calc (10 : ℚ) ^ 1000 = (10 : ℚ) ^ (1000 : ℤ) := by rw [← zpow_natCast]; rfl
            _ ≤ (10 : ℚ) ^ (x - k) := zpow_le_zpow_right₀ (by norm_num) (by omega)
            _ ≤ (n : ℚ) * 10 ^ (x - k) := le_mul_of_one_le_left (by positivity) hn1
        have g' := hm.large (large e' (h2 he))
        obtain ⟨m, g1⟩ := nearBits_exists (ρ := (n : ℚ) * 10 ^ (e - k) * 2 ^ 1074) (by positivity)
        have g := g1.large (large e (by omega))
        exact ⟨m, g1, by omega, by omega⟩
      · have small : ∀ x : Int, x ≤ -10000 → (n : ℚ) * 10 ^ (x - k) * 10 ^ 1000 ≤ 1 := by
          intro x hx
          have hn2 : (n : ℚ) ≤ (10 : ℚ) ^ (9000 : ℤ) := by
            have : n ≤ 10 ^ 9000 := hn.le.trans (Nat.pow_le_pow_right (by decide) hl)
            have h2 : (n : ℚ) ≤ ((10 ^ 9000 : Nat) : ℚ) := by exact_mod_cast this
            rw [Nat.cast_pow] at h2
            calc (n : ℚ) ≤ _ := h2
              _ = (10 : ℚ) ^ (9000 : ℤ) := by rw [← zpow_natCast]; rfl
          calc (n : ℚ) * 10 ^ (x - k) * 10 ^ 1000 ≤ 10 ^ (9000 : ℤ) * 10 ^ (x - k) * 10 ^ 1000 := by
                exact mul_le_mul_of_nonneg_right (mul_le_mul_of_nonneg_right hn2 (by positivity)) (by positivity)
            _ = 10 ^ (9000 + (x - k) + 1000 : ℤ) := by
                rw [zpow_add₀ (by norm_num), zpow_add₀ (by norm_num)]
                congr 1
            _ ≤ 10 ^ (0 : ℤ) := zpow_le_zpow_right₀ (by norm_num) (by omega)
            _ = 1 := zpow_zero _
        have g' := hm.unique (nearBits_small (by positivity) (small e' (h3 (by omega))))
        have g1 := nearBits_small (q := (n : ℚ) * 10 ^ (e - k)) (by positivity) (small e (by omega))
        exact ⟨0, g1, by rw [g'], fun _ => g'.symm⟩

/-- `ParseFloat` on an unsigned decimal number. -/
theorem parseUnsigned_decimal {s : Str} {q : ℚ} (h : DecimalNumber s q) (neg : Bool) :
    ∃ m, NearBits (q * 2 ^ 1074) m ∧ parseUnsigned neg s = if m < infBits then some (withSign neg m) else none := by
  have hi := not_infinity h
  cases h with
  | @mk s p n k e h1 h2 h3 =>
    obtain ⟨e', g1, g2⟩ := readFloat_decimal h1 h2
    obtain ⟨hd, hv⟩ := ratio_value n (e' - k) 10 (by decide)
    have hm := roundBits_near (n := (ReadFloat.ratio ⟨n, e' - k, 10⟩).1) hd
    rw [hv] at hm
    obtain ⟨m, a1, a2, a3⟩ := saturated_bits g2 h1.bounds.1 h1.bounds.2 h3 (by exact_mod_cast hm)
    refine ⟨m, a1, ?_⟩
    rw [parseUnsigned_some neg hi g1]
    by_cases hlt : m < infBits
    · rw [if_pos hlt, if_pos (a2.mp hlt), a3 hlt]
    · rw [if_neg hlt, if_neg (fun h => hlt (a2.mpr h))]

theorem parseFloat_plain {s : Str} {q : ℚ} (h : DecimalNumber s q) : parseFloat s = parseUnsigned false s := by
  obtain ⟨c, rest, rfl, hc⟩ := h.start
  obtain ⟨-, h1, h2, h3⟩ := start_lower hc
  unfold parseFloat
  split
  · next g => exact absurd (List.cons.inj g).1 h2
  · next g => exact absurd (List.cons.inj g).1 h3
  · rw [if_neg]
    rw [beq_iff_eq]
    intro e
    exact h1 (List.cons.inj e).1

/-- `ParseFloat` on a decimal number with an optional sign. -/
theorem parseFloat_decimal {s : Str} {neg : Bool} {q : ℚ} (h : DecimalFloat s neg q) :
    ∃ m, NearBits (|q| * 2 ^ 1074) m ∧ (if neg then q ≤ 0 else 0 ≤ q) ∧
      parseFloat s = if m < infBits then some (withSign neg m) else none := by
  cases h with
  | plain h =>
    obtain ⟨m, h1, h2⟩ := parseUnsigned_decimal h false
    refine ⟨m, by rwa [abs_of_nonneg h.nonneg], by simpa using h.nonneg, ?_⟩
    rw [parseFloat_plain h, h2]
  | plus h =>
    obtain ⟨m, h1, h2⟩ := parseUnsigned_decimal h false
    refine ⟨m, by rwa [abs_of_nonneg h.nonneg], by simpa using h.nonneg, ?_⟩
    rw [← h2]; rfl
  | minus h =>
    obtain ⟨m, h1, h2⟩ := parseUnsigned_decimal h true
    refine ⟨m, by rwa [abs_neg, abs_of_nonneg h.nonneg], by simpa using h.nonneg, ?_⟩
    rw [← h2]; rfl

theorem parseFloat_nearest {s : Str} {neg : Bool} {q : ℚ} (h : DecimalFloat s neg q) :
    (Double.OutOfRange q → parseFloat s = none) ∧
    (¬ Double.OutOfRange q → ∃ b, parseFloat s = some b ∧ Double.Nearest q b ∧ Double.negative b = neg) := by
  obtain ⟨m, h1, h2, h3⟩ := parseFloat_decimal h
  have h4 := h1.overflow
  rw [← outOfRange_iff] at h4
  constructor
  · intro ho
    rw [h3, if_neg (by have := h4.mpr ho; omega)]
  · intro ho
    have hm : m < infBits := by
      by_contra hlt
      exact ho (h4.mp (by omega))
    rw [h3, if_pos hm]
    exact ⟨_, rfl, nearest_of_nearBits h1 hm h2, (withSign_parts hm).2.1⟩

/-! ### Writing -/

theorem NearBits.self (b : Nat) : NearBits (magnitude b) b := by
  constructor
  · intro b'; rw [sub_self, abs_zero]; exact abs_nonneg _
  · intro b' hne h
    rw [sub_self, abs_zero, eq_comm, abs_eq_zero, sub_eq_zero] at h
    exact absurd (magnitude_mono.injective (by exact_mod_cast h)) hne

theorem NearBits.mono {ρ σ : ℚ} {b c : Nat} (h : NearBits ρ b) (g : NearBits σ c) (hle : ρ ≤ σ) : b ≤ c := by
  by_contra hlt
  have hlt : c < b := by omega
  have hm : (magnitude c : ℚ) < magnitude b := by exact_mod_cast magnitude_mono hlt
  have h1 := h.near c
  have h2 := g.near b
  have e : ρ = σ := by
    apply le_antisymm hle
    have l1 := le_abs_self ((magnitude b : ℚ) - ρ)
    have l2 := neg_abs_le ((magnitude b : ℚ) - σ)
    rcases le_total (magnitude c : ℚ) ρ with h5 | h5
    · rw [abs_of_nonpos (a := (magnitude c : ℚ) - ρ) (by linarith)] at h1
      rw [abs_of_nonpos (a := (magnitude c : ℚ) - σ) (by linarith)] at h2
      rcases le_total (magnitude b : ℚ) σ with h6 | h6
      · rw [abs_of_nonpos (a := (magnitude b : ℚ) - σ) (by linarith)] at h2; linarith
      · rw [abs_of_nonneg (a := (magnitude b : ℚ) - σ) (by linarith)] at h2; linarith
    · rw [abs_of_nonneg (a := (magnitude c : ℚ) - ρ) (by linarith)] at h1; linarith
  subst e
  exact hlt.ne' (h.unique g)

theorem NearBits.between {ρ σ τ : ℚ} {b c : Nat} (h1 : NearBits ρ b) (h2 : NearBits τ b) (hc : NearBits σ c)
    (a1 : ρ ≤ σ) (a2 : σ ≤ τ) : c = b := le_antisymm (hc.mono h2 a2) (h1.mono hc a1)

theorem NearBits.pos {ρ : ℚ} {b : Nat} (h : NearBits ρ b) (hb : 0 < b) : 0 < ρ := by
  by_contra hle
  have h0 : NearBits 0 0 := by simpa [magnitude_zero] using NearBits.self 0
  have := h.mono h0 (by linarith)
  omega

/-- `d · 10^t` in units of 10^-1074, in units of 2^-1074. -/
def tens (d t : Nat) : ℚ := (d : ℚ) * 10 ^ t * 2 ^ 1074 / 10 ^ 1074

theorem roundsTo_iff {b d t : Nat} : roundsTo b d t = true ↔ NearBits (tens d t) b := by
  have hn := roundBits_near (n := d * 10 ^ t * 2 ^ 1074) (d := 10 ^ 1074) (Nat.pow_pos (by decide))
  have e : ((d * 10 ^ t * 2 ^ 1074 : Nat) : ℚ) / ((10 ^ 1074 : Nat) : ℚ) = tens d t := by
    unfold tens
    rw [Nat.cast_mul, Nat.cast_mul, Nat.cast_pow 10 t, Nat.cast_pow 2 1074, Nat.cast_pow 10 1074]
    simp only [Nat.cast_ofNat]
  rw [e] at hn
  unfold roundsTo
  rw [beq_iff_eq]
  constructor
  · intro h; rwa [h] at hn
  · intro h; exact hn.unique h

theorem tens_exact (b : Nat) : tens (magnitude b * 5 ^ 1074) 0 = magnitude b := by
  unfold tens
  rw [Nat.cast_mul, Nat.cast_pow 5 1074, pow_zero, mul_one]
  have h10 : (10 : ℚ) ^ 1074 = 5 ^ 1074 * 2 ^ 1074 := by rw [← mul_pow]; norm_num
  rw [h10]
  have h5 : (0 : ℚ) < 5 ^ 1074 := by positivity
  have h2 : (0 : ℚ) < 2 ^ 1074 := by positivity
  rw [div_eq_iff (mul_pos h5 h2).ne', Nat.cast_ofNat]
  generalize (5 : ℚ) ^ 1074 = x
  generalize (2 : ℚ) ^ 1074 = y
  ring

theorem tens_shift (d t k : Nat) : tens (d * 10 ^ k) t = tens d (t + k) := by
  unfold tens
  rw [Nat.cast_mul, Nat.cast_pow 10 k, pow_add, Nat.cast_ofNat]
  generalize (2 : ℚ) ^ 1074 = y
  generalize (10 : ℚ) ^ 1074 = z
  ring

theorem tens_le {d t d' t' : Nat} : tens d t ≤ tens d' t' ↔ d * 10 ^ t ≤ d' * 10 ^ t' := by
  unfold tens
  have h2 : (0 : ℚ) < 2 ^ 1074 := by positivity
  have h10 : (0 : ℚ) < 10 ^ 1074 := by positivity
  rw [div_le_div_iff_of_pos_right h10, mul_le_mul_iff_of_pos_right h2]
  exact_mod_cast Iff.rfl

/-- What the search finds: `d · 10^t` rounds to `b`, is `a` cut to a multiple of `10^t` (or the next), and no longer cut
    would do. -/
theorem shortest_spec {b a : Nat} (ha : NearBits (tens a 0) b) : ∀ T d t, shortest b a T = (d, t) →
    t ≤ T ∧ NearBits (tens d t) b ∧ (d = a / 10 ^ t ∨ d = a / 10 ^ t + 1) ∧
    (NearBits (tens (a / 10 ^ t) t) b → NearBits (tens (a / 10 ^ t + 1) t) b →
      if 2 * (a % 10 ^ t) + a / 10 ^ t % 2 ≤ 10 ^ t then d = a / 10 ^ t else d = a / 10 ^ t + 1) ∧
    ∀ u, t < u → u ≤ T → ¬ NearBits (tens (a / 10 ^ u) u) b ∧ ¬ NearBits (tens (a / 10 ^ u + 1) u) b := by
  intro T
  induction T with
  | zero =>
    intro d t h
    unfold shortest at h
    cases h
    refine ⟨Nat.le_refl _, ha, .inl (by simp), fun _ _ => ?_, fun u h1 h2 => by omega⟩
    rw [if_pos (by simp [Nat.mod_one]; omega)]
    simp
  | succ T ih =>
    intro d t h
    rw [shortest] at h
    have none : ∀ {P : Nat → Prop} u, T + 1 < u → u ≤ T + 1 → P u := fun u h1 h2 => by omega
    by_cases h1 : roundsTo b (a / 10 ^ (T + 1)) (T + 1) = true
    · rw [if_pos h1] at h
      by_cases h2 : (roundsTo b (a / 10 ^ (T + 1) + 1) (T + 1) && decide (2 * (a % 10 ^ (T + 1)) + a / 10 ^ (T + 1) % 2 > 10 ^ (T + 1))) = true
      · rw [if_pos h2] at h
        cases h
        refine ⟨Nat.le_refl _, roundsTo_iff.mp (Bool.and_eq_true_iff.mp h2).1, .inr rfl, fun _ _ => ?_, none⟩
        rw [if_neg (by have := of_decide_eq_true (Bool.and_eq_true_iff.mp h2).2; omega)]
      · rw [if_neg h2] at h
        cases h
        refine ⟨Nat.le_refl _, roundsTo_iff.mp h1, .inl rfl, fun _ g => ?_, none⟩
        rw [if_pos]
        by_contra hc
        exact h2 (by rw [roundsTo_iff.mpr g, decide_eq_true (by omega)]; rfl)
    · rw [if_neg h1] at h
      by_cases h2 : roundsTo b (a / 10 ^ (T + 1) + 1) (T + 1) = true
      · rw [if_pos h2] at h
        cases h
        exact ⟨Nat.le_refl _, roundsTo_iff.mp h2, .inr rfl, fun g _ => absurd (roundsTo_iff.mpr g) h1, none⟩
      · rw [if_neg h2] at h
        obtain ⟨g1, g2, g3, g5, g4⟩ := ih d t h
        refine ⟨by omega, g2, g3, g5, fun u u1 u2 => ?_⟩
        by_cases hu : u = T + 1
        · subst hu
          exact ⟨fun x => h1 (roundsTo_iff.mpr x), fun x => h2 (roundsTo_iff.mpr x)⟩
        · exact g4 u u1 (by omega)

theorem dropZeros_spec : ∀ fuel d t d' t', dropZeros fuel d t = (d', t') →
    ∃ k, t' = t + k ∧ d = d' * 10 ^ k := by
  intro fuel
  induction fuel with
  | zero => intro d t d' t' h; cases h; exact ⟨0, rfl, by simp⟩
  | succ fuel ih =>
    intro d t d' t' h
    rw [dropZeros] at h
    split at h
    · next hd =>
      obtain ⟨k, h1, h2⟩ := ih _ _ _ _ h
      refine ⟨k + 1, by omega, ?_⟩
      have : d = 10 * (d / 10) := by omega
      rw [this, h2, Nat.pow_succ]; ring
    · cases h; exact ⟨0, rfl, by simp⟩

theorem dropZeros_pow : ∀ fuel k t, k ≤ fuel → dropZeros fuel (10 ^ k) t = (1, t + k) := by
  intro fuel
  induction fuel with
  | zero => intro k t h; have : k = 0 := by omega
            subst this; rfl
  | succ fuel ih =>
    intro k t h
    rw [dropZeros]
    cases k with
    | zero => rfl
    | succ k =>
      have h1 : 10 ^ (k + 1) % 10 = 0 := by rw [Nat.pow_succ]; omega
      have h2 : 10 ^ (k + 1) ≠ 0 := by positivity
      have h3 : 10 ^ (k + 1) / 10 = 10 ^ k := by rw [Nat.pow_succ]; omega
      rw [if_pos ⟨h1, h2⟩, h3, ih k (t + 1) (by omega)]
      congr 1; omega

theorem countDigits_spec : ∀ (fuel a : Nat), 0 < a → a < 10 ^ (fuel + 1) →
    0 < countDigits fuel a ∧ 10 ^ (countDigits fuel a - 1) ≤ a ∧ a < 10 ^ countDigits fuel a := by
  intro fuel
  induction fuel with
  | zero => intro a h1 h2; simp [countDigits] at *; omega
  | succ fuel ih =>
    intro a h1 h2
    rw [countDigits]
    by_cases h : a < 10
    · rw [if_pos h]; simp; omega
    · rw [if_neg h]
      rw [Nat.pow_succ] at h2
      obtain ⟨g1, g2, g3⟩ := ih (a / 10) (by omega) (by omega)
      obtain ⟨k, hk⟩ : ∃ k, countDigits fuel (a / 10) = k + 1 := ⟨countDigits fuel (a / 10) - 1, by omega⟩
      rw [hk] at g2 g3 ⊢
      rw [Nat.add_sub_cancel] at g2
      rw [Nat.add_sub_cancel, Nat.pow_succ 10 (k + 1)]
      have : 10 ^ (k + 1) = 10 ^ k * 10 := Nat.pow_succ ..
      omega

theorem numDigits_spec (a : Nat) (h : 0 < a) : 0 < numDigits a ∧ 10 ^ (numDigits a - 1) ≤ a ∧ a < 10 ^ numDigits a := by
  refine countDigits_spec _ a h ?_
  have h1 : a < 2 ^ (Nat.log2 a + 1) := Nat.lt_log2_self
  exact h1.trans_le (Nat.pow_le_pow_left (by decide) _)

end Protoast
