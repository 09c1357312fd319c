import Verif.Proof.Float6
import Verif.Props.Values
import Verif.Props.ValueExact
/-
  C121, C122: floating-point options, with the conversions of Go's strconv.
-/
namespace Protoast.Props
open Protoast

/-! ### C121 -/

/-- `Value` of an option of a floating-point type that is not repeated. -/
theorem value_float {F : FloatOps} {r : Reg} {q f name lit typ} (hk : r.kind q = some (.option name lit))
    (hf : FieldAt r f typ false) (ht : typ ∈ floatTypes) : Option.value F q f r =
      match F.parse lit.source with
      | some v => (.ok (.float (some q) lit v), r)
      | none => (.panic .badLiteral, r) := by
  obtain ⟨n, s, o, hk'⟩ := hf
  rcases lit with ⟨pos, source, array, om⟩
  have hs : scalarClass typ = .float := by
    simp only [floatTypes, List.mem_cons, List.not_mem_nil, or_false] at ht
    rcases ht with rfl | rfl <;> decide
  simp only [Option.value, M.bind_apply, M.get_apply, hk, buildFromLiteral, hk', Bool.false_and, Bool.false_eq_true,
    if_false, hs, Literal.source]
  cases F.parse source <;> rfl

/-- C121 as promised: an option of type `double` that is set to a number of the protobuf language has as its value the
    double nearest to that number, with its sign, and makes `Value` panic if the number is out of range. -/
def C121_statement : Prop :=
  ∀ c, CleanReachable WFFile c → ∀ a q cls f, Node.option a q cls f ∈ c.pool → ∀ name lit neg x,
    c.reg.kind q = some (.option name lit) → FieldAt c.reg f b!"double" false → SignedNumber ProtoNumber lit.source neg x →
    (Double.OutOfRange x → ∃ e r', Option.value goFloats q f c.reg = (.panic e, r')) ∧
    (¬ Double.OutOfRange x → ∃ b r', Option.value goFloats q f c.reg = (.ok (.float (some q) lit b), r') ∧
      Double.Nearest x b ∧ Double.negative b = neg)

/-- C121 for decimal numbers, for `double` and for `float`. Missing: octal and hexadecimal integers, exponents of six
    digits or more behind more than 9000 other digits, and rounding to single precision for `float`. -/
theorem C121_partial {c a q cls f name lit typ neg x} (_hc : CleanReachable WFFile c) (_ho : Node.option a q cls f ∈ c.pool)
    (hk : c.reg.kind q = some (.option name lit)) (hf : FieldAt c.reg f typ false) (ht : typ ∈ floatTypes)
    (hl : DecimalFloat lit.source neg x) :
    (Double.OutOfRange x → Option.value goFloats q f c.reg = (.panic .badLiteral, c.reg)) ∧
    (¬ Double.OutOfRange x → ∃ b, Option.value goFloats q f c.reg = (.ok (.float (some q) lit b), c.reg) ∧
      Double.Nearest x b ∧ Double.negative b = neg) := by
  rw [value_float hk hf ht]
  obtain ⟨h1, h2⟩ := parseFloat_nearest hl
  constructor
  · intro h
    rw [show goFloats.parse lit.source = none from h1 h]
  · intro h
    obtain ⟨b, g1, g2, g3⟩ := h2 h
    rw [show goFloats.parse lit.source = some b from g1]
    exact ⟨b, rfl, g2, g3⟩

theorem decimalFloat_sign {s neg x} (h : DecimalFloat s neg x) : SignIs neg x := by
  unfold SignIs
  cases h with
  | plain h => simpa using h.nonneg
  | plus h => simpa using h.nonneg
  | minus h => simpa using h.nonneg

/-- There is only one such double. -/
theorem C121_unique {x : ℚ} {b b' : UInt64} (hs : SignIs (Double.negative b) x) (hn : Double.negative b = Double.negative b')
    (ho : ¬ Double.OutOfRange x) (h : Double.Nearest x b) (h' : Double.Nearest x b') : b = b' := by
  obtain ⟨m1, e1⟩ := withSign_of_finite h.finite
  obtain ⟨m2, e2⟩ := withSign_of_finite h'.finite
  rw [← e1] at h
  rw [← e2] at h'
  have g1 := nearBits_of_nearest m1 h hs ho
  have g2 := nearBits_of_nearest m2 h' (by rw [← hn]; exact hs) ho
  rw [← e1, ← e2, ← hn, g1.unique g2]

/-- Inside arrays and message literals: every value read for a floating-point field from a decimal number. -/
theorem C121_inside {r op f lit v typ rep neg x} (h : ValueOf .accepted goFloats r op f lit v) (hf : FieldAt r f typ rep)
    (ht : typ ∈ floatTypes) (hl : DecimalFloat lit.source neg x) :
    ¬ Double.OutOfRange x ∧ ∃ b, v = .float op lit b ∧ Double.Nearest x b ∧ Double.negative b = neg := by
  have hsort : ∀ {t rep'}, FieldAt r f t rep' → t = typ := fun g => (fieldAt_unique g hf).1
  have hp : ∀ b, goFloats.parse lit.source = some b → ¬ Double.OutOfRange x ∧ Double.Nearest x b ∧ Double.negative b = neg := by
    intro b hb
    obtain ⟨h1, h2⟩ := parseFloat_nearest hl
    have hb : parseFloat lit.source = some b := hb
    have ho : ¬ Double.OutOfRange x := by intro ho; rw [h1 ho] at hb; cases hb
    obtain ⟨b', g1, g2⟩ := h2 ho
    rw [g1] at hb
    cases hb
    exact ⟨ho, g2⟩
  simp only [floatTypes, List.mem_cons, List.not_mem_nil, or_false] at ht
  have named : ∀ {rep'}, ¬ Dialect.accepted.named typ rep' := by
    intro rep' hn
    rcases ht with rfl | rfl
    · exact hn.1 ⟨.float, rfl⟩
    · exact hn.1 ⟨.double, rfl⟩
  cases h with
  | bool g _ => exfalso; rw [← hsort g] at ht; revert ht; decide
  | int g g2 _ => exfalso; rw [hsort g] at g2; rcases ht with rfl | rfl <;> revert g2 <;> decide
  | uint g g2 _ => exfalso; rw [hsort g] at g2; rcases ht with rfl | rfl <;> revert g2 <;> decide
  | float g g2 g3 => exact ⟨(hp _ g3).1, _, rfl, (hp _ g3).2⟩
  | string g => exfalso; rw [← hsort g] at ht; revert ht; decide
  | bytes g => exfalso; rw [← hsort g] at ht; revert ht; decide
  | enum g g2 => rw [hsort g] at g2; exact (named g2).elim
  | message g g2 => rw [hsort g] at g2; exact (named g2).elim

/-- Hexadecimal numbers with a binary exponent are accepted as well. -/
theorem C121_hex {c a q cls f name lit typ neg x} (_hc : CleanReachable WFFile c) (_ho : Node.option a q cls f ∈ c.pool)
    (hk : c.reg.kind q = some (.option name lit)) (hf : FieldAt c.reg f typ false) (ht : typ ∈ floatTypes)
    (hl : SignedNumber HexNumber lit.source neg x) :
    (Double.OutOfRange x → Option.value goFloats q f c.reg = (.panic .badLiteral, c.reg)) ∧
    (¬ Double.OutOfRange x → ∃ b, Option.value goFloats q f c.reg = (.ok (.float (some q) lit b), c.reg) ∧
      Double.Nearest x b ∧ Double.negative b = neg) := by
  rw [value_float hk hf ht]
  obtain ⟨h1, h2⟩ := parseFloat_hex hl
  constructor
  · intro h
    rw [show goFloats.parse lit.source = none from h1 h]
  · intro h
    obtain ⟨b, g1, g2, g3⟩ := h2 h
    rw [show goFloats.parse lit.source = some b from g1]
    exact ⟨b, rfl, g2, g3⟩

/-- The constants that are not numbers: infinities with an optional sign, and NaN without. -/
theorem C121_special {c a q cls f name lit typ s} (_hc : CleanReachable WFFile c) (_ho : Node.option a q cls f ∈ c.pool)
    (hk : c.reg.kind q = some (.option name lit)) (hf : FieldAt c.reg f typ false) (ht : typ ∈ floatTypes) :
    (AnyCase b!"inf" s ∨ AnyCase b!"infinity" s →
      (lit.source = s ∨ lit.source = 43 :: s →
        Option.value goFloats q f c.reg = (.ok (.float (some q) lit Double.posInf), c.reg)) ∧
      (lit.source = 45 :: s → Option.value goFloats q f c.reg = (.ok (.float (some q) lit Double.negInf), c.reg))) ∧
    (AnyCase b!"nan" s →
      (lit.source = s → ∃ b, Option.value goFloats q f c.reg = (.ok (.float (some q) lit b), c.reg) ∧ Double.IsNaN b) ∧
      (lit.source = 43 :: s ∨ lit.source = 45 :: s → Option.value goFloats q f c.reg = (.panic .badLiteral, c.reg))) := by
  rw [value_float hk hf ht]
  have sign : ∀ {d : UInt8}, lowerBit d = 105 ∨ lowerBit d = 110 → d ≠ 43 ∧ d ≠ 45 := by
    intro d hd
    constructor <;> rintro rfl <;> revert hd <;> decide
  constructor
  · intro hs
    have hi := isInfinity_iff.mpr hs
    have hp : ∀ neg, parseUnsigned neg s = some (withSign neg infBits) := by
      intro neg
      unfold parseUnsigned
      rw [if_pos hi]
    have hstart : ∃ d ds, s = d :: ds ∧ lowerBit d = 105 := by
      rw [← anyCase_iff (by decide), ← anyCase_iff (by decide)] at hs
      cases s with
      | nil => exact absurd hs (by decide)
      | cons d ds => rcases hs with h | h <;> exact ⟨d, ds, rfl, (List.cons.inj h).1⟩
    have h1 : parseFloat s = some Double.posInf := by
      obtain ⟨d, ds, rfl, hd⟩ := hstart
      unfold parseFloat
      split
      · next g => exact absurd (List.cons.inj g).1 (sign (.inl hd)).1
      · next g => exact absurd (List.cons.inj g).1 (sign (.inl hd)).2
      · rw [if_neg, hp]
        · decide +kernel
        · rw [beq_iff_eq]
          intro e
          rw [(List.cons.inj e).1] at hd
          exact absurd hd (by decide)
    have h2 : parseFloat (43 :: s) = some Double.posInf := by
      show parseUnsigned false s = _
      rw [hp]; decide +kernel
    have h3 : parseFloat (45 :: s) = some Double.negInf := by
      show parseUnsigned true s = _
      rw [hp]; decide +kernel
    refine ⟨?_, ?_⟩
    · rintro (h | h) <;> rw [h]
      · rw [show goFloats.parse s = _ from h1]
      · rw [show goFloats.parse (43 :: s) = _ from h2]
    · intro h
      rw [h, show goFloats.parse (45 :: s) = _ from h3]
  · intro hs
    rw [← anyCase_iff (by decide)] at hs
    obtain ⟨d1, d2, d3, rfl⟩ : ∃ d1 d2 d3, s = [d1, d2, d3] := by
      match s, congrArg List.length hs with
      | [d1, d2, d3], _ => exact ⟨d1, d2, d3, rfl⟩
    obtain ⟨e1, e2⟩ := List.cons.inj hs
    obtain ⟨e2, e3⟩ := List.cons.inj e2
    obtain ⟨e3, -⟩ := List.cons.inj e3
    have ln : ∀ d : UInt8, (lowerBit d = 110 → d = 110 ∨ d = 78) ∧ (lowerBit d = 97 → d = 97 ∨ d = 65) := by
      refine byte_all ?_
      decide +kernel
    have p1 : parseFloat [d1, d2, d3] = some 0x7FF8000000000001 := by
      rcases (ln d1).1 e1 with rfl | rfl <;> rcases (ln d2).2 e2 with rfl | rfl <;> rcases (ln d3).1 e3 with rfl | rfl <;>
        decide +kernel
    have p2 : parseFloat [43, d1, d2, d3] = none ∧ parseFloat [45, d1, d2, d3] = none := by
      rcases (ln d1).1 e1 with rfl | rfl <;> rcases (ln d2).2 e2 with rfl | rfl <;> rcases (ln d3).1 e3 with rfl | rfl <;>
        decide +kernel
    refine ⟨?_, ?_⟩
    · intro h
      rw [h, show goFloats.parse [d1, d2, d3] = _ from p1]
      exact ⟨_, rfl, by decide +kernel, by decide +kernel⟩
    · rintro (h | h) <;> rw [h]
      · rw [show goFloats.parse (43 :: [d1, d2, d3]) = _ from p2.1]
      · rw [show goFloats.parse (45 :: [d1, d2, d3]) = _ from p2.2]

/-- Nothing else is accepted: `Value` panics unless the constant, underscores aside, is a number or one of those above. -/
theorem C121_accepted {c a q cls f name lit typ} (_hc : CleanReachable WFFile c) (_ho : Node.option a q cls f ∈ c.pool)
    (hk : c.reg.kind q = some (.option name lit)) (hf : FieldAt c.reg f typ false) (ht : typ ∈ floatTypes)
    (hl : ¬ FloatConstant (lit.source.filter (· ≠ 95))) :
    Option.value goFloats q f c.reg = (.panic .badLiteral, c.reg) := by
  rw [value_float hk hf ht]
  cases h : goFloats.parse lit.source with
  | none => rfl
  | some b => exact absurd (parseFloat_inv h) hl

/-- What a floating-point constant can begin with, behind the sign: a digit, a point, an underscore, and the first
    letters of `inf` and `nan`. -/
def FloatStart (c : UInt8) : Prop := (digitVal c).isSome = true ∨ c ∈ b!"._iInN"

/-- Everything that begins otherwise (identifiers, strings, the empty text) makes `Value` panic. -/
theorem C121_rejects {c a q cls f name lit typ} (_hc : CleanReachable WFFile c) (_ho : Node.option a q cls f ∈ c.pool)
    (hk : c.reg.kind q = some (.option name lit)) (hf : FieldAt c.reg f typ false) (ht : typ ∈ floatTypes)
    (hl : lit.source = [] ∨ ∃ x xs, lit.source = x :: xs ∧ x ≠ 43 ∧ x ≠ 45 ∧ ¬ FloatStart x) :
    Option.value goFloats q f c.reg = (.panic .badLiteral, c.reg) := by
  rw [value_float hk hf ht]
  have : goFloats.parse lit.source = none := by
    rcases hl with h | ⟨x, xs, h, h1, h2, h3⟩
    · rw [h]; decide +kernel
    · rw [h]
      show parseFloat (x :: xs) = none
      have hd : digitVal x = none := by
        cases hx : digitVal x with
        | none => rfl
        | some d => exact absurd (.inl (by rw [hx]; rfl)) h3
      have hn : ∀ y ∈ b!"._iInN", x ≠ y := fun y hy e => h3 (.inr (e ▸ hy))
      have lowers : ∀ x : UInt8, (∀ y ∈ b!"._iInN", x ≠ y) → lowerBit x ≠ 105 ∧ lowerBit x ≠ 110 := by
        have : ∀ n : Fin 256, (∀ y ∈ b!"._iInN", UInt8.ofNat n.val ≠ y) →
            lowerBit (UInt8.ofNat n.val) ≠ 105 ∧ lowerBit (UInt8.ofNat n.val) ≠ 110 := by decide +kernel
        intro x
        have := this ⟨x.toNat, x.toNat_lt⟩
        simpa using this
      obtain ⟨l1, l2⟩ := lowers x hn
      have e1 : ((x :: xs).map lowerBit == b!"nan") = false := by
        rw [beq_eq_false_iff_ne]; intro e; exact l2 (List.cons.inj e).1
      have e2 : isInfinity (x :: xs) = false := by
        unfold isInfinity
        have a1 : ((x :: xs).map lowerBit == b!"inf") = false := by
          rw [beq_eq_false_iff_ne]; intro e; exact l1 (List.cons.inj e).1
        have a2 : ((x :: xs).map lowerBit == b!"infinity") = false := by
          rw [beq_eq_false_iff_ne]; intro e; exact l1 (List.cons.inj e).1
        simp only [a1, a2, Bool.or_self]
      have e3 : readFloat (x :: xs) = none := by
        have h48 : x ≠ 48 := by rintro rfl; exact absurd hd (by decide)
        have hp : floatPrefix (x :: xs) = (false, x :: xs) := by
          unfold floatPrefix
          split
          · next h => exact absurd (List.cons.inj h).1 h48
          · rfl
        have hm : readMantissa false {} (x :: xs) = ({}, x :: xs) := by
          rw [readMantissa, if_neg (hn 95 (by decide)), if_neg (hn 46 (by decide))]
          unfold floatDigit
          rw [hd]
          rfl
        unfold readFloat
        rw [hp]
        simp only [hm, finishFloat, Bool.not_false, if_true]
      unfold parseFloat
      split
      · next e => exact absurd (List.cons.inj e).1 h1
      · next e => exact absurd (List.cons.inj e).1 h2
      · rw [e1]
        simp only [Bool.false_eq_true, if_false]
        unfold parseUnsigned
        rw [e2, e3]
        simp only [Bool.false_eq_true, if_false]
  rw [this]

/-! ### C122 -/

theorem formatFloat_finite {b : UInt64} (h : Double.Finite b) :
    formatFloat b = if Double.negative b then 45 :: formatMagnitude (b.toNat % 2 ^ 63) else formatMagnitude (b.toNat % 2 ^ 63) := by
  have hm := (withSign_of_finite h).1
  have hlt : b.toNat < 2 ^ 64 := b.toNat_lt
  have hneg : decide (2 ^ 63 ≤ b.toNat) = Double.negative b := by
    unfold Double.negative
    by_cases hx : 2 ^ 63 ≤ b.toNat
    · rw [decide_eq_true hx, decide_eq_true (by omega)]
    · rw [decide_eq_false hx, decide_eq_false (by omega)]
  unfold formatFloat
  simp only
  rw [hneg, if_neg (by omega), if_neg (by omega)]

/-- The number of digits of a positive number. -/
theorem exact_digits {d : Nat} (h : 0 < d) : ∃ k, 10 ^ (k - 1) ≤ d ∧ d < 10 ^ k := by
  obtain ⟨_, h1, h2⟩ := numDigits_spec d h
  exact ⟨_, h1, h2⟩

/-- What `FormatFloat` writes for the magnitude of a double. -/
theorem formatMagnitude_text (m : Nat) : ∃ q : ℚ, PlainDecimal (formatMagnitude m) q ∧ DecimalNumber (formatMagnitude m) q ∧
    NearBits (q * 2 ^ 1074) m ∧
    (∀ k, (∃ (n : Nat) (x : ℤ), n < 10 ^ k ∧ NearBits ((n : ℚ) * 10 ^ x * 2 ^ 1074) m) → HasDigits q k) ∧
    ∀ q' : ℚ, NearBits (|q'| * 2 ^ 1074) m → (∀ k, HasDigits q k → HasDigits q' k) →
      |q * 2 ^ 1074 - magnitude m| ≤ |(|q'|) * 2 ^ 1074 - magnitude m| ∧
      (|q * 2 ^ 1074 - magnitude m| = |(|q'|) * 2 ^ 1074 - magnitude m| → |q'| ≠ q →
        ∃ (n : Nat) (x : ℤ), n % 2 = 0 ∧ q = n * 10 ^ x ∧ (|q'| = (n + 1) * 10 ^ x ∨ |q'| = (n - 1) * 10 ^ x)) := by
  by_cases h0 : m = 0
  · subst h0
    have e : formatMagnitude 0 = b!"0" := by unfold formatMagnitude; rw [if_pos rfl]
    rw [e]
    refine ⟨(0 : Nat), .whole (.digit (d := 0) (by decide)), ?_, ?_, fun k _ => ⟨0, 0, Nat.pow_pos (by decide), by simp⟩, ?_⟩
    · have := DecimalNumber.mk (Pointed.whole (Numeral.digit (d := 0) (by decide))) .none (.inl (by norm_num))
      simpa using this
    · have := NearBits.self 0
      rw [magnitude_zero] at this
      simpa using this
    · intro q' _ hd
      rw [magnitude_zero, Nat.cast_zero, zero_mul, sub_zero, abs_zero]
      refine ⟨abs_nonneg _, fun _ hne => ?_⟩
      exfalso
      obtain ⟨n, x, hn, hx⟩ := hd 0 ⟨0, 0, by decide, by simp⟩
      have : n = 0 := by simpa using hn
      rw [this, Nat.cast_zero, zero_mul] at hx
      exact hne hx
  · obtain ⟨d, t, h1, h2, h3, h4, h5⟩ := formatMagnitude_spec (b := m) (by omega)
    obtain ⟨q, g1, g2, g3, g4⟩ := plainDecimal_spec (t := t) h3
    rw [h1]
    refine ⟨q, g1, g2, by rw [g3]; exact h2, ?_, ?_⟩
    · rintro k ⟨n, x, hn, hx⟩
      refine ⟨d, (t : ℤ) - 1074, h4 n x k hn hx, ?_⟩
      rw [abs_of_nonneg g2.nonneg, g4]
    · intro q' hq hd
      obtain ⟨k, k1, k2⟩ := exact_digits (d := d) (by omega)
      obtain ⟨n, x, hn, hx⟩ := hd k ⟨d, (t : ℤ) - 1074, k2, by rw [abs_of_nonneg g2.nonneg, g4]⟩
      rw [hx] at hq ⊢
      have hy : (0 : ℚ) < 2 ^ 1074 := by positivity
      obtain ⟨a1, a2⟩ := h5 n x k hn k1 hq
      rw [g3]
      refine ⟨a1, fun e hne => ?_⟩
      obtain ⟨D, T, b1, b2, b3⟩ := a2 e (by rw [← g3]; intro h; exact hne (mul_right_cancel₀ hy.ne' h))
      have back : ∀ D T, tens D T = ((D : ℚ) * 10 ^ ((T : ℤ) - 1074)) * 2 ^ 1074 := by
        intro D T
        rw [ints_tens D _ T (by omega)]
        have : ((T : ℤ) - 1074 + 1074 - T).toNat = 0 := by omega
        rw [this, Nat.pow_zero, Nat.mul_one]
      refine ⟨D, (T : ℤ) - 1074, b2, ?_, ?_⟩
      · rw [← g3, back] at b1
        exact mul_right_cancel₀ hy.ne' b1
      · rcases b3 with b3 | ⟨D', rfl, b3⟩
        · rw [back] at b3
          have := mul_right_cancel₀ hy.ne' b3
          rw [this]
          push_cast
          exact .inl rfl
        · rw [back] at b3
          have := mul_right_cancel₀ hy.ne' b3
          rw [this]
          push_cast
          exact .inr (by ring)

/-- C122: the text of a finite value is a minus sign if it is negative, and then the positional notation of a number that
    rounds to the value; no number that rounds to the value has fewer digits; of those with as few digits it is the
    closest to the value, and if another one is equally close, the one whose last digit is even. -/
theorem C122_text {r op lit b} (hb : Double.Finite b) : ∃ (s : Str) (q : ℚ),
    OptVal.toStr goFloats r (.float op lit b) = (if Double.negative b then 45 :: s else s) ∧ PlainDecimal s q ∧
    Double.Nearest (if Double.negative b then -q else q) b ∧ ¬ Double.OutOfRange q ∧
    ∀ q', Double.Nearest q' b → SignIs (Double.negative b) q' → ¬ Double.OutOfRange q' →
      (∀ k, HasDigits q' k → HasDigits q k) ∧
      ((∀ k, HasDigits q k → HasDigits q' k) →
        |q - (|Double.value b|)| ≤ |(|q'|) - (|Double.value b|)| ∧
        (|q - (|Double.value b|)| = |(|q'|) - (|Double.value b|)| → |q'| ≠ q →
          ∃ (n : Nat) (x : ℤ), n % 2 = 0 ∧ q = n * 10 ^ x ∧ (|q'| = (n + 1) * 10 ^ x ∨ |q'| = (n - 1) * 10 ^ x))) := by
  obtain ⟨hm, he⟩ := withSign_of_finite hb
  obtain ⟨q, g1, g2, g3, g4, g5⟩ := formatMagnitude_text (b.toNat % 2 ^ 63)
  have hq := g2.nonneg
  refine ⟨formatMagnitude (b.toNat % 2 ^ 63), q, ?_, g1, ?_, ?_, ?_⟩
  · unfold OptVal.toStr
    exact formatFloat_finite hb
  · have := nearest_of_nearBits (q := if Double.negative b then -q else q) (neg := Double.negative b)
      (m := b.toNat % 2 ^ 63) (by cases Double.negative b <;> simpa [abs_of_nonneg hq] using g3) hm
      (by cases Double.negative b <;> simpa using hq)
    rwa [he] at this
  · rw [outOfRange_iff, abs_of_nonneg hq, ← g3.overflow]
    omega
  · intro q' h1 h2 h3
    rw [← he] at h1
    have hnear := nearBits_of_nearest hm h1 h2 h3
    refine ⟨?_, ?_⟩
    · intro k h4
      apply g4 k
      obtain ⟨n, x, h5, h6⟩ := h4
      rw [h6] at hnear
      exact ⟨n, x, h5, hnear⟩
    · intro hd
      have hy : (0 : ℚ) < 2 ^ 1074 := by positivity
      have hv : |Double.value b| = (magnitude (b.toNat % 2 ^ 63) : ℚ) / 2 ^ 1074 := by
        have := dist_same (q := 0) (neg := Double.negative b) hm (by cases Double.negative b <;> simp)
        rw [he, sub_zero, abs_zero, zero_mul, sub_zero, Nat.abs_cast] at this
        exact this
      have scale : ∀ z : ℚ, |z - (|Double.value b|)| = |z * 2 ^ 1074 - (magnitude (b.toNat % 2 ^ 63) : ℚ)| / 2 ^ 1074 := by
        intro z
        rw [hv, ← abs_of_pos hy, ← abs_div, abs_of_pos hy, sub_div, mul_div_cancel_right₀ _ hy.ne']
      rw [scale, scale, div_le_div_iff_of_pos_right hy, div_left_inj' hy.ne']
      exact g5 q' hnear hd

/-- The other values. -/
theorem C122_special {r op lit} :
    OptVal.toStr goFloats r (.float op lit Double.posInf) = b!"+Inf" ∧
    OptVal.toStr goFloats r (.float op lit Double.negInf) = b!"-Inf" ∧
    ∀ b, Double.IsNaN b → OptVal.toStr goFloats r (.float op lit b) = b!"NaN" := by
  refine ⟨by unfold OptVal.toStr; decide +kernel, by unfold OptVal.toStr; decide +kernel, ?_⟩
  rintro b ⟨h1, h2⟩
  unfold OptVal.toStr
  show formatFloat b = _
  have hlt : b.toNat < 2 ^ 64 := b.toNat_lt
  unfold Double.exponent at h1
  unfold Double.fraction at h2
  unfold formatFloat
  simp only
  rw [if_pos (by unfold infBits; omega)]

theorem parse_format_finite {b : UInt64} (h : Double.Finite b) : parseFloat (formatFloat b) = some b := by
  obtain ⟨hm, he⟩ := withSign_of_finite h
  obtain ⟨q, g1, g2, g3, -⟩ := formatMagnitude_text (b.toNat % 2 ^ 63)
  rw [formatFloat_finite h]
  obtain ⟨m, h1, h2⟩ := parseUnsigned_decimal g2 (Double.negative b)
  have hmm := h1.unique g3
  rw [hmm, if_pos hm, he] at h2
  by_cases hn : Double.negative b = true
  · rw [if_pos hn]
    rw [hn] at h2
    exact h2
  · rw [if_neg hn, parseFloat_plain g2]
    rw [Bool.not_eq_true] at hn
    rw [hn] at h2
    exact h2

theorem parseUnsigned_values {neg s b} (h : parseUnsigned neg s = some b) :
    Double.Finite b ∨ b = Double.posInf ∨ b = Double.negInf := by
  unfold parseUnsigned at h
  split at h
  · injection h with h
    subst h
    cases neg
    · exact .inr (.inl (by decide +kernel))
    · exact .inr (.inr (by decide +kernel))
  · split at h
    · simp only at h
      split at h
      · next hlt =>
        injection h with h
        subst h
        exact .inl (withSign_parts hlt).1
      · cases h
    · cases h

/-- What `ParseFloat` returns: finite numbers, infinities, and one NaN. -/
theorem parseFloat_values {s b} (h : parseFloat s = some b) :
    Double.Finite b ∨ b = Double.posInf ∨ b = Double.negInf ∨ b = 0x7FF8000000000001 := by
  have key : ∀ {neg s}, parseUnsigned neg s = some b → Double.Finite b ∨ b = Double.posInf ∨ b = Double.negInf ∨ b = 0x7FF8000000000001 := by
    intro neg s h
    rcases parseUnsigned_values h with h | h | h
    · exact .inl h
    · exact .inr (.inl h)
    · exact .inr (.inr (.inl h))
  unfold parseFloat at h
  split at h
  · exact key h
  · exact key h
  · split at h
    · injection h with h
      exact .inr (.inr (.inr h.symm))
    · exact key h

theorem parse_format {s b} (h : parseFloat s = some b) : parseFloat (formatFloat b) = some b := by
  rcases parseFloat_values h with h | rfl | rfl | rfl
  · exact parse_format_finite h
  · decide +kernel
  · decide +kernel
  · decide +kernel

/-- C122, round trip: an option set to the text of the value of another one has the same value, whatever the literal of
    the other one, down to the sign of zero. -/
theorem C122_again {c a q cls f name lit typ a' q' cls' f' name' lit' typ' b r'} (_hc : CleanReachable WFFile c)
    (_ho : Node.option a q cls f ∈ c.pool) (hk : c.reg.kind q = some (.option name lit)) (hf : FieldAt c.reg f typ false)
    (ht : typ ∈ floatTypes) (_ho' : Node.option a' q' cls' f' ∈ c.pool) (hk' : c.reg.kind q' = some (.option name' lit'))
    (hf' : FieldAt c.reg f' typ' false) (ht' : typ' ∈ floatTypes)
    (hv : Option.value goFloats q f c.reg = (.ok (.float (some q) lit b), r'))
    (hl : lit'.source = OptVal.toStr goFloats r' (.float (some q) lit b)) :
    Option.value goFloats q' f' c.reg = (.ok (.float (some q') lit' b), c.reg) := by
  rw [value_float hk hf ht] at hv
  have hp : parseFloat lit.source = some b := by
    have e : goFloats.parse lit.source = parseFloat lit.source := rfl
    rw [e] at hv
    split at hv
    · next v hv' =>
      rw [hv']
      injection hv with h1 _
      injection h1 with h1
      injection h1 with _ _ h1
      rw [h1]
    · injection hv with h1 _
      cases h1
  have ht : goFloats.parse lit'.source = some b := by
    rw [hl]
    unfold OptVal.toStr
    exact parse_format hp
  rw [value_float hk' hf' ht', ht]

/-! ### The counterexample, and non-vacuity -/

/-- A file with options of type `double` and `float`. -/
def WFl : World := Ex.worldOf [(descriptorPath, Ex.descriptor), (b!"d.proto",
  let f := b!"d.proto"
  [Ex.el f 1 (.packageK b!"d"), Ex.el f 2 (.importK descriptorPath),
   Ex.el f 3 (.message b!"google.protobuf.FieldOptions" true)
     [Ex.fld f 4 b!"ratio" b!"double" 50001, Ex.fld f 5 b!"single" b!"float" 50002],
   Ex.el f 6 (.message b!"U" false)
     [Ex.fld f 7 b!"a" b!"string" 1 false [Ex.el f 7 (.option b!"(ratio)" (Ex.lit f b!"0.10"))],
      Ex.fld f 8 b!"b" b!"string" 2 false [Ex.el f 8 (.option b!"(ratio)" (Ex.lit f b!"0x10"))],
      Ex.fld f 9 b!"c" b!"string" 3 false [Ex.el f 9 (.option b!"(single)" (Ex.lit f b!"0.1"))],
      Ex.fld f 10 b!"d" b!"string" 4 false [Ex.el f 10 (.option b!"(ratio)" (Ex.lit f b!"1e400"))],
      Ex.fld f 11 b!"e" b!"string" 5 false [Ex.el f 11 (.option b!"(ratio)" (Ex.lit f b!"-.5E-3"))],
      Ex.fld f 12 b!"f" b!"string" 6 false [Ex.el f 12 (.option b!"(ratio)" (Ex.lit f b!"red"))],
      Ex.fld f 13 b!"g" b!"string" 7 false [Ex.el f 13 (.option b!"(ratio)" (Ex.lit f b!"0x1.8P+1"))]]])]
def opsFl : List Op :=
  [.proto WFl 5 b!"d.proto", .query 0 (.named .fileMessage b!"U")] ++
  (List.range 7).map (fun i => .query 1 (.iter .messageFields i)) ++
  [2, 3, 4, 5, 6, 7, 8].map (fun h => .query h (.iter .options 0))
def cFl : Client := Client.exec ⟨(newRegistry WFl 5).2, []⟩ opsFl

theorem cFl_clean : CleanReachable WFFile cFl := by
  have hW : WFl.Sat WFFile := by
    apply Ex.worldOf_sat
    intro x hx
    apply Ex.wfb_spec
    simp only [List.mem_cons, List.not_mem_nil, or_false] at hx
    rcases hx with rfl | rfl <;> decide +kernel
  refine ⟨WFl, 5, _, opsFl, hW, Ex.ok_of_okOk (by decide +kernel), ?_, Ex.loadsB_spec (by decide +kernel), rfl⟩
  intro op hop
  simp only [opsFl, List.cons_append, List.nil_append, List.mem_cons, List.mem_append, List.mem_map] at hop
  rcases hop with rfl | rfl | ⟨i, _, rfl⟩ | ⟨i, _, rfl⟩
  · exact hW
  · trivial
  · trivial
  · trivial

/-- The option of the field `i` of `U`, and its field. -/
theorem cFl_option (i : Fin 7) : ∃ a, Node.option a ⟨1, [0, i.val, 3]⟩ ⟨0, [4]⟩ ⟨1, [if i = 2 then 1 else 0, 2]⟩ ∈ cFl.pool := by
  have : ∀ i : Fin 7, hasOpt cFl (9 + i.val) ⟨1, [0, i.val, 3]⟩ ⟨0, [4]⟩ ⟨1, [if i = 2 then 1 else 0, 2]⟩ = true := by decide +kernel
  exact hasOpt_spec (this i)

theorem cFl_ratio : FieldAt cFl.reg ⟨1, [0, 2]⟩ b!"double" false := fieldB_spec (by decide +kernel)
theorem cFl_single : FieldAt cFl.reg ⟨1, [1, 2]⟩ b!"float" false := fieldB_spec (by decide +kernel)

theorem cFl_lit (i : Fin 7) : ∃ n l, cFl.reg.kind ⟨1, [0, i.val, 3]⟩ = some (.option n l) ∧
    l.source = [b!"0.10", b!"0x10", b!"0.1", b!"1e400", b!"-.5E-3", b!"red", b!"0x1.8P+1"][i.val] := by
  have : ∀ i : Fin 7, optB cFl.reg ⟨1, [0, i.val, 3]⟩
      (fun l => l.source == [b!"0.10", b!"0x10", b!"0.1", b!"1e400", b!"-.5E-3", b!"red", b!"0x1.8P+1"][i.val]) = true := by decide +kernel
  obtain ⟨n, l, h1, h2⟩ := optB_spec (this i)
  exact ⟨n, l, h1, beq_iff_eq.mp h2⟩

/-- C121 is false: the option `(ratio) = 0x10` makes `Value` panic. -/
theorem C121_false : ¬ C121_statement := by
  intro h
  obtain ⟨a, ha⟩ := cFl_option 1
  obtain ⟨n, l, hk, hl⟩ := cFl_lit 1
  have hl : l.source = b!"0x10" := hl
  have h16 : SignedNumber ProtoNumber l.source false (16 : Nat) := by
    rw [hl]
    refine .plain (.int (.hex (s := b!"10") ?_))
    exact HexDigits.snoc (n := 1) (d := 0) (.digit (.dec (d := 1) (by decide))) (.dec (d := 0) (by decide))
  obtain ⟨b, r', e, _⟩ := (h cFl cFl_clean a _ _ ⟨1, [0, 2]⟩ ha n l _ _ hk cFl_ratio h16).2 (by
    unfold Double.OutOfRange
    rw [not_le, Nat.abs_cast]
    have : (2 : ℚ) ^ 1024 = 2 ^ 54 * 2 ^ 970 := by rw [← pow_add]
    have h1 : (1 : ℚ) ≤ 2 ^ 970 := one_le_pow₀ (by norm_num)
    rw [this]
    clear this
    generalize (2 : ℚ) ^ 970 = y at *
    norm_num
    linarith)
  rw [value_float hk cFl_ratio (by decide), hl, show goFloats.parse b!"0x10" = none by decide +kernel] at e
  cases e

/-- The option `(single) = 0.1` of type `float` has as its value the double nearest to 0.1, which is not a number of
    single precision: its significand has more than 24 bits. -/
theorem C121_single : ∃ a q cls f name lit b, Node.option a q cls f ∈ cFl.pool ∧ cFl.reg.kind q = some (.option name lit) ∧
    FieldAt cFl.reg f b!"float" false ∧ lit.source = b!"0.1" ∧
    Option.value goFloats q f cFl.reg = (.ok (.float (some q) lit b), cFl.reg) ∧ Double.Finite b ∧
    Double.exponent b = 1019 ∧ Double.fraction b % 2 ^ 29 ≠ 0 := by
  obtain ⟨a, ha⟩ := cFl_option 2
  obtain ⟨n, l, hk, hl⟩ := cFl_lit 2
  refine ⟨a, _, _, _, n, l, 0x3FB999999999999A, ha, hk, cFl_single, hl, ?_, by unfold Double.Finite; decide +kernel,
    by decide +kernel, by decide +kernel⟩
  have e : Option.value goFloats ⟨1, [0, 2, 3]⟩ ⟨1, [1, 2]⟩ cFl.reg = (.ok (.float (some ⟨1, [0, 2, 3]⟩) l 0x3FB999999999999A), cFl.reg) := by
    have hl : l.source = b!"0.1" := hl
    have hk : cFl.reg.kind ⟨1, [0, 2, 3]⟩ = some (.option n l) := hk
    rw [value_float hk cFl_single (by decide), hl, show goFloats.parse b!"0.1" = some 0x3FB999999999999A by decide +kernel]
  exact e

/-- The literal `-.5E-3`. -/
theorem lit_e : DecimalFloat b!"-.5E-3" true (-((5 : Nat) * (10 : ℚ) ^ (-(3 : Nat) - (1 : Nat) : ℤ))) :=
  .minus (.mk (.behind (.digit (d := 5) (by decide))) (.some (c := 69) (.inr rfl) (.minus (.digit (d := 3) (by decide)))) (.inl (by norm_num)))

/-- The literal `1e400`. -/
theorem lit_d : DecimalFloat b!"1e400" false ((1 : Nat) * (10 : ℚ) ^ (((400 : Nat) : ℤ) - (0 : Nat))) :=
  .plain (.mk (.whole (.digit (d := 1) (by decide))) (.some (c := 101) (.inl rfl) (.plain
    (.snoc (d := 0) (n := 40) (.snoc (d := 0) (n := 4) (.digit (d := 4) (by decide)) (by decide)) (by decide)))) (.inl (by norm_num)))

/-- The value, for the examples. -/
def bitsOf : Res OptVal → UInt64
  | .ok (.float _ _ b) => b
  | _ => 0

/-- Non-vacuity of C121_partial and C122: the option `(ratio) = -.5E-3`; `1e400` is out of range, `red` is no number. -/
example : ∃ a l b, Node.option a ⟨1, [0, 4, 3]⟩ ⟨0, [4]⟩ ⟨1, [0, 2]⟩ ∈ cFl.pool ∧
    Option.value goFloats ⟨1, [0, 4, 3]⟩ ⟨1, [0, 2]⟩ cFl.reg = (.ok (.float (some ⟨1, [0, 4, 3]⟩) l b), cFl.reg) ∧
    Double.Nearest (-((5 : Nat) * (10 : ℚ) ^ (-(3 : Nat) - (1 : Nat) : ℤ))) b ∧ Double.negative b = true ∧
    OptVal.toStr goFloats cFl.reg (.float (some ⟨1, [0, 4, 3]⟩) l b) = b!"-0.0005" := by
  obtain ⟨a, ha⟩ := cFl_option 4
  obtain ⟨n, l, hk, hl⟩ := cFl_lit 4
  have hl : l.source = b!"-.5E-3" := hl
  obtain ⟨b, h1, h2, h3⟩ := (C121_partial cFl_clean ha hk cFl_ratio (by decide) (by rw [hl]; exact lit_e)).2 (by
    unfold Double.OutOfRange
    rw [not_le]
    have : (2 : ℚ) ^ 1024 = 2 ^ 54 * 2 ^ 970 := by rw [← pow_add]
    have h1 : (1 : ℚ) ≤ 2 ^ 970 := one_le_pow₀ (by norm_num)
    rw [this]
    clear this
    generalize (2 : ℚ) ^ 970 = y at *
    have : |(-((5 : Nat) * (10 : ℚ) ^ (-(3 : Nat) - (1 : Nat) : ℤ)))| ≤ 1 := by norm_num
    have h2 : (2 : ℚ) ^ 54 * y - y = 18014398509481983 * y := by norm_num; ring
    linarith)
  refine ⟨a, l, b, ha, h1, h2, h3, ?_⟩
  have e : b = 0xBF40624DD2F1A9FC := by
    have h1 : Option.value goFloats ⟨1, [0, 4, 3]⟩ ⟨1, [0, 2]⟩ cFl.reg = (.ok (.float (some ⟨1, [0, 4, 3]⟩) l b), cFl.reg) := h1
    have hk : cFl.reg.kind ⟨1, [0, 4, 3]⟩ = some (.option n l) := hk
    rw [value_float hk cFl_ratio (by decide), hl, show goFloats.parse b!"-.5E-3" = some 0xBF40624DD2F1A9FC by decide +kernel] at h1
    exact (congrArg (fun x => bitsOf x.1) h1).symm
  rw [e]
  unfold OptVal.toStr
  decide +kernel

example : ∃ a, Node.option a ⟨1, [0, 3, 3]⟩ ⟨0, [4]⟩ ⟨1, [0, 2]⟩ ∈ cFl.pool ∧
    Option.value goFloats ⟨1, [0, 3, 3]⟩ ⟨1, [0, 2]⟩ cFl.reg = (.panic .badLiteral, cFl.reg) := by
  obtain ⟨a, ha⟩ := cFl_option 3
  obtain ⟨n, l, hk, hl⟩ := cFl_lit 3
  have hl : l.source = b!"1e400" := hl
  refine ⟨a, ha, (C121_partial cFl_clean ha hk cFl_ratio (by decide) (by rw [hl]; exact lit_d)).1 ?_⟩
  unfold Double.OutOfRange
  have h1 : (2 : ℚ) ^ 1024 ≤ 10 ^ 400 := by
    have e1 : (2 : ℚ) ^ 1024 ≤ (2 ^ 10) ^ 103 := by
      rw [← pow_mul]; exact pow_le_pow_right₀ (by norm_num) (by norm_num)
    have e2 : ((2 : ℚ) ^ 10) ^ 103 ≤ (10 ^ 3 * 2) ^ 103 := pow_le_pow_left₀ (by norm_num) (by norm_num) _
    have e3 : ((10 : ℚ) ^ 3 * 2) ^ 103 = 10 ^ 309 * 2 ^ 103 := by rw [mul_pow, ← pow_mul]
    have e4 : (2 : ℚ) ^ 103 ≤ 10 ^ 91 := by norm_num
    have e5 : (10 : ℚ) ^ 400 = 10 ^ 309 * 10 ^ 91 := by rw [← pow_add]
    rw [e5]
    refine e1.trans (e2.trans ?_)
    rw [e3]
    exact mul_le_mul_of_nonneg_left e4 (by positivity)
  have h2 : (0 : ℚ) < 2 ^ 970 := by positivity
  have e : ((1 : Nat) * (10 : ℚ) ^ (((400 : Nat) : ℤ) - (0 : Nat))) = 10 ^ 400 := by
    rw [Nat.cast_one, one_mul, Nat.cast_zero, sub_zero, zpow_natCast]
  rw [e, abs_of_nonneg (by positivity)]
  exact (sub_le_self _ h2.le).trans h1

example : ∃ a, Node.option a ⟨1, [0, 5, 3]⟩ ⟨0, [4]⟩ ⟨1, [0, 2]⟩ ∈ cFl.pool ∧
    Option.value goFloats ⟨1, [0, 5, 3]⟩ ⟨1, [0, 2]⟩ cFl.reg = (.panic .badLiteral, cFl.reg) := by
  obtain ⟨a, ha⟩ := cFl_option 5
  obtain ⟨n, l, hk, hl⟩ := cFl_lit 5
  have hl : l.source = b!"red" := hl
  refine ⟨a, ha, C121_rejects cFl_clean ha hk cFl_ratio (by decide) (.inr ⟨_, _, hl, by decide, by decide, ?_⟩)⟩
  unfold FloatStart
  decide

/-- Non-vacuity of C121_hex: `(ratio) = 0x1.8P+1`, which is 3. -/
example : ∃ a l b, Node.option a ⟨1, [0, 6, 3]⟩ ⟨0, [4]⟩ ⟨1, [0, 2]⟩ ∈ cFl.pool ∧ l.source = b!"0x1.8P+1" ∧
    Option.value goFloats ⟨1, [0, 6, 3]⟩ ⟨1, [0, 2]⟩ cFl.reg = (.ok (.float (some ⟨1, [0, 6, 3]⟩) l b), cFl.reg) ∧
    Double.Nearest 3 b ∧ Double.negative b = false := by
  obtain ⟨a, ha⟩ := cFl_option 6
  obtain ⟨n, l, hk, hl⟩ := cFl_lit 6
  have hl : l.source = b!"0x1.8P+1" := hl
  have hx : SignedNumber HexNumber l.source false (((16 * 1 + 8 : Nat) : ℚ) * 2 ^ (((1 : Nat) : ℤ) - 4 * (1 : Nat))) := by
    rw [hl]
    refine .plain (.mk (x := 120) (s := b!"1.8") (c := 80) (p := b!"+1") (k := 1) (.inl rfl) ?_ (.inr rfl) (.plus (.digit (d := 1) (by decide))) (by norm_num))
    exact .both (s := b!"1") (t := b!"8") (by decide) (by decide)
      (.snoc (s := b!"1") (.digit (.dec (d := 1) (by decide))) (.dec (d := 8) (by decide)))
  have e3 : (((16 * 1 + 8 : Nat) : ℚ) * 2 ^ (((1 : Nat) : ℤ) - 4 * (1 : Nat))) = 3 := by norm_num
  rw [e3] at hx
  obtain ⟨b, h1, h2, h3⟩ := (C121_hex cFl_clean ha hk cFl_ratio (by decide) hx).2 (by
    unfold Double.OutOfRange
    rw [not_le]
    have : (2 : ℚ) ^ 1024 = 2 ^ 54 * 2 ^ 970 := by rw [← pow_add]
    have h1 : (1 : ℚ) ≤ 2 ^ 970 := one_le_pow₀ (by norm_num)
    rw [this]
    clear this
    generalize (2 : ℚ) ^ 970 = y at *
    norm_num
    linarith)
  exact ⟨a, l, b, ha, hl, h1, h2, h3⟩

/-- Non-vacuity of C121_accepted: `(ratio) = 0x10` has no exponent. -/
example : ∃ a, Node.option a ⟨1, [0, 1, 3]⟩ ⟨0, [4]⟩ ⟨1, [0, 2]⟩ ∈ cFl.pool ∧
    Option.value goFloats ⟨1, [0, 1, 3]⟩ ⟨1, [0, 2]⟩ cFl.reg = (.panic .badLiteral, cFl.reg) := by
  obtain ⟨a, ha⟩ := cFl_option 1
  obtain ⟨n, l, hk, hl⟩ := cFl_lit 1
  have hl : l.source = b!"0x10" := hl
  refine ⟨a, ha, C121_accepted cFl_clean ha hk cFl_ratio (by decide) ?_⟩
  rw [hl, show b!"0x10".filter (· ≠ 95) = b!"0x10" by decide]
  have any : ∀ {t : Str}, t.length ≤ 8 → (∀ c ∈ t, 97 ≤ c.toNat ∧ c.toNat ≤ 122) → t.head? ≠ some 48 → t.head? ≠ none → ¬ AnyCase t b!"0x10" := by
    intro t _ h1 h2 h3 h
    rw [← anyCase_iff h1] at h
    rw [← h] at h1
    exact absurd (h1 (lowerBit 48) (by decide)) (by decide)
  have text : ∀ s, FloatText s → s ≠ b!"0x10" := by
    intro s h e
    cases h with
    | decimal h1 h2 =>
      have : (120 : UInt8) ∈ b!"0x10" := by decide
      rw [← e] at this
      rcases List.mem_append.mp this with h | h
      · rcases h1.chars _ h with ⟨d, hd, h⟩ | h
        · exact digit_ne hd (by decide) h.symm
        · exact absurd h (by decide)
      · rcases h2.chars _ h with ⟨d, hd, h⟩ | h
        · exact digit_ne hd (by decide) h.symm
        · revert h; decide
    | @hex x s n k c p e' h1 h2 h3 h4 =>
      have : c ∈ b!"0x10" := by rw [← e]; simp
      rcases h3 with rfl | rfl <;> exact absurd this (by decide)
    | inf h => rw [e] at h; exact any (by decide) (by decide) (by decide) (by decide) h
    | infinity h => rw [e] at h; exact any (by decide) (by decide) (by decide) (by decide) h
  intro h
  generalize hs : b!"0x10" = s at h
  cases h with
  | plain h => exact text _ h hs.symm
  | plus h => exact absurd (List.cons.inj hs).1 (by decide)
  | minus h => exact absurd (List.cons.inj hs).1 (by decide)
  | nan h => rw [← hs] at h; exact any (by decide) (by decide) (by decide) (by decide) h

/-- Non-vacuity of C122_again: the text of `(ratio) = 0.10` is `0.1`, which is the literal of another option. -/
example : ∃ a a' l l', Node.option a ⟨1, [0, 0, 3]⟩ ⟨0, [4]⟩ ⟨1, [0, 2]⟩ ∈ cFl.pool ∧
    Node.option a' ⟨1, [0, 2, 3]⟩ ⟨0, [4]⟩ ⟨1, [1, 2]⟩ ∈ cFl.pool ∧ l.source = b!"0.10" ∧ l'.source = b!"0.1" ∧
    Option.value goFloats ⟨1, [0, 0, 3]⟩ ⟨1, [0, 2]⟩ cFl.reg = (.ok (.float (some ⟨1, [0, 0, 3]⟩) l 0x3FB999999999999A), cFl.reg) ∧
    OptVal.toStr goFloats cFl.reg (.float (some ⟨1, [0, 0, 3]⟩) l 0x3FB999999999999A) = l'.source ∧
    Option.value goFloats ⟨1, [0, 2, 3]⟩ ⟨1, [1, 2]⟩ cFl.reg = (.ok (.float (some ⟨1, [0, 2, 3]⟩) l' 0x3FB999999999999A), cFl.reg) := by
  obtain ⟨a, ha⟩ := cFl_option 0
  obtain ⟨a', ha'⟩ := cFl_option 2
  obtain ⟨n, l, hk, hl⟩ := cFl_lit 0
  obtain ⟨n', l', hk', hl'⟩ := cFl_lit 2
  have hl : l.source = b!"0.10" := hl
  have hl' : l'.source = b!"0.1" := hl'
  have hv : Option.value goFloats ⟨1, [0, 0, 3]⟩ ⟨1, [0, 2]⟩ cFl.reg = (.ok (.float (some ⟨1, [0, 0, 3]⟩) l 0x3FB999999999999A), cFl.reg) := by
    have hk : cFl.reg.kind ⟨1, [0, 0, 3]⟩ = some (.option n l) := hk
    rw [value_float hk cFl_ratio (by decide), hl, show goFloats.parse b!"0.10" = some 0x3FB999999999999A by decide +kernel]
  have ht : OptVal.toStr goFloats cFl.reg (.float (some ⟨1, [0, 0, 3]⟩) l 0x3FB999999999999A) = l'.source := by
    rw [hl']; unfold OptVal.toStr; decide +kernel
  exact ⟨a, a', l, l', ha, ha', hl, hl', hv, ht,
    C122_again cFl_clean ha hk cFl_ratio (by decide) ha' hk' cFl_single (by decide) hv ht.symm⟩

/-- Ties: 2^50 + 0.25 and 2^50 + 0.75 are half way between the shortest candidates. -/
example : formatFloat 0x4310000000000001 = b!"1125899906842624.2" ∧ formatFloat 0x4310000000000003 = b!"1125899906842624.8" := by
  decide +kernel

/-- The smallest double, 5e-324, is written out. -/
example : formatFloat 1 = b!"0." ++ List.replicate 323 48 ++ b!"5" := by decide +kernel

end Protoast.Props
