import Verif.Proof.Float1
import Verif.Spec.Float
import Mathlib.Tactic.Convert
import Mathlib.Data.List.Induction
/-
  Reading decimal numbers.
-/
namespace Protoast

/-! ### Text -/

theorem digitVal_ofNat {d : Nat} (h : d < 10) : digitVal (UInt8.ofNat (48 + d)) = some d := by
  have : (UInt8.ofNat (48 + d)).toNat = 48 + d := by
    rw [UInt8.toNat_ofNat']; omega
  unfold digitVal
  rw [this, if_pos (by omega)]
  congr 1; omega

theorem floatDigit_ofNat {d : Nat} (h : d < 10) : floatDigit false (UInt8.ofNat (48 + d)) = some d := by
  unfold floatDigit
  rw [digitVal_ofNat h]

theorem digit_ne {d : Nat} (h : d < 10) {c : UInt8} (hc : c.toNat < 48 ∨ 57 < c.toNat) : UInt8.ofNat (48 + d) ≠ c := by
  intro e
  have := congrArg UInt8.toNat e
  rw [UInt8.toNat_ofNat'] at this
  omega

theorem readMantissa_digit {m : Mantissa} {d : Nat} (h : d < 10) (rest : Str) :
    readMantissa false m (UInt8.ofNat (48 + d) :: rest) =
      readMantissa false { m with value := m.value * 10 + d, behind := if m.dot then m.behind + 1 else m.behind, digits := true } rest := by
  rw [readMantissa, if_neg (digit_ne h (c := 95) (by decide)), if_neg (digit_ne h (c := 46) (by decide)), floatDigit_ofNat h]
  rfl

theorem readMantissa_numeral {s : Str} {n : Nat} (h : Numeral s n) (m : Mantissa) (rest : Str) :
    readMantissa false m (s ++ rest) =
      readMantissa false { m with value := m.value * 10 ^ s.length + n
                                  behind := if m.dot then m.behind + s.length else m.behind
                                  digits := true } rest := by
  induction h generalizing rest with
  | digit hd =>
    rw [List.singleton_append, readMantissa_digit hd]
    simp
  | @snoc s n d _ hd ih =>
    rw [List.append_assoc, ih, List.singleton_append, readMantissa_digit hd]
    simp only [List.length_append, List.length_singleton]
    congr 2
    · rw [Nat.pow_succ]; ring
    · split <;> omega

theorem readExponent_digit {e : Nat} {us : Bool} {d : Nat} (h : d < 10) (rest : Str) :
    readExponent e us (UInt8.ofNat (48 + d) :: rest) = readExponent (if e < 10000 then e * 10 + d else e) us rest := by
  rw [readExponent, if_neg (digit_ne h (c := 95) (by decide)), digitVal_ofNat h]

/-- The exponent stops growing at five digits. -/
theorem readExponent_numeral {s : Str} {n : Nat} (h : Numeral s n) (us : Bool) (rest : Str) :
    ∃ e : Nat, (n < 100000 → e = n) ∧ (100000 ≤ n → 10000 ≤ e) ∧ readExponent 0 us (s ++ rest) = readExponent e us rest := by
  induction h generalizing rest with
  | digit hd =>
    rw [List.singleton_append, readExponent_digit hd]
    exact ⟨_, fun _ => rfl, fun _ => by omega, by simp⟩
  | @snoc s n d _ hd ih =>
    obtain ⟨e, h1, h2, h3⟩ := ih (UInt8.ofNat (48 + d) :: rest)
    rw [List.append_assoc, List.singleton_append, h3, readExponent_digit hd]
    refine ⟨_, ?_, ?_, rfl⟩ <;> intro hn <;> split <;> omega

theorem Numeral.snoc_inv {u : Str} {c : UInt8} {n : Nat} (h : Numeral (u ++ [c]) n) :
    (u = [] ∧ ∃ d, d < 10 ∧ c = UInt8.ofNat (48 + d) ∧ n = d) ∨
    ∃ m d, Numeral u m ∧ d < 10 ∧ c = UInt8.ofNat (48 + d) ∧ n = 10 * m + d := by
  generalize hs : u ++ [c] = s at h
  cases h with
  | @digit d hd =>
    cases u with
    | nil => exact .inl ⟨rfl, _, hd, List.singleton_inj.mp hs, rfl⟩
    | cons x xs => simp at hs
  | @snoc s' m d hm hd =>
    obtain ⟨rfl, h2⟩ := List.append_inj' hs rfl
    exact .inr ⟨m, d, hm, hd, List.singleton_inj.mp h2, rfl⟩

theorem Numeral.split {s : Str} (hs : s ≠ []) : ∀ (t : Str) {n : Nat}, t ≠ [] → Numeral (s ++ t) n →
    ∃ a b, Numeral s a ∧ Numeral t b ∧ n = a * 10 ^ t.length + b := by
  intro t
  induction t using List.reverseRecOn with
  | nil => intro n h; exact absurd rfl h
  | append_singleton t c ih =>
    intro n _ h
    rw [← List.append_assoc] at h
    rcases h.snoc_inv with ⟨h1, _⟩ | ⟨m, d, h1, h2, rfl, rfl⟩
    · simp [hs] at h1
    · by_cases ht : t = []
      · subst ht
        rw [List.append_nil] at h1
        exact ⟨m, d, h1, .digit h2, by simp; omega⟩
      · obtain ⟨a, b, g1, g2, rfl⟩ := ih ht h1
        exact ⟨a, 10 * b + d, g1, .snoc g2 h2, by simp [Nat.pow_succ]; ring⟩

theorem Numeral.append {s : Str} {a : Nat} (hs : Numeral s a) {t : Str} {b : Nat} (ht : Numeral t b) :
    Numeral (s ++ t) (a * 10 ^ t.length + b) := by
  induction ht with
  | @digit d hd => simpa [Nat.mul_comm] using Numeral.snoc hs hd
  | @snoc t b d _ hd ih =>
    rw [← List.append_assoc]
    have := Numeral.snoc ih hd
    convert this using 1
    simp [Nat.pow_succ]; ring

theorem Numeral.ne_nil {s : Str} {n : Nat} (h : Numeral s n) : s ≠ [] := by
  cases h <;> simp

theorem Numeral.mem {s : Str} {n : Nat} (h : Numeral s n) : ∀ c ∈ s, ∃ d, d < 10 ∧ c = UInt8.ofNat (48 + d) := by
  induction h with
  | @digit d hd => intro c hc; exact ⟨d, hd, List.mem_singleton.mp hc⟩
  | @snoc s n d _ hd ih =>
    intro c hc
    rcases List.mem_append.mp hc with h | h
    · exact ih c h
    · exact ⟨d, hd, List.mem_singleton.mp h⟩

theorem Numeral.head {s : Str} {n : Nat} (h : Numeral s n) : ∃ d rest, d < 10 ∧ s = UInt8.ofNat (48 + d) :: rest := by
  cases hs : s with
  | nil => exact absurd hs h.ne_nil
  | cons c rest =>
    obtain ⟨d, h1, h2⟩ := h.mem c (by rw [hs]; simp)
    exact ⟨d, rest, h1, by rw [h2]⟩

/-- Characters of decimal numbers. -/
def NumChar (c : UInt8) : Prop := (∃ d, d < 10 ∧ c = UInt8.ofNat (48 + d)) ∨ c = 46 ∨ c = 101 ∨ c = 69 ∨ c = 43 ∨ c = 45

theorem Pointed.chars {s : Str} {n k : Nat} (h : Pointed s n k) : ∀ c ∈ s, (∃ d, d < 10 ∧ c = UInt8.ofNat (48 + d)) ∨ c = 46 := by
  cases h with
  | whole h => intro c hc; exact .inl (h.mem c hc)
  | dot h =>
    intro c hc
    rcases List.mem_append.mp hc with g | g
    · exact .inl (h.mem c g)
    · simp at g; exact .inr g
  | behind h =>
    intro c hc
    rcases List.mem_cons.mp hc with g | g
    · exact .inr g
    · exact .inl (h.mem c g)
  | both _ _ h =>
    intro c hc
    rcases List.mem_append.mp hc with g | g
    · exact .inl (h.mem c (by simp [g]))
    · rcases List.mem_cons.mp g with g | g
      · exact .inr g
      · exact .inl (h.mem c (by simp [g]))

theorem ExponentPart.chars {s : Str} {e : Int} (h : ExponentPart s e) : ∀ c ∈ s, NumChar c := by
  cases h with
  | none => intro c hc; simp at hc
  | some hc hs =>
    intro x hx
    rcases List.mem_cons.mp hx with rfl | hx
    · rcases hc with rfl | rfl
      · exact .inr (.inr (.inl rfl))
      · exact .inr (.inr (.inr (.inl rfl)))
    · cases hs with
      | plain h => exact .inl (h.mem x hx)
      | plus h =>
        rcases List.mem_cons.mp hx with rfl | hx
        · exact .inr (.inr (.inr (.inr (.inl rfl))))
        · exact .inl (h.mem x hx)
      | minus h =>
        rcases List.mem_cons.mp hx with rfl | hx
        · exact .inr (.inr (.inr (.inr (.inr rfl))))
        · exact .inl (h.mem x hx)

theorem numChar_lower {c : UInt8} (h : NumChar c) : lowerBit c ≠ 120 := by
  rcases h with ⟨d, hd, rfl⟩ | rfl | rfl | rfl | rfl | rfl
  · have : ∀ d : Fin 10, lowerBit (UInt8.ofNat (48 + d.val)) ≠ 120 := by decide
    exact this ⟨d, hd⟩
  all_goals decide

/-- The mantissa of a decimal number. -/
theorem readMantissa_pointed {s : Str} {n k : Nat} (h : Pointed s n k) (rest : Str)
    (hr : rest = [] ∨ ∃ c cs, rest = c :: cs ∧ (c = 101 ∨ c = 69)) :
    ∃ dot, readMantissa false {} (s ++ rest) = (⟨n, k, dot, true, false⟩, rest) := by
  have stop : ∀ m : Mantissa, readMantissa false m rest = (m, rest) := by
    intro m
    rcases hr with rfl | ⟨c, cs, rfl, rfl | rfl⟩
    · rfl
    · rw [readMantissa, if_neg (by decide), if_neg (by decide)]; rfl
    · rw [readMantissa, if_neg (by decide), if_neg (by decide)]; rfl
  have point : ∀ (m : Mantissa) (l : Str), m.dot = false →
      readMantissa false m (46 :: l) = readMantissa false { m with dot := true } l := by
    intro m l hm
    rw [readMantissa, if_neg (by decide), if_pos rfl, hm]; rfl
  cases h with
  | whole h =>
    rw [readMantissa_numeral h, stop]
    exact ⟨false, by simp⟩
  | dot h =>
    rw [List.append_assoc, readMantissa_numeral h, List.singleton_append, point _ _ rfl, stop]
    exact ⟨true, by simp⟩
  | behind h =>
    rw [List.cons_append, point _ _ rfl, readMantissa_numeral h, stop]
    exact ⟨true, by simp⟩
  | @both s t n hs ht h =>
    obtain ⟨a, b, h1, h2, rfl⟩ := Numeral.split hs t ht h
    rw [List.append_assoc, readMantissa_numeral h1, List.cons_append, point _ _ rfl, readMantissa_numeral h2, stop]
    exact ⟨true, by simp⟩

theorem floatPrefix_decimal {s : Str} (h : ∀ c ∈ s, NumChar c) : floatPrefix s = (false, s) := by
  unfold floatPrefix
  split
  · next x y rest => rw [if_neg (numChar_lower (h x (by simp)))]
  · rfl

/-- The exponent that is read for `e`. -/
def Saturated (e e' : Int) : Prop := (|e| < 100000 → e' = e) ∧ (100000 ≤ e → 10000 ≤ e') ∧ (e ≤ -100000 → e' ≤ -10000)

/-- The exponent behind a mantissa. -/
theorem finishFloat_exponent {hex : Bool} {body : Str} {n k : Nat} {dot : Bool} {c : UInt8} {q : Str} {e : Int}
    (hl : lowerBit c = (if hex then 112 else 101)) (hq : SignedBy Numeral q e) :
    ∃ e' : Int, finishFloat hex body ⟨n, k, dot, true, false⟩ (c :: q) =
      some ⟨n, e' - (if hex then 4 * (k : Int) else (k : Int)), if hex then 2 else 10⟩ ∧ Saturated e e' := by
  have key : ∀ {ds : Str} {m : Nat} {neg : Bool}, Numeral ds m → exponentSign q = (neg, ds) →
      ∃ e' : Nat, (m < 100000 → e' = m) ∧ (100000 ≤ m → 10000 ≤ e') ∧
        finishFloat hex body ⟨n, k, dot, true, false⟩ (c :: q) =
          some ⟨n, (if neg then -(e' : Int) else (e' : Int)) - (if hex then 4 * (k : Int) else (k : Int)), if hex then 2 else 10⟩ := by
    intro ds m neg hds hq
    obtain ⟨e', a1, a2, hr⟩ := readExponent_numeral hds false []
    obtain ⟨d, tl, hd, rfl⟩ := hds.head
    rw [List.append_nil] at hr
    have hr' : readExponent 0 false (UInt8.ofNat (48 + d) :: tl) = (e', false, []) := by rw [hr]; rfl
    refine ⟨e', a1, a2, ?_⟩
    unfold finishFloat
    simp only [Bool.not_true, Bool.false_eq_true, if_false, hl, if_true, hq, digitVal_ofNat hd, hr',
      Option.isNone_some, ne_eq, not_true_eq_false, Bool.not_false, Bool.true_or]
  cases hq with
  | @plain _ m hn =>
    obtain ⟨d, tl, hd, rfl⟩ := hn.head
    have hq : exponentSign (UInt8.ofNat (48 + d) :: tl) = (false, UInt8.ofNat (48 + d) :: tl) := by
      unfold exponentSign
      split
      · next h => exact absurd (List.cons.inj h).1 (digit_ne hd (by decide))
      · next h => exact absurd (List.cons.inj h).1 (digit_ne hd (by decide))
      · rfl
    obtain ⟨e', a1, a2, a3⟩ := key hn hq
    exact ⟨e', a3, fun h => by rw [a1 (by rw [Nat.abs_cast] at h; exact_mod_cast h)],
      fun h => by exact_mod_cast a2 (by exact_mod_cast h), fun h => by omega⟩
  | plus hn =>
    obtain ⟨e', a1, a2, a3⟩ := key hn rfl
    exact ⟨e', a3, fun h => by rw [a1 (by rw [Nat.abs_cast] at h; exact_mod_cast h)],
      fun h => by exact_mod_cast a2 (by exact_mod_cast h), fun h => by omega⟩
  | @minus _ m hn =>
    obtain ⟨e', a1, a2, a3⟩ := key hn rfl
    exact ⟨-(e' : Int), a3, fun h => by rw [a1 (by rw [abs_neg, Nat.abs_cast] at h; exact_mod_cast h)],
      fun h => by omega, fun h => by have := a2 (by omega); omega⟩

/-- `readFloat` on decimal numbers. -/
theorem readFloat_decimal {s p : Str} {n k : Nat} {e : Int} (h1 : Pointed s n k) (h2 : ExponentPart p e)
    : ∃ e' : Int, readFloat (s ++ p) = some ⟨n, e' - k, 10⟩ ∧ Saturated e e' := by
  have hchars : ∀ c ∈ s ++ p, NumChar c := by
    intro c hc
    rcases List.mem_append.mp hc with h | h
    · rcases h1.chars c h with h | h
      · exact .inl h
      · exact .inr (.inl h)
    · exact h2.chars c h
  have hp : p = [] ∨ ∃ c cs, p = c :: cs ∧ (c = 101 ∨ c = 69) := by
    cases h2 with
    | none => exact .inl rfl
    | some h _ => exact .inr ⟨_, _, rfl, h⟩
  obtain ⟨dot, hm⟩ := readMantissa_pointed h1 p hp
  unfold readFloat
  rw [floatPrefix_decimal hchars]
  simp only [hm]
  cases h2 with
  | none => exact ⟨0, by simp [finishFloat], by intro _; rfl, by omega, by omega⟩
  | @some c q e hc hq =>
    have hl : lowerBit c = 101 := by rcases hc with rfl | rfl <;> decide
    obtain ⟨e', g1, g2⟩ := finishFloat_exponent (hex := false) (body := s ++ c :: q) (n := n) (k := k) (dot := dot) hl hq
    exact ⟨e', by simpa using g1, g2⟩

/-! ### Values -/

theorem ratio_value (n : Nat) (x : Int) (base : Nat) (hb : 0 < base) :
    0 < (ReadFloat.ratio ⟨n, x, base⟩).2 ∧
    ((ReadFloat.ratio ⟨n, x, base⟩).1 : ℚ) / (ReadFloat.ratio ⟨n, x, base⟩).2 = (n : ℚ) * (base : ℚ) ^ x * 2 ^ 1074 := by
  have hb' : (base : ℚ) ≠ 0 := by positivity
  unfold ReadFloat.ratio
  split
  · next h =>
    obtain ⟨m, rfl⟩ := Int.eq_ofNat_of_zero_le h
    refine ⟨Nat.one_pos, ?_⟩
    simp only [Int.toNat_natCast]
    push_cast
    rw [div_one, zpow_natCast]
  · next h =>
    obtain ⟨m, rfl⟩ : ∃ m : Nat, x = -(m : Int) := ⟨(-x).toNat, by simp only at h; omega⟩
    simp only [Int.neg_neg, Int.toNat_natCast]
    refine ⟨by positivity, ?_⟩
    push_cast
    rw [zpow_neg, zpow_natCast]
    field_simp

end Protoast
