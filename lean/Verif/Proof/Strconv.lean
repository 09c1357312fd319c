import Verif.Spec.Values
/-
  The strconv functions against the specification of numerals.
-/
namespace Protoast

theorem ofNat_digit {d : Nat} (h : d < 10) : (UInt8.ofNat (48 + d)).toNat = 48 + d := by
  rw [UInt8.toNat_ofNat']
  omega

theorem digitVal_digit {d : Nat} (h : d < 10) : digitVal (UInt8.ofNat (48 + d)) = some d := by
  unfold digitVal
  rw [ofNat_digit h, if_pos (by omega)]
  simp

theorem digitVal_some {c : UInt8} {d : Nat} (h : digitVal c = some d) : d < 10 ∧ c = UInt8.ofNat (48 + d) := by
  unfold digitVal at h
  split at h
  · next hc =>
    simp only [Option.some.injEq] at h
    subst h
    refine ⟨by omega, ?_⟩
    rw [show 48 + (c.toNat - 48) = c.toNat by omega]
    exact (UInt8.ofNat_toNat).symm
  · cases h

theorem digitsVal_snoc : ∀ (s : Str) (acc : Nat) (c : UInt8),
    digitsVal acc (s ++ [c]) = (digitsVal acc s).bind fun n => (digitVal c).map fun d => n * 10 + d := by
  intro s
  induction s with
  | nil =>
    intro acc c
    simp only [List.nil_append, digitsVal, Option.bind_some]
    cases digitVal c <;> rfl
  | cons a s ih =>
    intro acc c
    simp only [List.cons_append, digitsVal]
    cases digitVal a with
    | none => rfl
    | some d => exact ih _ _

theorem numeral_digits {s n} (h : Numeral s n) : s ≠ [] ∧ digitsVal 0 s = some n := by
  induction h with
  | digit hd => exact ⟨by simp, by unfold digitsVal; rw [digitVal_digit hd]; simp only [digitsVal, Nat.zero_mul, Nat.zero_add]⟩
  | snoc _ hd ih =>
    refine ⟨by simp, ?_⟩
    rw [digitsVal_snoc, ih.2, digitVal_digit hd]
    simp only [Option.bind_some, Option.map_some, Option.some.injEq]
    omega

theorem digits_numeral : ∀ (k : Nat) (s : Str), s.length = k → ∀ n, s ≠ [] → digitsVal 0 s = some n → Numeral s n := by
  intro k
  induction k with
  | zero => intro s hl n hne; exact absurd (List.length_eq_zero_iff.mp hl) hne
  | succ k ih =>
    intro s hl n hne h
    obtain ⟨t, c, rfl⟩ : ∃ t c, s = t ++ [c] := ⟨s.dropLast, s.getLast hne, (List.dropLast_concat_getLast hne).symm⟩
    rw [digitsVal_snoc, Option.bind_eq_some_iff] at h
    obtain ⟨m, hm, h⟩ := h
    rw [Option.map_eq_some_iff] at h
    obtain ⟨d, hd, rfl⟩ := h
    obtain ⟨hlt, rfl⟩ := digitVal_some hd
    by_cases ht : t = []
    · subst ht
      simp only [digitsVal, Option.some.injEq] at hm
      subst hm
      simpa using Numeral.digit hlt
    · rw [show m * 10 + d = 10 * m + d by omega]
      exact .snoc (ih t (by simp at hl; exact hl) m ht hm) hlt

theorem numeral_iff {s n} : Numeral s n ↔ s ≠ [] ∧ digitsVal 0 s = some n :=
  ⟨numeral_digits, fun h => digits_numeral _ s rfl n h.1 h.2⟩

theorem numeral_unique {s n m} (h : Numeral s n) (g : Numeral s m) : n = m := by
  have := (numeral_digits h).2
  rw [(numeral_digits g).2] at this
  cases this
  rfl

theorem parseUint_iff {s n} : parseUint s = some n ↔ Numeral s n ∧ n < 2 ^ 64 := by
  rw [numeral_iff]
  unfold parseUint
  split
  · next h => subst h; simp
  · next h =>
    cases hd : digitsVal 0 s with
    | none => simp
    | some v =>
      simp only [Option.some.injEq]
      split
      · next hv =>
        constructor
        · intro e; cases e; exact ⟨⟨h, rfl⟩, hv⟩
        · rintro ⟨⟨_, e⟩, _⟩; rw [e]
      · next hv =>
        constructor
        · intro e; cases e
        · rintro ⟨⟨_, rfl⟩, e⟩; exact absurd e hv

/-- A numeral does not start with a sign. -/
theorem numeral_head {s n} (h : Numeral s n) : ∃ c cs, s = c :: cs ∧ c ≠ 43 ∧ c ≠ 45 := by
  obtain ⟨h1, h2⟩ := numeral_digits h
  cases s with
  | nil => exact absurd rfl h1
  | cons c cs =>
    refine ⟨c, cs, rfl, ?_, ?_⟩ <;> (rintro rfl; simp [digitsVal, digitVal] at h2)

theorem atoi_iff {s : Str} {v : Int} : atoi s = some v ↔ SignedBy Numeral s v ∧ Fits64 v := by
  have plain : ∀ {s : Str}, (∀ ds, s ≠ 43 :: ds) → (∀ ds, s ≠ 45 :: ds) →
      ((match parseUint s with
        | some v => if v < 2 ^ 63 then some (v : Int) else none
        | none => none) = some v ↔ SignedBy Numeral s v ∧ Fits64 v) := by
    intro s h1 h2
    constructor
    · intro h
      cases hp : parseUint s with
      | none => rw [hp] at h; cases h
      | some n =>
        rw [hp] at h
        simp only at h
        split at h
        · next hn =>
          simp only [Option.some.injEq] at h
          subst h
          refine ⟨.plain (parseUint_iff.mp hp).1, ?_⟩
          unfold Fits64
          omega
        · cases h
    · rintro ⟨hs, hf⟩
      cases hs with
      | plain hn =>
        unfold Fits64 at hf
        rw [parseUint_iff.mpr ⟨hn, by omega⟩]
        simp only
        rw [if_pos (by omega)]
      | plus hn => exact absurd rfl (h1 _)
      | minus hn => exact absurd rfl (h2 _)
  unfold atoi
  split
  · constructor
    · intro h; cases h
    · rintro ⟨hs, _⟩
      cases hs with
      | plain hn => exact absurd rfl (numeral_digits hn).1
  · next ds =>
    constructor
    · intro h
      cases hp : parseUint ds with
      | none => rw [hp] at h; cases h
      | some n =>
        rw [hp] at h
        simp only at h
        split at h
        · next hn =>
          simp only [Option.some.injEq] at h
          subst h
          refine ⟨.minus (parseUint_iff.mp hp).1, ?_⟩
          unfold Fits64
          omega
        · cases h
    · rintro ⟨hs, hf⟩
      cases hs with
      | plain hn =>
        obtain ⟨c, cs, h1, h2, h3⟩ := numeral_head hn
        cases h1
        exact absurd rfl h3
      | minus hn =>
        unfold Fits64 at hf
        rw [parseUint_iff.mpr ⟨hn, by omega⟩]
        simp only
        rw [if_pos (by omega)]
  · next ds =>
    constructor
    · intro h
      cases hp : parseUint ds with
      | none => rw [hp] at h; cases h
      | some n =>
        rw [hp] at h
        simp only at h
        split at h
        · next hn =>
          simp only [Option.some.injEq] at h
          subst h
          refine ⟨.plus (parseUint_iff.mp hp).1, ?_⟩
          unfold Fits64
          omega
        · cases h
    · rintro ⟨hs, hf⟩
      cases hs with
      | plain hn =>
        obtain ⟨c, cs, h1, h2, h3⟩ := numeral_head hn
        cases h1
        exact absurd rfl h2
      | plus hn =>
        unfold Fits64 at hf
        rw [parseUint_iff.mpr ⟨hn, by omega⟩]
        simp only
        rw [if_pos (by omega)]
  · next h1 h2 h3 =>
    exact plain (fun ds h => h3 ds h) (fun ds h => h2 ds h)

theorem decimal_numeral {s n} (h : Decimal s n) : Numeral s n := by
  induction h with
  | digit hd => exact .digit hd
  | snoc _ _ hd ih => exact .snoc ih hd

theorem decimal_spec : ∀ (fuel n : Nat), n < fuel → Decimal (decimal fuel n) n := by
  intro fuel
  induction fuel with
  | zero => intro n h; omega
  | succ fuel ih =>
    intro n h
    unfold decimal
    split
    · next hn => exact .digit hn
    · next hn =>
      have := Decimal.snoc (ih (n / 10) (by omega)) (by omega) (Nat.mod_lt n (show 0 < 10 by decide))
      rwa [show 10 * (n / 10) + n % 10 = n by omega] at this

theorem formatUint_decimal (n : Nat) : Decimal (formatUint n) n := decimal_spec _ _ (Nat.lt_succ_self n)

theorem decimal_pos_length {s n} (h : Decimal s n) : s ≠ [] := by cases h <;> simp

theorem decimal_unique {s n} (h : Decimal s n) : ∀ {t}, Decimal t n → s = t := by
  induction h with
  | @digit d hd =>
    intro t g
    generalize hm : d = m at g
    cases g with
    | digit _ => subst hm; rfl
    | snoc _ h1 h2 => omega
  | @snoc s n d hs hn hd ih =>
    intro t g
    generalize hm : 10 * n + d = m at g
    cases g with
    | digit h => omega
    | @snoc t n' d' ht hn' hd' =>
      have e1 : n = n' := by omega
      have e2 : d = d' := by omega
      subst e1 e2
      rw [ih ht]

theorem itoa_decimal (v : Int) : DecimalInt (itoa v) v := by
  unfold itoa
  split
  · next h =>
    refine .inr ⟨h, _, rfl, ?_⟩
    rw [show v.natAbs = (-v).toNat by omega]
    exact formatUint_decimal _
  · next h =>
    refine .inl ⟨by omega, ?_⟩
    rw [show v.natAbs = v.toNat by omega]
    exact formatUint_decimal _

theorem decimalInt_unique {s t v} (h : DecimalInt s v) (g : DecimalInt t v) : s = t := by
  rcases h with ⟨h1, h2⟩ | ⟨h1, ds, rfl, h2⟩ <;> rcases g with ⟨g1, g2⟩ | ⟨g1, ds', rfl, g2⟩
  · exact decimal_unique h2 g2
  · omega
  · omega
  · rw [decimal_unique h2 g2]

theorem decimalInt_signed {s v} (h : DecimalInt s v) : SignedBy Numeral s v := by
  rcases h with ⟨h1, h2⟩ | ⟨h1, ds, rfl, h2⟩
  · rw [show v = (v.toNat : Int) by omega]
    exact .plain (decimal_numeral h2)
  · rw [show v = -(((-v).toNat : Nat) : Int) by omega]
    exact .minus (decimal_numeral h2)

theorem signed_unique {s v w} (h : SignedBy Numeral s v) (g : SignedBy Numeral s w) : v = w := by
  cases h with
  | plain h =>
    obtain ⟨c, cs, e, h1, h2⟩ := numeral_head h
    cases g with
    | plain g => rw [numeral_unique h g]
    | plus g => cases e; exact absurd rfl h1
    | minus g => cases e; exact absurd rfl h2
  | plus h =>
    generalize hs : (43 :: _ : Str) = t at g
    cases g with
    | plain g =>
      obtain ⟨c, cs, e, h1, h2⟩ := numeral_head g
      subst hs; cases e; exact absurd rfl h1
    | plus g => cases hs; rw [numeral_unique h g]
    | minus g => cases hs
  | minus h =>
    generalize hs : (45 :: _ : Str) = t at g
    cases g with
    | plain g =>
      obtain ⟨c, cs, e, h1, h2⟩ := numeral_head g
      subst hs; cases e; exact absurd rfl h2
    | plus g => cases hs
    | minus g => cases hs; rw [numeral_unique h g]

theorem signed_mono {num num' : Str → Nat → Prop} (hm : ∀ s n, num s n → num' s n) {s v} (h : SignedBy num s v) :
    SignedBy num' s v := by
  cases h with
  | plain h => exact .plain (hm _ _ h)
  | plus h => exact .plus (hm _ _ h)
  | minus h => exact .minus (hm _ _ h)

end Protoast
