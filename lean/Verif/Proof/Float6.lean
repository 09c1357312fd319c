import Verif.Proof.Float5
/-
  ParseFloat: hexadecimal numbers, and what else it accepts.
-/
namespace Protoast

theorem byte_all {p : UInt8 → Prop} (h : ∀ n : Fin 256, p (UInt8.ofNat n.val)) (c : UInt8) : p c := by
  have := h ⟨c.toNat, c.toNat_lt⟩
  simpa using this

/-- A possibly empty run of digits, with its value. -/
inductive Run (hex : Bool) : Str → Nat → Prop where
  | nil : Run hex [] 0
  | snoc {s n c d} : Run hex s n → floatDigit hex c = some d → Run hex (s ++ [c]) ((if hex then 16 else 10) * n + d)

theorem floatDigit_ne {hex : Bool} {c : UInt8} {d : Nat} (h : floatDigit hex c = some d) : c ≠ 95 ∧ c ≠ 46 := by
  have : ∀ hex, ∀ c : UInt8, (floatDigit hex c).isSome = true → c ≠ 95 ∧ c ≠ 46 := by
    intro hex
    refine byte_all ?_
    cases hex <;> decide +kernel
  exact this hex c (by rw [h]; rfl)

theorem floatDigit_hex {c : UInt8} {d : Nat} (h : HexDigit c d) : floatDigit true c = some d := by
  cases h with
  | @dec d hd =>
    have : ∀ d : Fin 10, floatDigit true (UInt8.ofNat (48 + d.val)) = some d.val := by decide +kernel
    exact this ⟨d, hd⟩
  | @lower d hd =>
    have : ∀ d : Fin 6, floatDigit true (UInt8.ofNat (97 + d.val)) = some (10 + d.val) := by decide +kernel
    exact this ⟨d, hd⟩
  | @upper d hd =>
    have : ∀ d : Fin 6, floatDigit true (UInt8.ofNat (65 + d.val)) = some (10 + d.val) := by decide +kernel
    exact this ⟨d, hd⟩

theorem hexDigit_of {c : UInt8} {d : Nat} (h : floatDigit true c = some d) : HexDigit c d := by
  have key : ∀ c : UInt8, ∀ d, floatDigit true c = some d → (c.toNat = 48 + d ∧ d < 10) ∨ (∃ e, d = 10 + e ∧ e < 6 ∧ (c.toNat = 97 + e ∨ c.toNat = 65 + e)) := by
    have : ∀ n : Fin 256, ∀ d, d ∈ floatDigit true (UInt8.ofNat n.val) →
        (n.val = 48 + d ∧ d < 10) ∨ (10 ≤ d ∧ d - 10 < 6 ∧ (n.val = 97 + (d - 10) ∨ n.val = 65 + (d - 10))) := by decide +kernel
    intro c d hd
    rcases this ⟨c.toNat, c.toNat_lt⟩ d (by simpa using hd) with h | ⟨h1, h2, h3⟩
    · exact .inl h
    · exact .inr ⟨d - 10, by omega, h2, h3⟩
  have back : ∀ {c : UInt8} {m}, c.toNat = m → c = UInt8.ofNat m := by rintro c m rfl; simp
  rcases key c d h with ⟨h1, h2⟩ | ⟨e, rfl, h2, h3 | h3⟩
  · rw [back h1]; exact .dec h2
  · rw [back h3]; exact .lower h2
  · rw [back h3]; exact .upper h2

theorem decDigit_of {c : UInt8} {d : Nat} (h : digitVal c = some d) : d < 10 ∧ c = UInt8.ofNat (48 + d) := by
  have key : ∀ n : Fin 256, ∀ d, d ∈ digitVal (UInt8.ofNat n.val) → n.val = 48 + d ∧ d < 10 := by decide +kernel
  obtain ⟨h1, h2⟩ := key ⟨c.toNat, c.toNat_lt⟩ d (by simpa using h)
  refine ⟨h2, ?_⟩
  rw [← show c.toNat = 48 + d from h1]; simp

theorem floatDigit_false (c : UInt8) : floatDigit false c = digitVal c := by
  unfold floatDigit
  cases digitVal c <;> rfl

theorem Run.hex {s : Str} {n : Nat} (h : HexDigits s n) : Run true s n := by
  induction h with
  | digit hd => simpa using Run.snoc .nil (floatDigit_hex hd)
  | snoc _ hd ih => exact Run.snoc ih (floatDigit_hex hd)

theorem HexDigits.ne_nil {s : Str} {n : Nat} (h : HexDigits s n) : s ≠ [] := by
  cases h <;> simp

theorem Run.hexDigits {s : Str} {n : Nat} (h : Run true s n) (hs : s ≠ []) : HexDigits s n := by
  induction h with
  | nil => exact absurd rfl hs
  | @snoc s n c d h1 hd ih =>
    by_cases he : s = []
    · subst he
      have : n = 0 := by
        generalize hs : ([] : Str) = t at h1
        cases h1 with
        | nil => rfl
        | snoc _ _ => simp at hs
      subst this
      simpa using HexDigits.digit (hexDigit_of hd)
    · exact .snoc (ih he) (hexDigit_of hd)

theorem Run.numeral {s : Str} {n : Nat} (h : Run false s n) (hs : s ≠ []) : Numeral s n := by
  induction h with
  | nil => exact absurd rfl hs
  | @snoc s n c d h1 hd ih =>
    rw [floatDigit_false] at hd
    obtain ⟨h2, rfl⟩ := decDigit_of hd
    by_cases he : s = []
    · subst he
      have : n = 0 := by
        generalize hs : ([] : Str) = t at h1
        cases h1 with
        | nil => rfl
        | snoc _ _ => simp at hs
      subst this
      simpa using Numeral.digit h2
    · exact .snoc (ih he) h2

theorem Run.append {hex : Bool} {s : Str} {a : Nat} (hs : Run hex s a) {t : Str} {b : Nat} (ht : Run hex t b) :
    Run hex (s ++ t) (a * (if hex then 16 else 10) ^ t.length + b) := by
  induction ht with
  | nil => simpa using hs
  | @snoc t b c d _ hd ih =>
    rw [← List.append_assoc]
    have := Run.snoc ih hd
    convert this using 1
    simp only [List.length_append, List.length_singleton, Nat.pow_succ]; ring

theorem Run.one {hex : Bool} {c : UInt8} {d : Nat} (h : floatDigit hex c = some d) : Run hex [c] d := by
  simpa using Run.snoc .nil h

theorem Run.unique {hex : Bool} {s : Str} {a b : Nat} (h : Run hex s a) (h' : Run hex s b) : a = b := by
  induction h generalizing b with
  | nil =>
    generalize hs : ([] : Str) = t at h'
    cases h' with
    | nil => rfl
    | snoc _ _ => simp at hs
  | @snoc s n c d _ hd ih =>
    generalize hs : s ++ [c] = t at h'
    cases h' with
    | nil => simp at hs
    | @snoc s' n' c' d' h1 hd' =>
      obtain ⟨rfl, h2⟩ := List.append_inj' hs rfl
      obtain rfl := List.singleton_inj.mp h2
      rw [hd] at hd'
      injection hd' with hd'
      rw [ih h1, hd']

theorem Run.split {hex : Bool} (s : Str) : ∀ (t : Str) {n : Nat}, Run hex (s ++ t) n → ∃ a b, Run hex s a ∧ Run hex t b := by
  intro t
  induction t using List.reverseRecOn with
  | nil => intro n h; rw [List.append_nil] at h; exact ⟨n, 0, h, .nil⟩
  | append_singleton t c ih =>
    intro n h
    rw [← List.append_assoc] at h
    generalize hs : s ++ t ++ [c] = u at h
    cases h with
    | nil => simp at hs
    | @snoc s' n' c' d' h1 hd' =>
      obtain ⟨rfl, h2⟩ := List.append_inj' hs rfl
      obtain rfl := List.singleton_inj.mp h2
      obtain ⟨a, b, g1, g2⟩ := ih h1
      exact ⟨a, _, g1, .snoc g2 hd'⟩

/-- The run at the beginning of a text. -/
theorem Run.span (hex : Bool) (s : Str) : ∃ ds n rest, s = ds ++ rest ∧ Run hex ds n ∧
    (rest = [] ∨ ∃ c cs, rest = c :: cs ∧ floatDigit hex c = none) := by
  induction s with
  | nil => exact ⟨[], 0, [], rfl, .nil, .inl rfl⟩
  | cons c cs ih =>
    cases h : floatDigit hex c with
    | none => exact ⟨[], 0, c :: cs, rfl, .nil, .inr ⟨c, cs, rfl, h⟩⟩
    | some d =>
      obtain ⟨ds, n, rest, rfl, h2, h3⟩ := ih
      exact ⟨c :: ds, _, rest, rfl, (Run.one h).append h2, h3⟩

theorem readMantissa_run {hex : Bool} {s : Str} {n : Nat} (h : Run hex s n) (m : Mantissa) (rest : Str) :
    readMantissa hex m (s ++ rest) =
      readMantissa hex { m with value := m.value * (if hex then 16 else 10) ^ s.length + n
                                behind := if m.dot then m.behind + s.length else m.behind
                                digits := m.digits || !s.isEmpty } rest := by
  induction h generalizing rest with
  | nil => simp
  | @snoc s n c d _ hd ih =>
    obtain ⟨h1, h2⟩ := floatDigit_ne hd
    rw [List.append_assoc, ih, List.singleton_append, readMantissa, if_neg h1, if_neg h2, hd]
    have he : (s ++ [c]).isEmpty = false := by cases s <;> rfl
    simp only [List.length_append, List.length_singleton, he, Bool.not_false, Bool.or_true]
    congr 2
    · rw [Nat.pow_succ]; ring
    · split <;> omega

theorem readMantissa_stop {hex : Bool} {m : Mantissa} {rest : Str} (hu : 95 ∉ rest)
    (h : rest = [] ∨ ∃ c cs, rest = c :: cs ∧ floatDigit hex c = none) (hd : m.dot = true ∨ ∀ cs, rest ≠ 46 :: cs) :
    readMantissa hex m rest = (m, rest) := by
  rcases h with rfl | ⟨c, cs, rfl, h⟩
  · rfl
  · rw [readMantissa, if_neg (by rintro rfl; simp at hu)]
    by_cases hc : c = 46
    · subst hc
      rcases hd with hd | hd
      · rw [if_pos rfl, if_pos hd]
      · exact absurd rfl (hd cs)
    · rw [if_neg hc, h]

theorem readMantissa_point {hex : Bool} {m : Mantissa} {l : Str} (hm : m.dot = false) :
    readMantissa hex m (46 :: l) = readMantissa hex { m with dot := true } l := by
  rw [readMantissa, if_neg (by decide), if_pos rfl, hm]; rfl

/-! ### Forward: hexadecimal numbers -/

theorem HexDigits.chars {s : Str} {n : Nat} (h : HexDigits s n) : 95 ∉ s := by
  have key : ∀ {c d}, HexDigit c d → c ≠ 95 := fun h => (floatDigit_ne (floatDigit_hex h)).1
  induction h with
  | digit hd => intro h; exact key hd (List.mem_singleton.mp h).symm
  | snoc _ hd ih =>
    intro h
    rcases List.mem_append.mp h with h | h
    · exact ih h
    · exact key hd (List.mem_singleton.mp h).symm

theorem readMantissa_hex {s : Str} {n k : Nat} (h : HexPointed s n k) {c : UInt8} {p : Str} (hc : c = 112 ∨ c = 80) :
    ∃ dot, readMantissa true {} (s ++ c :: p) = (⟨n, k, dot, true, false⟩, c :: p) := by
  have stop : ∀ m : Mantissa, readMantissa true m (c :: p) = (m, c :: p) := by
    intro m
    rcases hc with rfl | rfl
    · rw [readMantissa, if_neg (by decide), if_neg (by decide), show floatDigit true 112 = none by decide +kernel]
    · rw [readMantissa, if_neg (by decide), if_neg (by decide), show floatDigit true 80 = none by decide +kernel]
  have full : ∀ {t : Str}, t ≠ [] → t.isEmpty = false := by
    intro t ht
    cases t with
    | nil => exact absurd rfl ht
    | cons _ _ => rfl
  cases h with
  | whole h =>
    rw [readMantissa_run (Run.hex h), stop]
    exact ⟨false, by simp [full h.ne_nil]⟩
  | dot h =>
    rw [List.append_assoc, readMantissa_run (Run.hex h), List.singleton_append, readMantissa_point rfl, stop]
    exact ⟨true, by simp [full h.ne_nil]⟩
  | behind h =>
    rw [List.cons_append, readMantissa_point rfl, readMantissa_run (Run.hex h), stop]
    exact ⟨true, by simp [full h.ne_nil]⟩
  | @both s t n hs ht h =>
    obtain ⟨a, b, h1, h2⟩ := Run.split s t (Run.hex h)
    have hv := (Run.hex h).unique (h1.append h2)
    rw [List.append_assoc, readMantissa_run h1, List.cons_append, readMantissa_point rfl, readMantissa_run h2, stop]
    refine ⟨true, ?_⟩
    simp [full hs, full ht, hv]

theorem HexPointed.ne_nil {s : Str} {n k : Nat} (h : HexPointed s n k) : s ≠ [] := by
  cases h with
  | whole h => exact h.ne_nil
  | dot h => simp
  | behind h => simp
  | both _ _ _ => simp

theorem readFloat_hex {x c : UInt8} {s p : Str} {n k : Nat} {e : Int} (hx : x = 120 ∨ x = 88) (h1 : HexPointed s n k)
    (hc : c = 112 ∨ c = 80) (h2 : SignedBy Numeral p e) :
    ∃ e' : Int, readFloat (48 :: x :: s ++ c :: p) = some ⟨n, e' - 4 * k, 2⟩ ∧ Saturated e e' := by
  have hl : lowerBit c = 112 := by rcases hc with rfl | rfl <;> decide
  have hxl : lowerBit x = 120 := by rcases hx with rfl | rfl <;> decide
  have hp : floatPrefix (48 :: x :: s ++ c :: p) = (true, s ++ c :: p) := by
    cases s with
    | nil => exact absurd rfl h1.ne_nil
    | cons y ys =>
      simp only [List.cons_append, floatPrefix, hxl, if_true]
  obtain ⟨dot, hm⟩ := readMantissa_hex h1 (p := p) hc
  obtain ⟨e', g1, g2⟩ := finishFloat_exponent (hex := true) (body := s ++ c :: p) (n := n) (k := k) (dot := dot) hl h2
  refine ⟨e', ?_, g2⟩
  unfold readFloat
  rw [hp]
  simp only [hm]
  simpa using g1

theorem HexNumber.start {s : Str} {q : ℚ} (h : HexNumber s q) : ∃ rest, s = 48 :: rest := by
  cases h with
  | mk _ _ _ _ _ => exact ⟨_, rfl⟩

theorem HexNumber.nonneg {s : Str} {q : ℚ} (h : HexNumber s q) : 0 ≤ q := by
  cases h with
  | mk _ _ _ _ _ => positivity

theorem parseUnsigned_hex {s : Str} {q : ℚ} (h : HexNumber s q) (neg : Bool) :
    ∃ m, NearBits (q * 2 ^ 1074) m ∧ parseUnsigned neg s = if m < infBits then some (withSign neg m) else none := by
  have hi : isInfinity s = false := by
    obtain ⟨rest, rfl⟩ := h.start
    unfold isInfinity
    have h1 : ((48 :: rest).map lowerBit == b!"inf") = false := by
      rw [beq_eq_false_iff_ne]; intro e; exact absurd (List.cons.inj e).1 (by decide)
    have h2 : ((48 :: rest).map lowerBit == b!"infinity") = false := by
      rw [beq_eq_false_iff_ne]; intro e; exact absurd (List.cons.inj e).1 (by decide)
    simp only [h1, h2, Bool.or_self]
  cases h with
  | @mk x s n k c p e hx h1 hc h2 h3 =>
    obtain ⟨e', g1, g2⟩ := readFloat_hex hx h1 hc h2
    rw [g2.1 h3] at g1
    obtain ⟨hd, hv⟩ := ratio_value n (e - 4 * k) 2 (by decide)
    refine ⟨roundBits (ReadFloat.ratio ⟨n, e - 4 * k, 2⟩).1 (ReadFloat.ratio ⟨n, e - 4 * k, 2⟩).2, ?_, ?_⟩
    · have := roundBits_near (n := (ReadFloat.ratio ⟨n, e - 4 * k, 2⟩).1) hd
      rw [hv] at this
      exact_mod_cast this
    · exact parseUnsigned_some neg hi g1

theorem parseFloat_hex {s : Str} {neg : Bool} {q : ℚ} (h : SignedNumber HexNumber s neg q) :
    (Double.OutOfRange q → parseFloat s = none) ∧
    (¬ Double.OutOfRange q → ∃ b, parseFloat s = some b ∧ Double.Nearest q b ∧ Double.negative b = neg) := by
  have : ∃ m, NearBits (|q| * 2 ^ 1074) m ∧ (if neg then q ≤ 0 else 0 ≤ q) ∧
      parseFloat s = if m < infBits then some (withSign neg m) else none := by
    cases h with
    | plain h =>
      obtain ⟨m, h1, h2⟩ := parseUnsigned_hex h false
      refine ⟨m, by rwa [abs_of_nonneg h.nonneg], by simpa using h.nonneg, ?_⟩
      rw [← h2]
      obtain ⟨rest, rfl⟩ := h.start
      unfold parseFloat
      split
      · next g => exact absurd (List.cons.inj g).1 (by decide)
      · next g => exact absurd (List.cons.inj g).1 (by decide)
      · rw [if_neg]
        rw [beq_iff_eq]; intro e; exact absurd (List.cons.inj e).1 (by decide)
    | plus h =>
      obtain ⟨m, h1, h2⟩ := parseUnsigned_hex h false
      refine ⟨m, by rwa [abs_of_nonneg h.nonneg], by simpa using h.nonneg, ?_⟩
      rw [← h2]; rfl
    | minus h =>
      obtain ⟨m, h1, h2⟩ := parseUnsigned_hex h true
      refine ⟨m, by rwa [abs_neg, abs_of_nonneg h.nonneg], by simpa using h.nonneg, ?_⟩
      rw [← h2]; rfl
  obtain ⟨m, h1, h2, h3⟩ := this
  have h4 := h1.overflow
  rw [← outOfRange_iff] at h4
  constructor
  · intro ho
    rw [h3, if_neg (by have := h4.mpr ho; omega)]
  · intro ho
    have hm : m < infBits := by
      by_contra hlt
      exact ho (h4.mp (by omega))
    rw [h3, if_pos hm]
    exact ⟨_, rfl, nearest_of_nearBits h1 hm h2, (withSign_parts hm).2.1⟩

/-! ### Infinities in any case -/

theorem anyCase_iff {t s : Str} (ht : ∀ c ∈ t, 97 ≤ c.toNat ∧ c.toNat ≤ 122) : s.map lowerBit = t ↔ AnyCase t s := by
  have up : ∀ d : UInt8, d = lowerBit d ∨ d.toNat + 32 = (lowerBit d).toNat := by
    refine byte_all ?_
    decide +kernel
  have down : ∀ d : UInt8, (97 ≤ d.toNat ∧ d.toNat ≤ 122 → lowerBit d = d) ∧
      (97 ≤ d.toNat + 32 ∧ d.toNat + 32 ≤ 122 → (lowerBit d).toNat = d.toNat + 32) := by
    refine byte_all ?_
    decide +kernel
  constructor
  · rintro rfl
    refine ⟨by simp, ?_⟩
    intro i c d hc hd
    rw [List.getElem?_map, hd] at hc
    injection hc with hc
    rw [← hc]
    exact up d
  · rintro ⟨h1, h2⟩
    apply List.ext_getElem? 
    intro i
    rw [List.getElem?_map]
    cases hs : s[i]? with
    | none =>
      rw [List.getElem?_eq_none_iff] at hs
      rw [Option.map_none, eq_comm, List.getElem?_eq_none_iff]
      omega
    | some d =>
      have hi : i < t.length := by rw [← h1]; exact (List.getElem?_eq_some_iff.mp hs).1
      have hc : t[i]? = some t[i] := List.getElem?_eq_getElem hi
      rw [hc, Option.map_some, Option.some_inj]
      have hr := ht t[i] (List.getElem_mem hi)
      rcases h2 i _ d hc hs with h | h
      · rw [h]; exact (down _).1 hr
      · apply UInt8.toNat_inj.mp
        rw [(down d).2 (by omega), h]

theorem isInfinity_iff {s : Str} : isInfinity s = true ↔ AnyCase b!"inf" s ∨ AnyCase b!"infinity" s := by
  unfold isInfinity
  rw [← anyCase_iff (by decide), ← anyCase_iff (by decide)]
  simp

/-! ### Backward -/

theorem Run.pointed {ds ds2 : Str} {a b : Nat} (h1 : Run false ds a) (h2 : Run false ds2 b) (hne : ds ≠ [] ∨ ds2 ≠ []) :
    ∃ n k, Pointed (ds ++ 46 :: ds2) n k := by
  by_cases e1 : ds = []
  · subst e1
    exact ⟨_, _, .behind (h2.numeral (hne.resolve_left (by simp)))⟩
  · by_cases e2 : ds2 = []
    · subst e2
      exact ⟨_, _, .dot (h1.numeral e1)⟩
    · exact ⟨_, _, .both e1 e2 ((h1.append h2).numeral (by simp [e1]))⟩

theorem Run.hexPointed {ds ds2 : Str} {a b : Nat} (h1 : Run true ds a) (h2 : Run true ds2 b) (hne : ds ≠ [] ∨ ds2 ≠ []) :
    ∃ n k, HexPointed (ds ++ 46 :: ds2) n k := by
  by_cases e1 : ds = []
  · subst e1
    exact ⟨_, _, .behind (h2.hexDigits (hne.resolve_left (by simp)))⟩
  · by_cases e2 : ds2 = []
    · subst e2
      exact ⟨_, _, .dot (h1.hexDigits e1)⟩
    · exact ⟨_, _, .both e1 e2 ((h1.append h2).hexDigits (by simp [e1]))⟩

/-- What the mantissa was. -/
theorem readMantissa_inv {hex : Bool} {s rest : Str} {m : Mantissa} (h : readMantissa hex {} s = (m, rest)) (hu : 95 ∉ s)
    (hd : m.digits = true) : ∃ body n k, s = body ++ rest ∧ (if hex then HexPointed body n k else Pointed body n k) := by
  obtain ⟨ds, n, r1, rfl, h2, h3⟩ := Run.span hex s
  rw [readMantissa_run h2] at h
  by_cases hdot : ∃ cs, r1 = 46 :: cs
  · obtain ⟨cs, rfl⟩ := hdot
    rw [readMantissa_point rfl] at h
    obtain ⟨ds2, n2, r2, rfl, g2, g3⟩ := Run.span hex cs
    rw [readMantissa_run g2, readMantissa_stop (by intro hm; exact hu (by simp [hm])) g3 (.inl rfl)] at h
    injection h with h4 h5
    subst h4 h5
    have hne : ds ≠ [] ∨ ds2 ≠ [] := by
      by_contra hc
      rw [not_or, not_not, not_not] at hc
      obtain ⟨rfl, rfl⟩ := hc
      simp at hd
    cases hex with
    | false =>
      obtain ⟨n, k, g⟩ := h2.pointed g2 hne
      exact ⟨ds ++ 46 :: ds2, n, k, by simp, by simpa using g⟩
    | true =>
      obtain ⟨n, k, g⟩ := h2.hexPointed g2 hne
      exact ⟨ds ++ 46 :: ds2, n, k, by simp, by simpa using g⟩
  · rw [readMantissa_stop (by intro hm; exact hu (by simp [hm])) h3 (.inr (fun cs e => hdot ⟨cs, e⟩))] at h
    injection h with h4 h5
    subst h4 h5
    have hne : ds ≠ [] := by rintro rfl; simp at hd
    cases hex with
    | false => exact ⟨ds, n, 0, rfl, by simpa using Pointed.whole (h2.numeral hne)⟩
    | true => exact ⟨ds, n, 0, rfl, by simpa using HexPointed.whole (h2.hexDigits hne)⟩

/-- A text without its underscores. -/
abbrev plainText (s : Str) : Str := s.filter (· ≠ 95)

theorem plainText_under (s : Str) : 95 ∉ plainText s := by simp

theorem plainText_cons {c : UInt8} (h : c ≠ 95) (s : Str) : plainText (c :: s) = c :: plainText s := by
  simp [plainText, h]

theorem plainText_skip (s : Str) : plainText (95 :: s) = plainText s := by simp [plainText]

/-- Underscores in the mantissa are skipped. -/
theorem readMantissa_plain {hex : Bool} {s : Str} : ∀ {m m' : Mantissa} {x}, readMantissa hex m s = x →
    m'.dot = m.dot → m'.digits = m.digits →
    (∃ m2, readMantissa hex m' (plainText s) = (m2, plainText x.2) ∧ m2.digits = x.1.digits) ∧ ∀ cs, x.2 ≠ 95 :: cs := by
  induction s with
  | nil =>
    rintro m m' x rfl _ hd
    exact ⟨⟨m', rfl, hd⟩, fun cs h => by cases h⟩
  | cons c cs ih =>
    intro m m' x h h1 h2
    by_cases hc : c = 95
    · subst hc
      rw [readMantissa, if_pos rfl] at h
      rw [plainText_skip]
      exact ih h h1 h2
    · rw [readMantissa, if_neg hc] at h
      rw [plainText_cons hc, readMantissa, if_neg hc]
      by_cases hc' : c = 46
      · rw [if_pos hc'] at h ⊢
        rw [h1]
        by_cases hd : m.dot = true
        · rw [if_pos hd] at h ⊢
          subst h
          exact ⟨⟨m', by rw [plainText_cons hc], h2⟩, fun cs h => hc (List.cons.inj h).1⟩
        · rw [if_neg hd] at h ⊢
          exact ih h rfl h2
      · rw [if_neg hc'] at h ⊢
        cases hd : floatDigit hex c with
        | none =>
          rw [hd] at h
          simp only at h ⊢
          subst h
          exact ⟨⟨m', by rw [plainText_cons hc], h2⟩, fun cs h => hc (List.cons.inj h).1⟩
        | some d =>
          rw [hd] at h
          simp only at h ⊢
          exact ih h h1 rfl

theorem readExponent_inv {s : Str} : ∀ {e : Nat} {us : Bool} {x}, readExponent e us s = x → x.2.2 = [] →
    ∃ n, Run false (plainText s) n := by
  induction s with
  | nil => intro e us x _ _; exact ⟨0, .nil⟩
  | cons c cs ih =>
    intro e us x h hx
    by_cases hc : c = 95
    · subst hc
      rw [readExponent, if_pos rfl] at h
      rw [plainText_skip]
      exact ih h hx
    · rw [readExponent, if_neg hc] at h
      cases hd : digitVal c with
      | none =>
        rw [hd] at h
        simp only at h
        subst h
        simp at hx
      | some d =>
        rw [hd] at h
        obtain ⟨n, g⟩ := ih h hx
        rw [plainText_cons hc]
        exact ⟨_, (Run.one (by rw [floatDigit_false]; exact hd)).append g⟩

theorem exponentSign_inv {cs ds : Str} {d : UInt8} {n : Nat} (hds : (exponentSign cs).2 = d :: ds)
    (h : Numeral (plainText (d :: ds)) n) : ∃ e, SignedBy Numeral (plainText cs) e := by
  unfold exponentSign at hds
  split at hds
  · simp only at hds; rw [hds, plainText_cons (by decide)]; exact ⟨_, .plus h⟩
  · simp only at hds; rw [hds, plainText_cons (by decide)]; exact ⟨_, .minus h⟩
  · simp only at hds; rw [hds]; exact ⟨_, .plain h⟩

/-- What the exponent was. -/
theorem finishFloat_inv {hex : Bool} {body : Str} {m : Mantissa} {rest : Str} {x : ReadFloat}
    (h : finishFloat hex body m rest = some x) (hu : ∀ cs, rest ≠ 95 :: cs) : m.digits = true ∧
    ((plainText rest = [] ∧ hex = false) ∨ ∃ c cs e, plainText rest = c :: cs ∧ lowerBit c = (if hex then 112 else 101) ∧
      SignedBy Numeral cs e) := by
  unfold finishFloat at h
  simp only at h
  have hd : m.digits = true := by
    cases hm : m.digits with
    | true => rfl
    | false => rw [hm] at h; simp at h
  refine ⟨hd, ?_⟩
  rw [hd] at h
  simp only [Bool.not_true, Bool.false_eq_true, if_false] at h
  cases rest with
  | nil =>
    left
    refine ⟨rfl, ?_⟩
    cases hex with
    | false => rfl
    | true => simp at h
  | cons c cs =>
    right
    simp only at h
    by_cases hl : lowerBit c = (if hex then 112 else 101)
    · rw [if_pos hl] at h
      cases hds : (exponentSign cs).2 with
      | nil => rw [hds] at h; cases h
      | cons d ds =>
        rw [hds] at h
        simp only at h
        by_cases hdig : (digitVal d).isNone = true
        · rw [if_pos hdig] at h; cases h
        · rw [if_neg hdig] at h
          by_cases hr : (readExponent 0 m.underscores (d :: ds)).2.2 = []
          · obtain ⟨n, g⟩ := readExponent_inv rfl hr
            have hd95 : d ≠ 95 := by rintro rfl; exact hdig (by decide)
            obtain ⟨e, ge⟩ := exponentSign_inv hds (g.numeral (by rw [plainText_cons hd95]; simp))
            have hc95 : c ≠ 95 := by rintro rfl; exact hu cs rfl
            exact ⟨c, plainText cs, e, plainText_cons hc95 cs, hl, ge⟩
          · rw [if_pos hr] at h; cases h
    · rw [if_neg hl] at h; cases h

theorem lower_inv : ∀ c : UInt8, (lowerBit c = 101 → c = 101 ∨ c = 69) ∧ (lowerBit c = 112 → c = 112 ∨ c = 80) ∧
    (lowerBit c = 120 → c = 120 ∨ c = 88) := by
  refine byte_all ?_
  decide +kernel

theorem floatPrefix_inv (s : Str) : floatPrefix s = (false, s) ∨ ∃ x body, s = 48 :: x :: body ∧ (x = 120 ∨ x = 88) ∧
    floatPrefix s = (true, body) := by
  unfold floatPrefix
  split
  · next x y rest =>
    split
    · next h => exact .inr ⟨x, _, rfl, (lower_inv x).2.2 h, rfl⟩
    · exact .inl rfl
  · exact .inl rfl

theorem readFloat_inv {s : Str} {x : ReadFloat} (h : readFloat s = some x) : FloatText (plainText s) := by
  unfold readFloat at h
  rcases floatPrefix_inv s with hp | ⟨y, body, rfl, hy, hp⟩
  · rw [hp] at h
    simp only at h
    rcases hm : readMantissa false {} s with ⟨m, rest⟩
    rw [hm] at h
    simp only at h
    obtain ⟨⟨m2, hm2, hd2⟩, hu⟩ := readMantissa_plain (m' := {}) hm rfl rfl
    simp only at hm2 hd2 hu
    obtain ⟨hd, hr⟩ := finishFloat_inv h hu
    obtain ⟨bd, n, k, hs, hb⟩ := readMantissa_inv hm2 (plainText_under s) (by rw [hd2, hd])
    simp only [Bool.false_eq_true, if_false] at hb
    rw [hs]
    rcases hr with ⟨e1, _⟩ | ⟨c, cs, e, e1, hl, hs⟩
    · rw [e1]
      exact .decimal hb .none
    · rw [e1]
      exact .decimal hb (.some ((lower_inv c).1 (by simpa using hl)) hs)
  · rw [hp] at h
    simp only at h
    rcases hm : readMantissa true {} body with ⟨m, rest⟩
    rw [hm] at h
    simp only at h
    obtain ⟨⟨m2, hm2, hd2⟩, hu⟩ := readMantissa_plain (m' := {}) hm rfl rfl
    simp only at hm2 hd2 hu
    obtain ⟨hd, hr⟩ := finishFloat_inv h hu
    obtain ⟨bd, n, k, hs, hb⟩ := readMantissa_inv hm2 (plainText_under body) (by rw [hd2, hd])
    simp only [if_true] at hb
    rw [plainText_cons (by decide), plainText_cons (by rcases hy with rfl | rfl <;> decide), hs]
    rcases hr with ⟨_, hf⟩ | ⟨c, cs, e, e1, hl, hs⟩
    · cases hf
    · rw [e1]
      exact .hex (s := bd) hy hb ((lower_inv c).2.1 (by simpa using hl)) hs

theorem plainText_letters {t s : Str} (ht : ∀ c ∈ t, 97 ≤ c.toNat ∧ c.toNat ≤ 122) (h : s.map lowerBit = t) : plainText s = s := by
  rw [List.filter_eq_self]
  intro c hc
  have := ht (lowerBit c) (by rw [← h]; exact List.mem_map_of_mem hc)
  rw [decide_eq_true_eq]
  rintro rfl
  revert this
  decide

theorem parseUnsigned_inv {neg : Bool} {s : Str} {b : UInt64} (h : parseUnsigned neg s = some b) : FloatText (plainText s) := by
  unfold parseUnsigned at h
  split at h
  · next hi =>
    rcases isInfinity_iff.mp hi with hi | hi
    · rw [plainText_letters (by decide) ((anyCase_iff (by decide)).mpr hi)]; exact .inf hi
    · rw [plainText_letters (by decide) ((anyCase_iff (by decide)).mpr hi)]; exact .infinity hi
  · split at h
    · next x hx => exact readFloat_inv hx
    · cases h

/-- Whatever `ParseFloat` accepts, underscores aside. -/
theorem parseFloat_inv {s : Str} {b : UInt64} (h : parseFloat s = some b) : FloatConstant (plainText s) := by
  unfold parseFloat at h
  split at h
  · rw [plainText_cons (by decide)]; exact .plus (parseUnsigned_inv h)
  · rw [plainText_cons (by decide)]; exact .minus (parseUnsigned_inv h)
  · split at h
    · next hn =>
      rw [beq_iff_eq] at hn
      rw [plainText_letters (by decide) hn]
      exact .nan ((anyCase_iff (by decide)).mp hn)
    · exact .plain (parseUnsigned_inv h)

end Protoast
