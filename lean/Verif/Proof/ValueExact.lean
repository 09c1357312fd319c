import Verif.Spec.ValueExact
import Verif.Proof.ValueSpec
/-
  A literal has at most one value for a field.
-/
namespace Protoast

/-! ### Numerals -/

theorem snoc_inj {s t : Str} {c d : UInt8} (h : s ++ [c] = t ++ [d]) : s = t ∧ c = d := by
  have := List.append_inj' h rfl
  exact ⟨this.1, by simpa using this.2⟩

theorem digit_inj {d e : Nat} (hd : d < 10) (he : e < 10) (h : UInt8.ofNat (48 + d) = UInt8.ofNat (48 + e)) : d = e := by
  have := congrArg UInt8.toNat h
  simp only [UInt8.toNat_ofNat'] at this
  omega

theorem digit_range {d : Nat} (hd : d < 10) : (UInt8.ofNat (48 + d)).toNat = 48 + d := by
  simp only [UInt8.toNat_ofNat']
  omega

theorem octal_ne {s n} (h : OctalDigits s n) : s ≠ [] := by cases h <;> simp

theorem octal_fun {s n} (h : OctalDigits s n) : ∀ {m}, OctalDigits s m → n = m := by
  induction h with
  | @digit d hd =>
    intro m g
    generalize hs : [UInt8.ofNat (48 + d)] = s at g
    cases g with
    | @digit e he =>
      simp only [List.cons.injEq, and_true] at hs
      exact digit_inj (by omega) (by omega) hs
    | @snoc t k e ht he =>
      obtain ⟨e1, _⟩ := snoc_inj (s := []) (t := t) hs
      exact absurd e1.symm (octal_ne ht)
  | @snoc s n d h hd ih =>
    intro m g
    generalize hs : s ++ [UInt8.ofNat (48 + d)] = t at g
    cases g with
    | @digit e he =>
      obtain ⟨e1, _⟩ := snoc_inj (t := []) hs
      exact absurd e1 (octal_ne h)
    | @snoc t k e ht he =>
      obtain ⟨rfl, e2⟩ := snoc_inj hs
      rw [ih ht, digit_inj (by omega) (by omega) e2]

theorem octal_head {s n} (h : OctalDigits s n) : ∃ d t, d < 8 ∧ s = UInt8.ofNat (48 + d) :: t := by
  induction h with
  | digit hd => exact ⟨_, [], hd, rfl⟩
  | snoc _ _ ih => obtain ⟨d, t, hd, rfl⟩ := ih; exact ⟨d, _, hd, rfl⟩

theorem numeral_first {s n} (h : Numeral s n) : ∃ d t, d < 10 ∧ s = UInt8.ofNat (48 + d) :: t := by
  induction h with
  | digit hd => exact ⟨_, [], hd, rfl⟩
  | snoc _ _ ih => obtain ⟨d, t, hd, rfl⟩ := ih; exact ⟨d, _, hd, rfl⟩

theorem hex_ne {s n} (h : HexDigits s n) : s ≠ [] := by cases h <;> simp

theorem hexDigit_fun {c d e} (h : HexDigit c d) (g : HexDigit c e) : d = e := by
  have hv : ∀ {c d}, HexDigit c d → (d < 10 ∧ c.toNat = 48 + d) ∨ (10 ≤ d ∧ d < 16 ∧ c.toNat = 87 + d) ∨
      (10 ≤ d ∧ d < 16 ∧ c.toNat = 55 + d) := by
    intro c d h
    cases h <;> simp only [UInt8.toNat_ofNat'] <;> omega
  have h1 := hv h
  have h2 := hv g
  omega

theorem hex_fun {s n} (h : HexDigits s n) : ∀ {m}, HexDigits s m → n = m := by
  induction h with
  | @digit c d hd =>
    intro m g
    generalize hs : [c] = s at g
    cases g with
    | @digit c' e he =>
      simp only [List.cons.injEq, and_true] at hs
      subst hs
      exact hexDigit_fun hd he
    | @snoc t k c' e ht he =>
      obtain ⟨e1, _⟩ := snoc_inj (s := []) (t := t) hs
      exact absurd e1.symm (hex_ne ht)
  | @snoc s n c d h hd ih =>
    intro m g
    generalize hs : s ++ [c] = t at g
    cases g with
    | @digit c' e he =>
      obtain ⟨e1, _⟩ := snoc_inj (t := []) hs
      exact absurd e1 (hex_ne h)
    | @snoc t k c' e ht he =>
      obtain ⟨rfl, rfl⟩ := snoc_inj hs
      rw [ih ht, hexDigit_fun hd he]

theorem decimal_zero {s n} (h : Decimal s n) : ∀ {t}, s = 48 :: t → t = [] ∧ n = 0 := by
  induction h with
  | @digit d hd =>
    intro t e
    simp only [List.cons.injEq] at e
    refine ⟨e.2.symm, ?_⟩
    have := digit_inj (d := d) (e := 0) hd (by omega) e.1
    omega
  | @snoc s n d h hn hd ih =>
    intro t e
    cases s with
    | nil => exact absurd rfl (decimal_pos_length h)
    | cons c s =>
      simp only [List.cons_append, List.cons.injEq] at e
      have := (ih (t := s) (by rw [e.1])).2
      omega

theorem intLit_fun {s n m} (h : IntLit s n) (g : IntLit s m) : n = m := by
  have lead : ∀ {t k}, OctalDigits t k → ∀ {c u}, t = c :: u → c.toNat < 56 := by
    intro t k h c u e
    obtain ⟨d, w, hd, rfl⟩ := octal_head h
    simp only [List.cons.injEq] at e
    rw [← e.1, digit_range (by omega)]
    omega
  cases h with
  | decimal h =>
    generalize hs : s = t at g
    cases g with
    | decimal g => subst hs; exact numeral_unique (decimal_numeral h) (decimal_numeral g)
    | octal g => exact absurd (decimal_zero h hs).1 (octal_ne g)
    | hex g => exact absurd (decimal_zero h hs).1 (by simp)
    | hexUpper g => exact absurd (decimal_zero h hs).1 (by simp)
  | @octal s n h =>
    generalize hs : 48 :: s = t at g
    cases g with
    | decimal g => exact absurd (decimal_zero g hs.symm).1 (octal_ne h)
    | octal g => cases hs; exact octal_fun h g
    | hex g => cases hs; have := lead h rfl; exact absurd this (by decide)
    | hexUpper g => cases hs; have := lead h rfl; exact absurd this (by decide)
  | @hex s n h =>
    generalize hs : 48 :: 120 :: s = t at g
    cases g with
    | decimal g => exact absurd (decimal_zero g hs.symm).1 (by simp)
    | octal g => cases hs; have := lead g rfl; exact absurd this (by decide)
    | hex g => cases hs; exact hex_fun h g
    | hexUpper g => cases hs
  | @hexUpper s n h =>
    generalize hs : 48 :: 88 :: s = t at g
    cases g with
    | decimal g => exact absurd (decimal_zero g hs.symm).1 (by simp)
    | octal g => cases hs; have := lead g rfl; exact absurd this (by decide)
    | hex g => cases hs
    | hexUpper g => cases hs; exact hex_fun h g

theorem intLit_head {s n} (h : IntLit s n) : ∃ d t, d < 10 ∧ s = UInt8.ofNat (48 + d) :: t := by
  cases h with
  | decimal h => exact numeral_first (decimal_numeral h)
  | octal h => exact ⟨0, _, by omega, rfl⟩
  | hex h => exact ⟨0, _, by omega, rfl⟩
  | hexUpper h => exact ⟨0, _, by omega, rfl⟩

theorem signed_fun {num : Str → Nat → Prop} (hu : ∀ s n m, num s n → num s m → n = m)
    (hd : ∀ s n, num s n → ∃ d t, d < 10 ∧ s = UInt8.ofNat (48 + d) :: t) {s v w} (h : SignedBy num s v)
    (g : SignedBy num s w) : v = w := by
  have no : ∀ {c s n}, num (c :: s) n → 48 ≤ c.toNat := by
    intro c s n h
    obtain ⟨d, t, hl, e⟩ := hd _ _ h
    simp only [List.cons.injEq] at e
    rw [e.1, digit_range hl]
    omega
  cases h with
  | plain h =>
    cases g with
    | plain g => rw [hu _ _ _ h g]
    | plus g => exact absurd (no h) (by decide)
    | minus g => exact absurd (no h) (by decide)
  | plus h =>
    cases g with
    | plain g => exact absurd (no g) (by decide)
    | plus g => rw [hu _ _ _ h g]
  | minus h =>
    cases g with
    | plain g => exact absurd (no g) (by decide)
    | minus g => rw [hu _ _ _ h g]

/-! ### Dialects -/

/-- Nothing can be read in two ways. -/
structure Dialect.Definite (D : Dialect) : Prop where
  bool : ∀ {s b c}, D.bool s b → D.bool s c → b = c
  int : ∀ {t s v w}, D.int t s v → D.int t s w → v = w
  uint : ∀ {t s v w}, D.uint t s v → D.uint t s w → v = w
  uintTypes : ∀ {t}, t ∈ D.uintTypes → t ∉ intTypes ∧ t ∉ floatTypes ∧ t ≠ b!"bool" ∧ t ≠ b!"string" ∧ t ≠ b!"bytes"
  named : ∀ {t rep}, D.named t rep → ¬ IsKeyword t ∧ t ∉ D.uintTypes
  single : ∀ {l}, D.single l → ¬ D.array l

theorem accepted_definite : Dialect.accepted.Definite where
  bool := by
    intro s b c h g
    rw [← parseBool_iff] at h g
    rw [h] at g
    cases g
    rfl
  int := by
    intro t s v w h g
    exact signed_fun (num := Numeral) (fun _ _ _ => numeral_unique) (fun _ _ => numeral_first) h.1 g.1
  uint := by
    intro t s v w h g
    exact numeral_unique h.1 g.1
  uintTypes := by
    intro t h
    simp only [Dialect.accepted, List.mem_cons, List.not_mem_nil, or_false] at h
    rcases h with rfl | rfl | rfl | rfl <;> decide
  named := by
    intro t rep h
    refine ⟨h.1, ?_⟩
    simp only [Dialect.accepted, List.mem_cons, List.not_mem_nil, or_false]
    rintro (e | e | e | e)
    · exact h.2.1 e
    · exact h.1 ⟨.fixed32, e⟩
    · exact h.2.2.1 e
    · exact h.1 ⟨.fixed64, e⟩
  single := fun h => h.elim

theorem protobuf_definite : Dialect.protobuf.Definite where
  bool := by
    rintro s b c (⟨rfl, rfl⟩ | ⟨rfl, rfl⟩) (⟨g, rfl⟩ | ⟨g, rfl⟩) <;> first | rfl | exact absurd g (by decide)
  int := by
    intro t s v w h g
    exact signed_fun (num := IntLit) (fun _ _ _ => intLit_fun) (fun _ _ => intLit_head) h.1 g.1
  uint := by
    intro t s v w h g
    exact intLit_fun h.1 g.1
  uintTypes := by
    intro t h
    simp only [Dialect.protobuf, List.mem_cons, List.not_mem_nil, or_false] at h
    rcases h with rfl | rfl | rfl | rfl <;> decide
  named := by
    intro t rep h
    refine ⟨h, ?_⟩
    simp only [Dialect.protobuf, List.mem_cons, List.not_mem_nil, or_false]
    rintro (e | e | e | e)
    · exact h ⟨.uint32, e⟩
    · exact h ⟨.uint64, e⟩
    · exact h ⟨.fixed32, e⟩
    · exact h ⟨.fixed64, e⟩
  single := by
    rintro l (h | h) ⟨g1, g2⟩
    · exact h g1
    · exact h g2

/-- The variant of the values of a type. -/
def Dialect.sort (D : Dialect) (t : Str) : Nat :=
  if t = b!"bool" then 0 else if t ∈ intTypes then 1 else if t ∈ D.uintTypes then 2 else if t ∈ floatTypes then 3
  else if t = b!"string" then 4 else if t = b!"bytes" then 5 else 6

theorem sort_bool {D : Dialect} : D.sort b!"bool" = 0 := by rw [Dialect.sort, if_pos rfl]

theorem sort_int {D : Dialect} {t : Str} (h : t ∈ intTypes) : D.sort t = 1 := by
  have : t ≠ b!"bool" := by rintro rfl; revert h; decide
  rw [Dialect.sort, if_neg this, if_pos h]

theorem sort_uint {D : Dialect} (hD : D.Definite) {t : Str} (h : t ∈ D.uintTypes) : D.sort t = 2 := by
  have := hD.uintTypes h
  rw [Dialect.sort, if_neg this.2.2.1, if_neg this.1, if_pos h]

theorem sort_float {D : Dialect} (hD : D.Definite) {t : Str} (h : t ∈ floatTypes) : D.sort t = 3 := by
  have h1 : t ≠ b!"bool" := by rintro rfl; revert h; decide
  have h2 : t ∉ intTypes := by
    simp only [floatTypes, List.mem_cons, List.not_mem_nil, or_false] at h
    rcases h with rfl | rfl <;> decide
  have h3 : t ∉ D.uintTypes := fun g => (hD.uintTypes g).2.1 h
  rw [Dialect.sort, if_neg h1, if_neg h2, if_neg h3, if_pos h]

theorem sort_string {D : Dialect} (hD : D.Definite) : D.sort b!"string" = 4 := by
  rw [Dialect.sort, if_neg (by decide), if_neg (by decide), if_neg (fun g => (hD.uintTypes g).2.2.2.1 rfl),
    if_neg (by decide), if_pos rfl]

theorem sort_bytes {D : Dialect} (hD : D.Definite) : D.sort b!"bytes" = 5 := by
  rw [Dialect.sort, if_neg (by decide), if_neg (by decide), if_neg (fun g => (hD.uintTypes g).2.2.2.2 rfl),
    if_neg (by decide), if_neg (by decide), if_pos rfl]

theorem sort_named {D : Dialect} (hD : D.Definite) {t rep} (h : D.named t rep) : D.sort t = 6 := by
  obtain ⟨h1, h2⟩ := hD.named h
  rw [Dialect.sort, if_neg (show ¬ t = b!"bool" from fun e => h1 ⟨.bool, e⟩), if_neg, if_neg h2, if_neg,
    if_neg (show ¬ t = b!"string" from fun e => h1 ⟨.string, e⟩),
    if_neg (show ¬ t = b!"bytes" from fun e => h1 ⟨.bytes, e⟩)]
  · simp only [floatTypes, List.mem_cons, List.not_mem_nil, or_false]
    rintro (e | e)
    · exact h1 ⟨.float, e⟩
    · exact h1 ⟨.double, e⟩
  · simp only [intTypes, List.mem_cons, List.not_mem_nil, or_false]
    rintro (e | e | e | e | e | e)
    · exact h1 ⟨.int32, e⟩
    · exact h1 ⟨.sint32, e⟩
    · exact h1 ⟨.sfixed32, e⟩
    · exact h1 ⟨.int64, e⟩
    · exact h1 ⟨.sint64, e⟩
    · exact h1 ⟨.sfixed64, e⟩

theorem declared_fun {r : Reg} {a b : Str} {p : Ptr} (h : Declared r a p) (g : Declared r b p) : a = b := by
  obtain ⟨f, h1, h2⟩ := h
  obtain ⟨f', g1, g2⟩ := g
  rw [h1] at g1; cases g1
  rw [h2] at g2; cases g2
  rfl

theorem sort_same {D : Dialect} {r : Reg} {f t t' rep rep'} (h : FieldAt r f t rep) (g : FieldAt r f t' rep') {a b}
    (ha : D.sort t = a) (hb : D.sort t' = b) : a = b := by
  obtain ⟨rfl, _⟩ := fieldAt_unique h g
  rw [← ha, ← hb]

mutual
theorem ValueOf.same {D : Dialect} (hD : D.Definite) {F r} : ∀ {op f l v w}, ValueOf D F r op f l v →
    ValueOf D F r op f l w → v.bare = w.bare
  | _, _, _, _, _, .bool h1 h2, g => by
    cases g with
    | bool g1 g2 => rw [hD.bool h2 g2]
    | int g1 g2 _ => exact absurd (sort_same (D := D) h1 g1 sort_bool (sort_int g2)) (by decide)
    | uint g1 g2 _ => exact absurd (sort_same (D := D) h1 g1 sort_bool (sort_uint hD g2)) (by decide)
    | float g1 g2 _ => exact absurd (sort_same (D := D) h1 g1 sort_bool (sort_float hD g2)) (by decide)
    | string g1 => exact absurd (sort_same (D := D) h1 g1 sort_bool (sort_string hD)) (by decide)
    | bytes g1 => exact absurd (sort_same (D := D) h1 g1 sort_bool (sort_bytes hD)) (by decide)
    | enum g1 g2 _ _ _ _ => exact absurd (sort_same (D := D) h1 g1 sort_bool (sort_named hD g2)) (by decide)
    | message g1 g2 _ _ _ _ => exact absurd (sort_same (D := D) h1 g1 sort_bool (sort_named hD g2)) (by decide)
  | _, _, _, _, _, .int h1 h2 h3, g => by
    cases g with
    | bool g1 g2 => exact absurd (sort_same (D := D) h1 g1 (sort_int h2) sort_bool) (by decide)
    | int g1 g2 g3 => obtain ⟨rfl, _⟩ := fieldAt_unique h1 g1; rw [hD.int h3 g3]
    | uint g1 g2 _ => exact absurd (sort_same (D := D) h1 g1 (sort_int h2) (sort_uint hD g2)) (by decide)
    | float g1 g2 _ => exact absurd (sort_same (D := D) h1 g1 (sort_int h2) (sort_float hD g2)) (by decide)
    | string g1 => exact absurd (sort_same (D := D) h1 g1 (sort_int h2) (sort_string hD)) (by decide)
    | bytes g1 => exact absurd (sort_same (D := D) h1 g1 (sort_int h2) (sort_bytes hD)) (by decide)
    | enum g1 g2 _ _ _ _ => exact absurd (sort_same (D := D) h1 g1 (sort_int h2) (sort_named hD g2)) (by decide)
    | message g1 g2 _ _ _ _ => exact absurd (sort_same (D := D) h1 g1 (sort_int h2) (sort_named hD g2)) (by decide)
  | _, _, _, _, _, .uint h1 h2 h3, g => by
    cases g with
    | bool g1 g2 => exact absurd (sort_same (D := D) h1 g1 (sort_uint hD h2) sort_bool) (by decide)
    | int g1 g2 _ => exact absurd (sort_same (D := D) h1 g1 (sort_uint hD h2) (sort_int g2)) (by decide)
    | uint g1 g2 g3 => obtain ⟨rfl, _⟩ := fieldAt_unique h1 g1; rw [hD.uint h3 g3]
    | float g1 g2 _ => exact absurd (sort_same (D := D) h1 g1 (sort_uint hD h2) (sort_float hD g2)) (by decide)
    | string g1 => exact absurd (sort_same (D := D) h1 g1 (sort_uint hD h2) (sort_string hD)) (by decide)
    | bytes g1 => exact absurd (sort_same (D := D) h1 g1 (sort_uint hD h2) (sort_bytes hD)) (by decide)
    | enum g1 g2 _ _ _ _ => exact absurd (sort_same (D := D) h1 g1 (sort_uint hD h2) (sort_named hD g2)) (by decide)
    | message g1 g2 _ _ _ _ => exact absurd (sort_same (D := D) h1 g1 (sort_uint hD h2) (sort_named hD g2)) (by decide)
  | _, _, _, _, _, .float h1 h2 h3, g => by
    cases g with
    | bool g1 g2 => exact absurd (sort_same (D := D) h1 g1 (sort_float hD h2) sort_bool) (by decide)
    | int g1 g2 _ => exact absurd (sort_same (D := D) h1 g1 (sort_float hD h2) (sort_int g2)) (by decide)
    | uint g1 g2 _ => exact absurd (sort_same (D := D) h1 g1 (sort_float hD h2) (sort_uint hD g2)) (by decide)
    | float g1 g2 g3 => rw [h3] at g3; cases g3; rfl
    | string g1 => exact absurd (sort_same (D := D) h1 g1 (sort_float hD h2) (sort_string hD)) (by decide)
    | bytes g1 => exact absurd (sort_same (D := D) h1 g1 (sort_float hD h2) (sort_bytes hD)) (by decide)
    | enum g1 g2 _ _ _ _ => exact absurd (sort_same (D := D) h1 g1 (sort_float hD h2) (sort_named hD g2)) (by decide)
    | message g1 g2 _ _ _ _ => exact absurd (sort_same (D := D) h1 g1 (sort_float hD h2) (sort_named hD g2)) (by decide)
  | _, _, _, _, _, .string h1, g => by
    cases g with
    | bool g1 g2 => exact absurd (sort_same (D := D) h1 g1 (sort_string hD) sort_bool) (by decide)
    | int g1 g2 _ => exact absurd (sort_same (D := D) h1 g1 (sort_string hD) (sort_int g2)) (by decide)
    | uint g1 g2 _ => exact absurd (sort_same (D := D) h1 g1 (sort_string hD) (sort_uint hD g2)) (by decide)
    | float g1 g2 _ => exact absurd (sort_same (D := D) h1 g1 (sort_string hD) (sort_float hD g2)) (by decide)
    | string g1 => rfl
    | bytes g1 => exact absurd (sort_same (D := D) h1 g1 (sort_string hD) (sort_bytes hD)) (by decide)
    | enum g1 g2 _ _ _ _ => exact absurd (sort_same (D := D) h1 g1 (sort_string hD) (sort_named hD g2)) (by decide)
    | message g1 g2 _ _ _ _ => exact absurd (sort_same (D := D) h1 g1 (sort_string hD) (sort_named hD g2)) (by decide)
  | _, _, _, _, _, .bytes h1, g => by
    cases g with
    | bool g1 g2 => exact absurd (sort_same (D := D) h1 g1 (sort_bytes hD) sort_bool) (by decide)
    | int g1 g2 _ => exact absurd (sort_same (D := D) h1 g1 (sort_bytes hD) (sort_int g2)) (by decide)
    | uint g1 g2 _ => exact absurd (sort_same (D := D) h1 g1 (sort_bytes hD) (sort_uint hD g2)) (by decide)
    | float g1 g2 _ => exact absurd (sort_same (D := D) h1 g1 (sort_bytes hD) (sort_float hD g2)) (by decide)
    | string g1 => exact absurd (sort_same (D := D) h1 g1 (sort_bytes hD) (sort_string hD)) (by decide)
    | bytes g1 => rfl
    | enum g1 g2 _ _ _ _ => exact absurd (sort_same (D := D) h1 g1 (sort_bytes hD) (sort_named hD g2)) (by decide)
    | message g1 g2 _ _ _ _ => exact absurd (sort_same (D := D) h1 g1 (sort_bytes hD) (sort_named hD g2)) (by decide)
  | _, _, _, _, _, .enum h1 h2 h3 h4 h5 h6, g => by
    cases g with
    | bool g1 g2 => exact absurd (sort_same (D := D) h1 g1 (sort_named hD h2) sort_bool) (by decide)
    | int g1 g2 _ => exact absurd (sort_same (D := D) h1 g1 (sort_named hD h2) (sort_int g2)) (by decide)
    | uint g1 g2 _ => exact absurd (sort_same (D := D) h1 g1 (sort_named hD h2) (sort_uint hD g2)) (by decide)
    | float g1 g2 _ => exact absurd (sort_same (D := D) h1 g1 (sort_named hD h2) (sort_float hD g2)) (by decide)
    | string g1 => exact absurd (sort_same (D := D) h1 g1 (sort_named hD h2) (sort_string hD)) (by decide)
    | bytes g1 => exact absurd (sort_same (D := D) h1 g1 (sort_named hD h2) (sort_bytes hD)) (by decide)
    | enum g1 g2 g3 g4 g5 g6 =>
      obtain ⟨rfl, rfl⟩ := fieldAt_unique h1 g1
      obtain rfl := declared_fun h3 g3
      obtain rfl := refers_unique h4 g4
      rw [firstMember_unique h6 g6]
      rfl
    | message g1 g2 g3 g4 g5 g6 =>
      obtain ⟨rfl, rfl⟩ := fieldAt_unique h1 g1
      obtain rfl := declared_fun h3 g3
      obtain rfl := refers_unique h4 g4
      rw [h5] at g5
      cases g5
  | _, _, _, _, _, .message h1 h2 h3 h4 h5 h6, g => by
    cases g with
    | bool g1 g2 => exact absurd (sort_same (D := D) h1 g1 (sort_named hD h2) sort_bool) (by decide)
    | int g1 g2 _ => exact absurd (sort_same (D := D) h1 g1 (sort_named hD h2) (sort_int g2)) (by decide)
    | uint g1 g2 _ => exact absurd (sort_same (D := D) h1 g1 (sort_named hD h2) (sort_uint hD g2)) (by decide)
    | float g1 g2 _ => exact absurd (sort_same (D := D) h1 g1 (sort_named hD h2) (sort_float hD g2)) (by decide)
    | string g1 => exact absurd (sort_same (D := D) h1 g1 (sort_named hD h2) (sort_string hD)) (by decide)
    | bytes g1 => exact absurd (sort_same (D := D) h1 g1 (sort_named hD h2) (sort_bytes hD)) (by decide)
    | enum g1 g2 g3 g4 g5 g6 =>
      obtain ⟨rfl, rfl⟩ := fieldAt_unique h1 g1
      obtain rfl := declared_fun h3 g3
      obtain rfl := refers_unique h4 g4
      rw [h5] at g5
      cases g5
    | message g1 g2 g3 g4 g5 g6 =>
      obtain ⟨rfl, rfl⟩ := fieldAt_unique h1 g1
      obtain rfl := declared_fun h3 g3
      obtain rfl := refers_unique h4 g4
      simp only [OptVal.bare]
      rw [h6.same hD g6]
termination_by structural _ _ _ _ _ h => h
theorem FieldValue.same {D : Dialect} (hD : D.Definite) {F r} : ∀ {op f l v w}, FieldValue D F r op f l v →
    FieldValue D F r op f l w → v.bare = w.bare
  | _, _, _, _, _, .one h1 h2, g => by
    cases g with
    | one g1 g2 => exact h2.same hD g2
    | many g1 g2 g3 => exact absurd (fieldAt_unique h1 g1).2 (by decide)
    | single g1 g2 g3 => exact absurd (fieldAt_unique h1 g1).2 (by decide)
  | _, _, _, _, _, .many h1 h2 h3, g => by
    cases g with
    | one g1 g2 => exact absurd (fieldAt_unique h1 g1).2 (by decide)
    | many g1 g2 g3 => simp only [OptVal.bare]; rw [h3.same hD g3]
    | single g1 g2 g3 => exact absurd h2 (hD.single g2)
  | _, _, _, _, _, .single h1 h2 h3, g => by
    cases g with
    | one g1 g2 => exact absurd (fieldAt_unique h1 g1).2 (by decide)
    | many g1 g2 g3 => exact absurd g2 (hD.single h2)
    | single g1 g2 g3 => simp only [OptVal.bare, OptVal.bareAll]; rw [h3.same hD g3]
termination_by structural _ _ _ _ _ h => h
theorem ElemsOf.same {D : Dialect} (hD : D.Definite) {F r} : ∀ {f ls vs ws}, ElemsOf D F r f ls vs →
    ElemsOf D F r f ls ws → OptVal.bareAll vs = OptVal.bareAll ws
  | _, _, _, _, .nil, g => by cases g; rfl
  | _, _, _, _, .cons h1 h2, g => by
    cases g with
    | cons g1 g2 => simp only [OptVal.bareAll]; rw [h1.same hD g1, h2.same hD g2]
termination_by structural _ _ _ _ h => h
theorem ItemsOf.same {D : Dialect} (hD : D.Definite) {F r} : ∀ {m ls vs ws}, ItemsOf D F r m ls vs →
    ItemsOf D F r m ls ws → OptVal.bareItems vs = OptVal.bareItems ws
  | _, _, _, _, .nil, g => by cases g; rfl
  | _, _, _, _, .cons h1 h2 h3, g => by
    cases g with
    | cons g1 g2 g3 =>
      obtain rfl := firstMember_unique h1 g1
      simp only [OptVal.bareItems, OptVal.bareItem]
      rw [h2.same hD g2, h3.same hD g3]
termination_by structural _ _ _ _ h => h
end

/-! ### Where fields are declared -/

theorem nestsAll_mem : ∀ {es : List Elem}, nestsAll es = true → ∀ e ∈ es, e.nests = true
  | [], _, _, h => by cases h
  | e :: es, h, x, hx => by
    simp only [nestsAll, Bool.and_eq_true] at h
    rcases List.mem_cons.mp hx with rfl | hx
    · exact h.1
    · exact nestsAll_mem h.2 x hx

theorem nests_children {f : ProtoFile} (hf : ∀ e ∈ f.elems, e.nests = true) : ∀ {path es}, f.childrenAt path = some es →
    ∀ e ∈ es, e.nests = true := by
  intro path
  induction path with
  | nil => intro es h e he; simp only [ProtoFile.childrenAt, Option.some.injEq] at h; subst h; exact hf e he
  | cons i rest ih =>
    intro es h e he
    simp only [ProtoFile.childrenAt, Option.map_eq_some_iff, Option.bind_eq_some_iff] at h
    obtain ⟨x, ⟨xs, h1, h2⟩, rfl⟩ := h
    have := ih h1 x (List.mem_of_getElem? h2)
    rcases x with ⟨pos, cm, k, cs⟩
    simp only [Elem.nests, Bool.and_eq_true] at this
    exact nestsAll_mem this.2 e he

/-- Where an element other than an option stands, there is a scope. -/
theorem nests_scope {f : ProtoFile} (hf : ∀ e ∈ f.elems, e.nests = true) : ∀ {rest i e}, RootedPath f rest →
    f.elemAt (i :: rest) = some e → e.kind.isOption = false → ∃ s, f.scopeAt rest = some s := by
  intro rest
  induction rest with
  | nil => intro i e _ _ _; exact ⟨_, rfl⟩
  | cons j rest ih =>
    intro i e hr he ho
    obtain ⟨h1, x, k, hx, hk⟩ := hr
    have hxo : x.kind.isOption = false := by
      cases hkd : x.kind <;> simp only [hkd, wrapKind] at hk <;> first | rfl | cases hk
    obtain ⟨s, hs⟩ := ih h1 hx hxo
    simp only [ProtoFile.elemAt, Option.bind_eq_some_iff] at he hx
    obtain ⟨es, he1, he2⟩ := he
    obtain ⟨xs, hx1, hx2⟩ := hx
    have hn := nests_children hf hx1 x (List.mem_of_getElem? hx2)
    have hes : x.children = es := by
      simp only [ProtoFile.childrenAt, hx1, Option.bind_some, hx2, Option.map_some, Option.some.injEq] at he1
      exact he1
    have hxe : f.elemAt (j :: rest) = some x := by simp only [ProtoFile.elemAt, hx1, Option.bind_some, hx2]
    rcases x with ⟨pos, cm, kd, cs⟩
    simp only [Elem.children] at hes
    subst hes
    have hm : kd.hasMembers = true := by
      simp only [Elem.nests, Bool.and_eq_true, Bool.or_eq_true, List.all_eq_true] at hn
      rcases hn.1 with h | h
      · exact h
      · rw [h e (List.mem_of_getElem? he2)] at ho; cases ho
    simp only [ProtoFile.scopeAt, hs, hxe]
    have hk' : wrapKind kd = some k := hk
    show ∃ s', kd.memberScope s = some s'
    cases kd <;> simp only [Kind.hasMembers, wrapKind] at hm hk' <;> first | cases hm | skip
    all_goals first | cases hk'; done | skip
    · next n b => cases b <;> exact ⟨_, rfl⟩
    all_goals exact ⟨_, rfl⟩

theorem field_declared {r : Reg} (hn : ∀ (i : Nat) (f : ProtoFile), r.heap[i]? = some f → ∀ e ∈ f.elems, e.nests = true)
    {p : Ptr} (hu : Under r p) (hf : IsFieldAt r p) : ∃ s, Declared r s p := by
  obtain ⟨⟨f, h1, h2⟩, _⟩ := hu
  obtain ⟨n, b, c, d, x, hk⟩ := hf
  rcases p with ⟨fi, path⟩
  simp only at h1 h2
  simp only [Reg.kind, Reg.elem, h1, Option.bind_some, Option.map_eq_some_iff] at hk
  obtain ⟨e, he, hek⟩ := hk
  cases path with
  | nil => cases he
  | cons i rest =>
    obtain ⟨s, hs⟩ := nests_scope (hn _ _ h1) h2 he (by rw [hek]; rfl)
    refine ⟨s ++ dot :: n, f, h1, ?_⟩
    rw [List.tail_cons] at hs
    simp only [ProtoFile.fqn, hs, he, Option.bind_some, hek, Kind.declName]

end Protoast
