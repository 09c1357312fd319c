import Verif.Proof.ValueSpec
import Verif.Proof.Later
/-
  Printing of option values.
-/
namespace Protoast

theorem joinComma_joined : ∀ ts : List Str, joinComma ts = joined b!", " ts
  | [] => rfl
  | [s] => by simp [joinComma, joined]
  | s :: t :: rest => by
    have ih := joinComma_joined (t :: rest)
    simp only [joinComma]
    rw [ih]
    simp only [joined, List.intersperse_cons_cons, List.flatten_cons, List.append_assoc]

theorem matching_map {α β} {R : α → β → Prop} (f : α → β) (h : ∀ a, R a (f a)) : ∀ l : List α, Matching R l (l.map f)
  | [] => .nil
  | a :: l => .cons (h a) (matching_map f h l)

theorem matching_eq_map {α β} {R : α → β → Prop} {f : α → β} (hf : ∀ a b, R a b → b = f a) {l : List α} {l' : List β}
    (h : Matching R l l') : l' = l.map f := by
  induction h with
  | nil => rfl
  | cons h1 _ ih => rw [List.map_cons, ih, hf _ _ h1]

mutual
/-- The enum constants inside the value are constants of enums. -/
def EnumsOK (r : Reg) : OptVal → Prop
  | .enum _ _ _ p => ∃ n v, EnumConst r p n v
  | .array _ vs => EnumsOKs r vs
  | .map _ _ items => EnumsOKItems r items
  | _ => True
def EnumsOKs (r : Reg) : List OptVal → Prop
  | [] => True
  | v :: vs => EnumsOK r v ∧ EnumsOKs r vs
def EnumsOKItems (r : Reg) : List (Str × OptVal) → Prop
  | [] => True
  | v :: vs => EnumsOKItem r v ∧ EnumsOKItems r vs
def EnumsOKItem (r : Reg) : Str × OptVal → Prop
  | (_, v) => EnumsOK r v
end

mutual
theorem toStr_shows (F : FloatOps) {r : Reg} : (v : OptVal) → EnumsOK r v → Shows F r v (v.toStr F r)
  | .bool _ _ true, _ => .yes
  | .bool _ _ false, _ => .no
  | .int _ _ v, _ => .int (itoa_decimal v)
  | .uint _ _ n, _ => .uint (formatUint_decimal n)
  | .float _ _ _, _ => .float
  | .string _ _ _, _ => .string
  | .bytes _ _ bs, _ => by
    have := matching_map (R := fun (c : UInt8) t => Decimal t c.toNat) (fun c => formatUint c.toNat)
      (fun c => formatUint_decimal _) bs
    exact .bytes this
  | .enum _ _ _ p, h => by
    unfold EnumsOK at h
    obtain ⟨n, v, h⟩ := h
    obtain ⟨x, hx⟩ := h.2
    have : OptVal.toStr F r (.enum ‹_› ‹_› ‹_› p) = n ++ b!"." ++ v := by
      unfold OptVal.toStr
      rw [h.1, hx]
    rw [this]
    exact .enum h
  | .array _ vs, h => by
    unfold EnumsOK at h
    unfold OptVal.toStr
    rw [joinComma_joined]
    exact .array (toStrs_shows F vs h)
  | .map _ _ items, h => by
    unfold EnumsOK at h
    unfold OptVal.toStr
    rw [joinComma_joined]
    exact .map (toStrItems_shows F items h)
theorem toStrs_shows (F : FloatOps) {r : Reg} : (vs : List OptVal) → EnumsOKs r vs → ShowsAll F r vs (OptVal.toStrs F r vs)
  | [], _ => by unfold OptVal.toStrs; exact .nil
  | v :: vs, h => by
    unfold EnumsOKs at h
    unfold OptVal.toStrs
    exact .cons (toStr_shows F v h.1) (toStrs_shows F vs h.2)
theorem toStrItems_shows (F : FloatOps) {r : Reg} : (vs : List (Str × OptVal)) → EnumsOKItems r vs →
    ShowsItems F r vs (OptVal.toStrItems F r vs)
  | [], _ => by unfold OptVal.toStrItems; exact .nil
  | (k, v) :: vs, h => by
    unfold EnumsOKItems EnumsOKItem at h
    unfold OptVal.toStrItems OptVal.toStrItem
    exact .cons (toStr_shows F v h.1) (toStrItems_shows F vs h.2)
end

theorem enumConst_unique {r : Reg} {p n v n' v'} (h : EnumConst r p n v) (g : EnumConst r p n' v') : n = n' ∧ v = v' := by
  obtain ⟨h1, _, h2⟩ := h
  obtain ⟨g1, _, g2⟩ := g
  rw [h1] at g1
  rw [h2] at g2
  cases g1
  cases g2
  exact ⟨rfl, rfl⟩

theorem matching_unique {α β} {R : α → β → Prop} (hR : ∀ a b b', R a b → R a b' → b = b') {l : List α} {m m' : List β}
    (h : Matching R l m) (g : Matching R l m') : m = m' := by
  induction h generalizing m' with
  | nil => cases g; rfl
  | cons h1 _ ih => cases g with | cons g1 g2 => rw [hR _ _ _ h1 g1, ih g2]

mutual
theorem Shows.unique {F : FloatOps} {r : Reg} {v s t} : Shows F r v s → Shows F r v t → s = t
  | .yes, .yes => rfl
  | .no, .no => rfl
  | .int h, .int g => decimalInt_unique h g
  | .uint h, .uint g => decimal_unique h g
  | .float, .float => rfl
  | .string, .string => rfl
  | .bytes h, .bytes g => by
    have := matching_unique (R := fun (c : UInt8) t => Decimal t c.toNat) (fun _ _ _ h g => decimal_unique h g) h g
    rw [this]
  | .enum h, .enum g => by rw [(enumConst_unique h g).1, (enumConst_unique h g).2]
  | .array h, .array g => by rw [h.unique g]
  | .map h, .map g => by rw [h.unique g]
theorem ShowsAll.unique {F : FloatOps} {r : Reg} {v s t} : ShowsAll F r v s → ShowsAll F r v t → s = t
  | .nil, .nil => rfl
  | .cons h1 h2, .cons g1 g2 => by rw [h1.unique g1, h2.unique g2]
theorem ShowsItems.unique {F : FloatOps} {r : Reg} {v s t} : ShowsItems F r v s → ShowsItems F r v t → s = t
  | .nil, .nil => rfl
  | .cons h1 h2, .cons g1 g2 => by rw [h1.unique g1, h2.unique g2]
end

theorem EnumConst.later {r r' : Reg} (hl : Later r r') {p n v} (h : EnumConst r p n v) : EnumConst r' p n v := by
  obtain ⟨h1, x, h2⟩ := h
  refine ⟨?_, x, ?_⟩
  · rw [hl.kind (kind_file h1)]; exact h1
  · rw [hl.kind (kind_file h2)]; exact h2

mutual
theorem Shows.later {F : FloatOps} {r r' : Reg} (hl : Later r r') {v s} : Shows F r v s → Shows F r' v s
  | .yes => .yes
  | .no => .no
  | .int h => .int h
  | .uint h => .uint h
  | .float => .float
  | .string => .string
  | .bytes h => .bytes h
  | .enum h => .enum (h.later hl)
  | .array h => .array (h.later hl)
  | .map h => .map (h.later hl)
theorem ShowsAll.later {F : FloatOps} {r r' : Reg} (hl : Later r r') {v s} : ShowsAll F r v s → ShowsAll F r' v s
  | .nil => .nil
  | .cons h g => .cons (h.later hl) (g.later hl)
theorem ShowsItems.later {F : FloatOps} {r r' : Reg} (hl : Later r r') {v s} : ShowsItems F r v s → ShowsItems F r' v s
  | .nil => .nil
  | .cons h g => .cons (h.later hl) (g.later hl)
end

mutual
theorem EnumsOK.later {r r' : Reg} (hl : Later r r') : (v : OptVal) → EnumsOK r v → EnumsOK r' v
  | .bool _ _ _, _ | .int _ _ _, _ | .uint _ _ _, _ | .float _ _ _, _ | .string _ _ _, _ | .bytes _ _ _, _ => by
    unfold EnumsOK; trivial
  | .enum _ _ _ p, h => by
    unfold EnumsOK at h ⊢
    obtain ⟨n, v, h⟩ := h
    exact ⟨n, v, h.later hl⟩
  | .array _ vs, h => by
    unfold EnumsOK at h ⊢
    exact EnumsOKs.later hl vs h
  | .map _ _ items, h => by
    unfold EnumsOK at h ⊢
    exact EnumsOKItems.later hl items h
theorem EnumsOKs.later {r r' : Reg} (hl : Later r r') : (v : List OptVal) → EnumsOKs r v → EnumsOKs r' v
  | [], _ => by unfold EnumsOKs; trivial
  | v :: vs, h => by
    unfold EnumsOKs at h ⊢
    exact ⟨EnumsOK.later hl v h.1, EnumsOKs.later hl vs h.2⟩
theorem EnumsOKItems.later {r r' : Reg} (hl : Later r r') : (v : List (Str × OptVal)) → EnumsOKItems r v →
    EnumsOKItems r' v
  | [], _ => by unfold EnumsOKItems; trivial
  | (k, v) :: vs, h => by
    unfold EnumsOKItems EnumsOKItem at h ⊢
    exact ⟨EnumsOK.later hl v h.1, EnumsOKItems.later hl vs h.2⟩
end

theorem firstMember_enum {r : Reg} {q vp : Ptr} {n name : Str} (hk : r.kind q = some (.enum n))
    (h : FirstMember r q valueSel name vp) : EnumConst r vp n name := by
  obtain ⟨es, i, e, h1, rfl, h3, h4, h5, _⟩ := h
  refine ⟨hk, ?_⟩
  have : r.kind ⟨q.file, i :: q.path⟩ = some e.kind := by
    simp only [Reg.children, Option.bind_eq_some_iff] at h1
    obtain ⟨f, hf, hc⟩ := h1
    simp only [Reg.kind, Reg.elem, hf, Option.bind_some, ProtoFile.elemAt, hc, h3, Option.map_some]
  rw [this]
  cases hk' : e.kind <;> rw [hk'] at h4 h5 <;> simp [valueSel] at h4
  simp only [Kind.declName, Option.some.injEq] at h5
  subst h5
  exact ⟨_, rfl⟩

mutual
theorem ValueOf.enumsOK {D F r op f l v} : ValueOf D F r op f l v → EnumsOK r v
  | .bool _ _ | .int _ _ _ | .uint _ _ _ | .float _ _ _ | .string _ | .bytes _ => by unfold EnumsOK; trivial
  | .enum _ _ _ _ h5 h6 => by unfold EnumsOK; exact ⟨_, _, firstMember_enum h5 h6⟩
  | .message _ _ _ _ _ h => by unfold EnumsOK; exact h.enumsOK
theorem FieldValue.enumsOK {D F r op f l v} : FieldValue D F r op f l v → EnumsOK r v
  | .one _ h => h.enumsOK
  | .many _ _ h => by unfold EnumsOK; exact h.enumsOK
  | .single _ _ h => by unfold EnumsOK EnumsOKs EnumsOKs; exact ⟨h.enumsOK, trivial⟩
theorem ElemsOf.enumsOK {D F r f l v} : ElemsOf D F r f l v → EnumsOKs r v
  | .nil => by unfold EnumsOKs; trivial
  | .cons h g => by unfold EnumsOKs; exact ⟨h.enumsOK, g.enumsOK⟩
theorem ItemsOf.enumsOK {D F r m l v} : ItemsOf D F r m l v → EnumsOKItems r v
  | .nil => by unfold EnumsOKItems; trivial
  | .cons _ h g => by unfold EnumsOKItems EnumsOKItem; exact ⟨h.enumsOK, g.enumsOK⟩
end

/-! ### Arrays of integers -/

theorem decimal_digits {s n} (h : Decimal s n) : ∀ c ∈ s, 48 ≤ c.toNat ∧ c.toNat ≤ 57 := by
  induction h with
  | digit hd =>
    intro c hc
    simp only [List.mem_singleton] at hc
    rw [hc, ofNat_digit hd]; omega
  | snoc _ _ hd ih =>
    intro c hc
    rw [List.mem_append] at hc
    rcases hc with hc | hc
    · exact ih c hc
    · simp only [List.mem_singleton] at hc
      rw [hc, ofNat_digit hd]; omega

theorem decimalInt_comma {s v} (h : DecimalInt s v) : (44 : UInt8) ∉ s ∧ s ≠ [] := by
  rcases h with ⟨_, h⟩ | ⟨_, ds, rfl, h⟩
  · refine ⟨fun hc => ?_, decimal_pos_length h⟩
    have := decimal_digits h _ hc
    revert this; decide
  · refine ⟨fun hc => ?_, by simp⟩
    rw [List.mem_cons] at hc
    rcases hc with hc | hc
    · revert hc; decide
    · have := decimal_digits h _ hc
      revert this; decide

theorem split_at {c : UInt8} : ∀ {s t x y : Str}, c ∉ s → c ∉ t → s ++ c :: x = t ++ c :: y → s = t ∧ x = y := by
  intro s
  induction s with
  | nil =>
    intro t x y _ ht h
    cases t with
    | nil => simp at h; exact ⟨rfl, h⟩
    | cons a t => simp at h; exact absurd (h.1 ▸ List.mem_cons_self) ht
  | cons a s ih =>
    intro t x y hs ht h
    cases t with
    | nil => simp at h; exact absurd (h.1 ▸ List.mem_cons_self) hs
    | cons b t =>
      simp only [List.cons_append, List.cons.injEq] at h
      have := ih (fun hc => hs (List.mem_cons_of_mem _ hc)) (fun hc => ht (List.mem_cons_of_mem _ hc)) h.2
      exact ⟨by rw [h.1, this.1], this.2⟩

theorem joined_inj : ∀ {ss ts : List Str}, (∀ s ∈ ss, (44 : UInt8) ∉ s ∧ s ≠ []) → (∀ s ∈ ts, (44 : UInt8) ∉ s ∧ s ≠ []) →
    joinComma ss = joinComma ts → ss = ts := by
  intro ss
  induction ss with
  | nil =>
    intro ts _ ht h
    cases ts with
    | nil => rfl
    | cons t ts =>
      exfalso
      have hne := (ht t List.mem_cons_self).2
      cases ts with
      | nil => simp only [joinComma] at h; exact hne h.symm
      | cons u us => simp [joinComma] at h
  | cons s ss ih =>
    intro ts hs ht h
    have hs1 := hs s List.mem_cons_self
    cases ts with
    | nil =>
      exfalso
      cases ss with
      | nil => simp only [joinComma] at h; exact hs1.2 h
      | cons u us => simp [joinComma] at h
    | cons t ts =>
      have ht1 := ht t List.mem_cons_self
      cases ss with
      | nil =>
        cases ts with
        | nil => simp only [joinComma] at h; rw [h]
        | cons u us =>
          exfalso
          simp only [joinComma] at h
          apply hs1.1
          rw [h]
          simp
      | cons u us =>
        cases ts with
        | nil =>
          exfalso
          simp only [joinComma] at h
          apply ht1.1
          rw [← h]
          simp
        | cons w ws =>
          simp only [joinComma, List.append_assoc, List.cons_append, List.nil_append] at h
          obtain ⟨e1, e2⟩ := split_at hs1.1 ht1.1 h
          simp only [List.cons.injEq, true_and] at e2
          rw [e1, ih (fun s h => hs s (List.mem_cons_of_mem _ h)) (fun s h => ht s (List.mem_cons_of_mem _ h)) e2]

end Protoast
