import Verif.OptExamples
import Verif.Proof.Shows
import Verif.Props.Options
/-
  C49–C51, C59: the values of options.
-/
namespace Protoast.Props
open Protoast

theorem named_of_clean {c} (hc : CleanReachable WFFile c) : Named c.reg :=
  ⟨reachable_sound (clean_reachable hc), fun _ _ => scope_declared hc⟩

theorem cO_clean : CleanReachable WFFile Ex.cO :=
  ⟨Ex.WO, 5, _, Ex.opsO, Ex.WO_wf, Ex.WO_ok, Ex.onlyO_sat Ex.WO_wf Ex.opsO_only, Ex.loadsB_spec (by decide +kernel), rfl⟩

/-- Checks for the examples. -/
def fieldB (r : Reg) (f : Ptr) (typ : Str) (rep : Bool) : Bool :=
  match r.kind f with
  | some (.normalField _ t _ g _) => decide (t = typ ∧ g = rep)
  | _ => false
theorem fieldB_spec {r f typ rep} (h : fieldB r f typ rep = true) : FieldAt r f typ rep := by
  unfold fieldB at h
  split at h
  · next hk =>
    rw [decide_eq_true_eq] at h
    obtain ⟨rfl, rfl⟩ := h
    exact ⟨_, _, _, hk⟩
  · cases h

def optB (r : Reg) (q : Ptr) (P : Literal → Bool) : Bool :=
  match r.kind q with
  | some (.option _ l) => P l
  | _ => false
theorem optB_spec {r q P} (h : optB r q P = true) : ∃ n l, r.kind q = some (.option n l) ∧ P l = true := by
  unfold optB at h
  split at h
  · next n l hk => exact ⟨n, l, hk, h⟩
  · cases h

/-! ### C49 -/

/-- C49 as promised: if the literal has a value for the field of the option, that is what `Value` returns. -/
def C49_statement : Prop :=
  ∀ F c, CleanReachable WFFile c → ∀ a q cls f, Node.option a q cls f ∈ c.pool →
    ∀ name lit v, c.reg.kind q = some (.option name lit) → FieldValue .protobuf F c.reg (some q) f lit v →
    ∃ v' r', Option.value F q f c.reg = (.ok v', r') ∧ FieldValue .protobuf F c.reg (some q) f lit v'

/-- The option values of the dialect that is supported: `Value` succeeds and is the value of the literal.
    Missing for C49: `uint32` and `uint64`, octal and hexadecimal literals, repeated fields of enum and message
    type, single literals for repeated fields, items for map fields and members of oneofs. -/
theorem C49_partial {F c a q cls f name lit v} (hc : CleanReachable WFFile c) (_ho : Node.option a q cls f ∈ c.pool)
    (hk : c.reg.kind q = some (.option name lit)) (h : FieldValue .supported F c.reg (some q) f lit v) :
    ∃ v' r', Option.value F q f c.reg = (.ok v', r') ∧ FieldValue .supported F c.reg (some q) f lit v' ∧
      FieldValue .protobuf F c.reg (some q) f lit v' := by
  obtain ⟨o, hi, _⟩ := reachable_inv (clean_reachable hc)
  obtain ⟨v', r', h1, h2⟩ := buildField_complete F supported_accepted (named_of_clean hc) lit _ _ _ o _ hi (.refl _) h
  refine ⟨v', r', ?_, h2, h2.mono supported_protobuf⟩
  simp only [Option.value, M.bind_apply, M.get_apply, hk]
  exact h1

/-- What `Value` returns in general, including the literals it reads although they are wrong: a value of the
    variant of the field's type. It never returns a value of another variant, whatever the literal. -/
theorem C49_sound {F c a q cls f s name lit v r'} (hc : CleanReachable WFFile c) (_ho : Node.option a q cls f ∈ c.pool)
    (hd : Declared c.reg s f) (hk : c.reg.kind q = some (.option name lit))
    (h : Option.value F q f c.reg = (.ok v, r')) : FieldValue .accepted F c.reg (some q) f lit v := by
  obtain ⟨o, hi, _⟩ := reachable_inv (clean_reachable hc)
  simp only [Option.value, M.bind_apply, M.get_apply, hk] at h
  exact (build_sound F (named_of_clean hc) lit _ _ _ o _ _ _ _ hi (.refl _) hd h).2 rfl

/-- `Value` succeeds exactly on the literals of the accepted dialect. -/
theorem C49_accepts {F c a q cls f s name lit} (hc : CleanReachable WFFile c) (ho : Node.option a q cls f ∈ c.pool)
    (hd : Declared c.reg s f) (hk : c.reg.kind q = some (.option name lit)) :
    (∃ v r', Option.value F q f c.reg = (.ok v, r')) ↔ ∃ v, FieldValue .accepted F c.reg (some q) f lit v := by
  constructor
  · rintro ⟨v, r', h⟩
    exact ⟨v, C49_sound hc ho hd hk h⟩
  · rintro ⟨v, h⟩
    obtain ⟨o, hi, _⟩ := reachable_inv (clean_reachable hc)
    obtain ⟨v', r', h1, _⟩ := buildField_complete F ⟨fun _ _ h => h, fun _ _ _ h => h, fun _ h => h, fun _ _ _ h => h,
      fun _ _ h => h, fun _ h => h, fun _ h => h⟩ (named_of_clean hc) lit _ _ _ o _ hi (.refl _) h
    refine ⟨v', r', ?_⟩
    simp only [Option.value, M.bind_apply, M.get_apply, hk]
    exact h1

/-- C49 is false: the option `limit = 5` of type `uint32` makes `Value` panic. -/
theorem C49_false : ¬ C49_statement := by
  intro h
  obtain ⟨a, hm⟩ := hasOpt_spec (c := Ex.cO) (i := 16) (q := ⟨1, [0, 4, 5]⟩) (cls := ⟨0, [4]⟩) (f := ⟨1, [4, 2]⟩)
    (by decide +kernel)
  have hf : FieldAt Ex.cO.reg ⟨1, [4, 2]⟩ b!"uint32" false := fieldB_spec (by decide +kernel)
  obtain ⟨w, l, hk, hl⟩ := optB_spec (r := Ex.cO.reg) (q := ⟨1, [0, 4, 5]⟩) (P := fun l => l.source == b!"5")
    (by decide +kernel)
  rw [beq_iff_eq] at hl
  obtain ⟨v, r', e, _⟩ := h ⟨fun _ => none, fun _ => []⟩ Ex.cO cO_clean a _ _ _ hm w l (.uint _ l 5) hk
    (.one hf (.uint hf (by simp [Dialect.protobuf])
      ⟨.decimal (by rw [hl]; exact .digit (d := 5) (by omega)), by omega, fun _ => by omega⟩))
  have hp : Ex.isOk (Option.value ⟨fun _ => none, fun _ => []⟩ ⟨1, [0, 4, 5]⟩ ⟨1, [4, 2]⟩ Ex.cO.reg).1 = false := by
    decide +kernel
  rw [e] at hp
  cases hp

/-- `Value` of an option of a signed integer type that is not repeated. -/
theorem value_int {F : FloatOps} {r : Reg} {q f name lit typ} (hk : r.kind q = some (.option name lit))
    (hf : FieldAt r f typ false) (ht : typ ∈ intTypes) : Option.value F q f r =
      match atoi lit.source with
      | some v => (.ok (.int (some q) lit v), r)
      | none => (.panic .badLiteral, r) := by
  obtain ⟨n, s, o, hk'⟩ := hf
  rcases lit with ⟨pos, source, array, om⟩
  simp only [Option.value, M.bind_apply, M.get_apply, hk, buildFromLiteral, hk', Bool.false_and, Bool.false_eq_true,
    if_false, scalarClass_int.mpr ht, Literal.source]
  cases atoi source <;> rfl

/-- `Value` of an option of an unsigned integer type that is not repeated. -/
theorem value_uint {F : FloatOps} {r : Reg} {q f name lit typ} (hk : r.kind q = some (.option name lit))
    (hf : FieldAt r f typ false) (ht : typ ∈ [b!"fixed32", b!"fixed64"]) : Option.value F q f r =
      match parseUint lit.source with
      | some v => (.ok (.uint (some q) lit v), r)
      | none => (.panic .badLiteral, r) := by
  obtain ⟨n, s, o, hk'⟩ := hf
  rcases lit with ⟨pos, source, array, om⟩
  have hs : scalarClass typ = .uint := by
    simp only [List.mem_cons, List.not_mem_nil, or_false] at ht
    rcases ht with rfl | rfl <;> decide
  simp only [Option.value, M.bind_apply, M.get_apply, hk, buildFromLiteral, hk', Bool.false_and, Bool.false_eq_true,
    if_false, hs, Literal.source]
  cases parseUint source <;> rfl

/-- Another way in which C49 is false: the option `size = 010` of type `int64` has the value 8 in the protobuf
    language, and `Value` returns 10. -/
theorem C49_octal_misread : ∃ a q cls f name lit r', Node.option a q cls f ∈ Ex.cO.pool ∧
    Ex.cO.reg.kind q = some (.option name lit) ∧
    Option.value ⟨fun _ => none, fun _ => []⟩ q f Ex.cO.reg = (.ok (.int (some q) lit 10), r') ∧
    FieldValue .protobuf ⟨fun _ => none, fun _ => []⟩ Ex.cO.reg (some q) f lit (.int (some q) lit 8) := by
  obtain ⟨a, hm⟩ := hasOpt_spec (c := Ex.cO) (i := 24) (q := ⟨1, [0, 10, 5]⟩) (cls := ⟨0, [4]⟩) (f := ⟨1, [6, 2]⟩)
    (by decide +kernel)
  have hf : FieldAt Ex.cO.reg ⟨1, [6, 2]⟩ b!"int64" false := fieldB_spec (by decide +kernel)
  obtain ⟨w, l, hk, hl⟩ := optB_spec (r := Ex.cO.reg) (q := ⟨1, [0, 10, 5]⟩) (P := fun l => l.source == b!"010")
    (by decide +kernel)
  rw [beq_iff_eq] at hl
  have h8 : OctalDigits b!"10" 8 := .snoc (d := 0) (.digit (d := 1) (by omega)) (by omega)
  have h8' : SignedBy IntLit l.source 8 := by rw [hl]; exact .plain (n := 8) (.octal h8)
  refine ⟨a, _, _, _, w, l, Ex.cO.reg, hm, hk, ?_, .one hf (.int hf (by decide) ⟨h8', ⟨by omega, by omega⟩, ?_⟩)⟩
  · rw [value_int hk hf (by decide), hl]
    rfl
  · intro _; constructor <;> omega

set_option maxRecDepth 100000 in
theorem cO_cfg : Ex.cO.reg.kind ⟨1, [0, 2, 5]⟩ = some (.option b!"(cfg)" (Ex.msg Ex.po
    [(b!"depth", Ex.lit Ex.po b!"7"), (b!"names", Ex.arr Ex.po [Ex.lit Ex.po b!"n"]),
     (b!"next", Ex.msg Ex.po [(b!"depth", Ex.lit Ex.po b!"8")])])) := by rfl

set_option maxRecDepth 100000 in
theorem cO_Cfg : Ex.cO.reg.kind ⟨1, [3]⟩ = some (.message b!"Cfg" false) := by rfl

/-- A check for the examples: the member `i` of the message at `p` is its first field called `name`. -/
def memberB (r : Reg) (p : Ptr) (name : Str) (i : Nat) : Bool :=
  match r.children p with
  | none => false
  | some es =>
    (match es[i]? with
      | some e => (fieldSel e.kind).isSome && e.kind.declName == some name
      | none => false) &&
    (List.range i).all fun j =>
      match es[j]? with
      | some e => !((fieldSel e.kind).isSome && e.kind.declName == some name)
      | none => true

theorem memberB_spec {r p name i} (h : memberB r p name i = true) : FirstMember r p fieldSel name ⟨p.file, i :: p.path⟩ := by
  unfold memberB at h
  split at h
  · cases h
  · next es hes =>
    rw [Bool.and_eq_true, List.all_eq_true] at h
    obtain ⟨h1, h2⟩ := h
    split at h1
    · next e he =>
      rw [Bool.and_eq_true, beq_iff_eq] at h1
      refine ⟨es, i, e, hes, rfl, he, h1.1, h1.2, ?_⟩
      intro j e' hj he' hs hn
      have := h2 j (List.mem_range.mpr hj)
      simp [he', hs, hn] at this
    · cases h1

/-- Non-vacuity of C49_partial: the option `(cfg) = {depth: 7, names: ["n"], next: {depth: 8}}` of the field `c`. -/
example : ∃ a v r', Node.option a ⟨1, [0, 2, 5]⟩ ⟨0, [4]⟩ ⟨1, [2, 2]⟩ ∈ Ex.cO.pool ∧
    Option.value ⟨fun _ => none, fun _ => []⟩ ⟨1, [0, 2, 5]⟩ ⟨1, [2, 2]⟩ Ex.cO.reg = (.ok v, r') ∧
    ∃ l, FieldValue .protobuf ⟨fun _ => none, fun _ => []⟩ Ex.cO.reg (some ⟨1, [0, 2, 5]⟩) ⟨1, [2, 2]⟩ l v := by
  obtain ⟨a, hm⟩ := hasOpt_spec (c := Ex.cO) (i := 14) (q := ⟨1, [0, 2, 5]⟩) (cls := ⟨0, [4]⟩) (f := ⟨1, [2, 2]⟩)
    (by decide +kernel)
  have hd : FieldAt Ex.cO.reg ⟨1, [0, 3]⟩ b!"int32" false := fieldB_spec (by decide +kernel)
  have hn : FieldAt Ex.cO.reg ⟨1, [1, 3]⟩ b!"string" true := fieldB_spec (by decide +kernel)
  have hx : FieldAt Ex.cO.reg ⟨1, [2, 3]⟩ b!"Cfg" false := fieldB_spec (by decide +kernel)
  have hf : FieldAt Ex.cO.reg ⟨1, [2, 2]⟩ b!"Cfg" false := fieldB_spec (by decide +kernel)
  have hnm : Dialect.supported.named b!"Cfg" false :=
    ⟨by rintro ⟨b, hb⟩; cases b <;> exact absurd hb (by decide), by decide, by decide, rfl⟩
  have kind := cO_Cfg
  have num : ∀ d : Nat, d < 10 → Dialect.supported.int b!"int32" [UInt8.ofNat (48 + d)] d := by
    intro d h
    refine ⟨.plain (.digit h), ⟨by omega, by omega⟩, fun _ => ⟨by omega, by omega⟩⟩
  have hi : ∀ d : Nat, d < 10 → ∀ op pos a m, ValueOf .supported ⟨fun _ => none, fun _ => []⟩ Ex.cO.reg op ⟨1, [0, 3]⟩
      (.mk pos [UInt8.ofNat (48 + d)] a m) (.int op (.mk pos [UInt8.ofNat (48 + d)] a m) d) :=
    fun d h op pos a m => .int hd (by decide) (num d h)
  obtain ⟨v, r', h1, _, h2⟩ := C49_partial (F := ⟨fun _ => none, fun _ => []⟩) cO_clean hm cO_cfg
    (.one hf (.message hf hnm (s := b!".o.cfg") (declared_intro (by decide +kernel))
      (resolve_refers (c := b!".o.Cfg") (by decide +kernel) (by decide +kernel)) kind
      (.cons (memberB_spec (i := 0) (by decide +kernel)) (.one hd (hi 7 (by omega) _ _ _ _))
      (.cons (memberB_spec (i := 1) (by decide +kernel)) (.many hn ⟨rfl, rfl⟩ (.cons (.string hn) .nil))
      (.cons (memberB_spec (i := 2) (by decide +kernel)) (.one hx (.message hx hnm (s := b!".o.Cfg.next")
        (declared_intro (by decide +kernel)) (resolve_refers (c := b!".o.Cfg") (by decide +kernel) (by decide +kernel)) kind
        (.cons (memberB_spec (i := 0) (by decide +kernel)) (.one hd (hi 8 (by omega) _ _ _ _)) .nil))) .nil)))))
  exact ⟨a, v, r', hm, h1, _, h2⟩

/-! ### C50 -/

/-- The literal is an array literal. -/
def IsArray (l : Literal) : Prop := l.source = [] ∧ l.orderedMap = []

/-- C50 as promised. -/
def C50_statement : Prop :=
  ∀ F c, CleanReachable WFFile c → ∀ a q cls f, Node.option a q cls f ∈ c.pool →
    ∀ name lit typ s v r', c.reg.kind q = some (.option name lit) → FieldAt c.reg f typ true → Declared c.reg s f →
    Option.value F q f c.reg = (.ok v, r') →
    (IsArray lit → ∃ vs, v = .array (some q) vs ∧
      Matching (fun l x => ValueOf .accepted F c.reg none f l x) lit.array vs) ∧
    (¬ IsArray lit → ∃ x, v = .array (some q) [x])

theorem elemsOf_matching {D F r f} : ∀ {ls vs}, ElemsOf D F r f ls vs → Matching (fun l x => ValueOf D F r none f l x) ls vs
  | _, _, .nil => .nil
  | _, _, .cons h g => .cons h (elemsOf_matching g)

theorem matching_length {α β} {R : α → β → Prop} {as : List α} {bs : List β} (h : Matching R as bs) :
    as.length = bs.length := by
  induction h with
  | nil => rfl
  | cons _ _ ih => simp only [List.length_cons, ih]

/-- The part of C50 about array literals: one value per element, in order. Missing: a single literal for a repeated
    option, which is dropped. -/
theorem C50_partial {F c a q cls f name lit typ s v r'} (hc : CleanReachable WFFile c)
    (ho : Node.option a q cls f ∈ c.pool) (hk : c.reg.kind q = some (.option name lit))
    (hf : FieldAt c.reg f typ true) (hd : Declared c.reg s f) (h : Option.value F q f c.reg = (.ok v, r')) :
    ∃ vs, v = .array (some q) vs ∧ vs.length = lit.array.length ∧
      Matching (fun l x => ValueOf .accepted F c.reg none f l x) lit.array vs := by
  have key := C49_sound hc ho hd hk h
  cases key with
  | one g _ => exact absurd (fieldAt_unique hf g).2 (by decide)
  | many _ _ g => exact ⟨_, rfl, (matching_length (elemsOf_matching g)).symm, elemsOf_matching g⟩
  | single _ g _ => exact g.elim

/-- C50 is false: the option `(tags) = "single"` for the repeated field `tags` gives the empty array. -/
theorem C50_false : ¬ C50_statement := by
  intro h
  obtain ⟨a, hm⟩ := hasOpt_spec (c := Ex.cO) (i := 18) (q := ⟨1, [0, 7, 5]⟩) (cls := ⟨0, [4]⟩) (f := ⟨1, [1, 2]⟩)
    (by decide +kernel)
  have hf : FieldAt Ex.cO.reg ⟨1, [1, 2]⟩ b!"string" true := fieldB_spec (by decide +kernel)
  obtain ⟨w, l, hk, hl⟩ := optB_spec (r := Ex.cO.reg) (q := ⟨1, [0, 7, 5]⟩)
    (P := fun l => l.source == b!"single" && l.array.isEmpty) (by decide +kernel)
  rw [Bool.and_eq_true, beq_iff_eq, List.isEmpty_iff] at hl
  have hv : Option.value ⟨fun _ => none, fun _ => []⟩ ⟨1, [0, 7, 5]⟩ ⟨1, [1, 2]⟩ Ex.cO.reg =
      (.ok (.array (some ⟨1, [0, 7, 5]⟩) []), Ex.cO.reg) := by
    obtain ⟨n, s, o, hk'⟩ := hf
    rcases l with ⟨pos, source, array, om⟩
    simp only [Literal.array] at hl
    obtain ⟨_, rfl⟩ := hl
    simp only [Option.value, M.bind_apply, M.get_apply, hk, buildFromLiteral, hk', Bool.not_false, Bool.and_true, if_true,
      buildArray]
    rfl
  have := (h ⟨fun _ => none, fun _ => []⟩ Ex.cO cO_clean _ _ _ _ hm w l _ b!".o.tags" _ _ hk hf
    (declared_intro (by decide +kernel)) hv).2 (by rintro ⟨h, _⟩; rw [hl.1] at h; cases h)
  obtain ⟨x, hx⟩ := this
  cases hx

set_option maxRecDepth 100000 in
theorem cO_tags : Ex.cO.reg.kind ⟨1, [0, 1, 5]⟩ = some (.option b!"(tags)" (Ex.arr Ex.po
    [Ex.lit Ex.po b!"p", Ex.lit Ex.po b!"q"])) := by rfl

/-- Non-vacuity of C50_partial: the option `(tags) = ["p", "q"]` of the field `b`. -/
example : ∃ a vs r', Node.option a ⟨1, [0, 1, 5]⟩ ⟨0, [4]⟩ ⟨1, [1, 2]⟩ ∈ Ex.cO.pool ∧
    Option.value ⟨fun _ => none, fun _ => []⟩ ⟨1, [0, 1, 5]⟩ ⟨1, [1, 2]⟩ Ex.cO.reg =
      (.ok (.array (some ⟨1, [0, 1, 5]⟩) vs), r') ∧ vs.length = 2 := by
  obtain ⟨a, hm⟩ := hasOpt_spec (c := Ex.cO) (i := 13) (q := ⟨1, [0, 1, 5]⟩) (cls := ⟨0, [4]⟩) (f := ⟨1, [1, 2]⟩)
    (by decide +kernel)
  have hf : FieldAt Ex.cO.reg ⟨1, [1, 2]⟩ b!"string" true := fieldB_spec (by decide +kernel)
  obtain ⟨v, r', hv, _⟩ := C49_partial (F := ⟨fun _ => none, fun _ => []⟩) cO_clean hm cO_tags
    (.many hf ⟨rfl, rfl⟩ (.cons (.string hf) (.cons (.string hf) .nil)))
  obtain ⟨vs, rfl, h2, _⟩ := C50_partial cO_clean hm cO_tags hf (s := b!".o.tags")
    (declared_intro (by decide +kernel)) hv
  exact ⟨a, vs, r', hm, hv, h2⟩

/-! ### C51 -/

/-- Round trip, signed types: an option set to the decimal rendering of a 64-bit integer has this value, and the value
    prints as the rendering. -/
theorem C51_int {F c a q cls f name lit typ} {v : Int} (_hc : CleanReachable WFFile c)
    (_ho : Node.option a q cls f ∈ c.pool) (hk : c.reg.kind q = some (.option name lit)) (hf : FieldAt c.reg f typ false)
    (ht : typ ∈ intTypes) (hv : Fits64 v) (hl : DecimalInt lit.source v) :
    Option.value F q f c.reg = (.ok (.int (some q) lit v), c.reg) ∧
      ∀ r, OptVal.toStr F r (.int (some q) lit v) = lit.source := by
  refine ⟨?_, fun r => ?_⟩
  · rw [value_int hk hf ht, atoi_iff.mpr ⟨decimalInt_signed hl, hv⟩]
  · unfold OptVal.toStr
    exact decimalInt_unique (itoa_decimal v) hl

/-- Round trip, unsigned types. -/
theorem C51_uint {F c a q cls f name lit typ} {v : Nat} (_hc : CleanReachable WFFile c)
    (_ho : Node.option a q cls f ∈ c.pool) (hk : c.reg.kind q = some (.option name lit)) (hf : FieldAt c.reg f typ false)
    (ht : typ ∈ [b!"fixed32", b!"fixed64"]) (hv : v < 2 ^ 64) (hl : Decimal lit.source v) :
    Option.value F q f c.reg = (.ok (.uint (some q) lit v), c.reg) ∧
      ∀ r, OptVal.toStr F r (.uint (some q) lit v) = lit.source := by
  refine ⟨?_, fun r => ?_⟩
  · rw [value_uint hk hf ht, parseUint_iff.mpr ⟨decimal_numeral hl, hv⟩]
  · unfold OptVal.toStr
    exact decimal_unique (formatUint_decimal v) hl

/-- Rejection, signed types: everything but an optionally signed string of decimal digits within the range of 64 bits
    makes `Value` panic. -/
theorem C51_int_rejects {F c a q cls f name lit typ} (_hc : CleanReachable WFFile c)
    (_ho : Node.option a q cls f ∈ c.pool) (hk : c.reg.kind q = some (.option name lit)) (hf : FieldAt c.reg f typ false)
    (ht : typ ∈ intTypes) (hl : ∀ v, SignedBy Numeral lit.source v → ¬ Fits64 v) :
    Option.value F q f c.reg = (.panic .badLiteral, c.reg) := by
  rw [value_int hk hf ht]
  cases h : atoi lit.source with
  | none => rfl
  | some v => exact absurd (atoi_iff.mp h).2 (hl v (atoi_iff.mp h).1)

/-- Rejection, unsigned types: no sign either. -/
theorem C51_uint_rejects {F c a q cls f name lit typ} (_hc : CleanReachable WFFile c)
    (_ho : Node.option a q cls f ∈ c.pool) (hk : c.reg.kind q = some (.option name lit)) (hf : FieldAt c.reg f typ false)
    (ht : typ ∈ [b!"fixed32", b!"fixed64"]) (hl : ∀ v, Numeral lit.source v → ¬ v < 2 ^ 64) :
    Option.value F q f c.reg = (.panic .badLiteral, c.reg) := by
  rw [value_uint hk hf ht]
  cases h : parseUint lit.source with
  | none => rfl
  | some v => exact absurd (parseUint_iff.mp h).2 (hl v (parseUint_iff.mp h).1)

/-- Every integer has exactly one decimal rendering, and the rendering determines the integer. -/
theorem C51_rendering (v : Int) : (∃ s, DecimalInt s v) ∧ (∀ s t, DecimalInt s v → DecimalInt t v → s = t) ∧
    ∀ s w, DecimalInt s v → DecimalInt s w → v = w :=
  ⟨⟨_, itoa_decimal v⟩, fun _ _ => decimalInt_unique,
    fun _ _ h g => signed_unique (decimalInt_signed h) (decimalInt_signed g)⟩

/-- Non-vacuity of C51: the options `(size) = -12` and `(fix) = 9` of the field `j`. -/
example : ∃ a lit, Node.option a ⟨1, [0, 9, 5]⟩ ⟨0, [4]⟩ ⟨1, [6, 2]⟩ ∈ Ex.cO.pool ∧
    Option.value ⟨fun _ => none, fun _ => []⟩ ⟨1, [0, 9, 5]⟩ ⟨1, [6, 2]⟩ Ex.cO.reg =
      (.ok (.int (some ⟨1, [0, 9, 5]⟩) lit (-12)), Ex.cO.reg) := by
  obtain ⟨a, hm⟩ := hasOpt_spec (c := Ex.cO) (i := 20) (q := ⟨1, [0, 9, 5]⟩) (cls := ⟨0, [4]⟩) (f := ⟨1, [6, 2]⟩)
    (by decide +kernel)
  obtain ⟨w, l, hk, hl⟩ := optB_spec (r := Ex.cO.reg) (q := ⟨1, [0, 9, 5]⟩) (P := fun l => l.source == b!"-12")
    (by decide +kernel)
  rw [beq_iff_eq] at hl
  refine ⟨a, l, hm, (C51_int cO_clean hm hk (typ := b!"int64") (fieldB_spec (by decide +kernel)) (by decide)
    ⟨by omega, by omega⟩ ?_).1⟩
  rw [hl]
  exact .inr ⟨by omega, _, rfl, .snoc (d := 2) (.digit (d := 1) (by omega)) (by omega) (by omega)⟩

example : ∃ a lit, Node.option a ⟨1, [2, 9, 5]⟩ ⟨0, [4]⟩ ⟨1, [8, 2]⟩ ∈ Ex.cO.pool ∧
    Option.value ⟨fun _ => none, fun _ => []⟩ ⟨1, [2, 9, 5]⟩ ⟨1, [8, 2]⟩ Ex.cO.reg =
      (.ok (.uint (some ⟨1, [2, 9, 5]⟩) lit 9), Ex.cO.reg) := by
  obtain ⟨a, hm⟩ := hasOpt_spec (c := Ex.cO) (i := 22) (q := ⟨1, [2, 9, 5]⟩) (cls := ⟨0, [4]⟩) (f := ⟨1, [8, 2]⟩)
    (by decide +kernel)
  obtain ⟨w, l, hk, hl⟩ := optB_spec (r := Ex.cO.reg) (q := ⟨1, [2, 9, 5]⟩) (P := fun l => l.source == b!"9")
    (by decide +kernel)
  rw [beq_iff_eq] at hl
  refine ⟨a, l, hm, (C51_uint cO_clean hm hk (typ := b!"fixed32") (fieldB_spec (by decide +kernel)) (by decide)
    (by omega) ?_).1⟩
  rw [hl]
  exact .digit (d := 9) (by omega)

/-! ### C59 -/

/-- The `String` of an option value is its compositional rendering, at the time `Value` returns and after any further
    calls; and there is only one such rendering. -/
theorem C59_shows {F c a q cls f s name lit v r'} (hc : CleanReachable WFFile c) (ho : Node.option a q cls f ∈ c.pool)
    (hd : Declared c.reg s f) (hk : c.reg.kind q = some (.option name lit))
    (h : Option.value F q f c.reg = (.ok v, r')) (pool : List Node) (ops : List Op) :
    Shows F c.reg v (v.toStr F (Client.exec ⟨r', pool⟩ ops).reg) ∧
    ∀ t, Shows F c.reg v t → t = v.toStr F (Client.exec ⟨r', pool⟩ ops).reg := by
  have hE : EnumsOK c.reg v := (C49_sound hc ho hd hk h).enumsOK
  have hx : CacheExt c.reg r' := by
    have := (RO.optionValue F q f).ext c.reg
    rw [h] at this
    exact this
  have hl : Later c.reg (Client.exec ⟨r', pool⟩ ops).reg := hx.later.trans (exec_later ops ⟨r', pool⟩)
  have h1 := toStr_shows F v hE
  have h2 := toStr_shows F v (hE.later hl)
  have e : v.toStr F c.reg = v.toStr F (Client.exec ⟨r', pool⟩ ops).reg := (h1.later hl).unique h2
  exact ⟨e ▸ h1, fun t ht => e ▸ ht.unique h1⟩

/-- The rendering of a value. -/
def shown : Res OptVal × Reg → Str
  | (.ok v, r) => v.toStr ⟨fun _ => none, fun _ => []⟩ r
  | _ => []

/-- Non-vacuity of C59_shows: the value of the option of the field `c`. -/
example : ∃ a v r', Node.option a ⟨1, [0, 2, 5]⟩ ⟨0, [4]⟩ ⟨1, [2, 2]⟩ ∈ Ex.cO.pool ∧
    Option.value ⟨fun _ => none, fun _ => []⟩ ⟨1, [0, 2, 5]⟩ ⟨1, [2, 2]⟩ Ex.cO.reg = (.ok v, r') ∧
    Shows ⟨fun _ => none, fun _ => []⟩ Ex.cO.reg v b!"{depth: 7, names: [n], next: {depth: 8}}" := by
  obtain ⟨a, hm⟩ := hasOpt_spec (c := Ex.cO) (i := 14) (q := ⟨1, [0, 2, 5]⟩) (cls := ⟨0, [4]⟩) (f := ⟨1, [2, 2]⟩)
    (by decide +kernel)
  have hs : shown (Option.value ⟨fun _ => none, fun _ => []⟩ ⟨1, [0, 2, 5]⟩ ⟨1, [2, 2]⟩ Ex.cO.reg) =
      b!"{depth: 7, names: [n], next: {depth: 8}}" := by decide +kernel
  rcases hv : Option.value ⟨fun _ => none, fun _ => []⟩ ⟨1, [0, 2, 5]⟩ ⟨1, [2, 2]⟩ Ex.cO.reg with ⟨res, r'⟩
  rw [hv] at hs
  cases res with
  | ok v =>
    refine ⟨a, v, r', hm, rfl, ?_⟩
    have := (C59_shows cO_clean hm (s := b!".o.cfg") (declared_intro (by decide +kernel)) cO_cfg hv [] []).1
    rw [show (Client.exec ⟨r', []⟩ []).reg = r' from rfl] at this
    rw [show v.toStr ⟨fun _ => none, fun _ => []⟩ r' = _ from hs] at this
    exact this
  | _ => cases hs

/-- Distinct arrays of integers print differently. -/
theorem C59_int_arrays {F r op op'} {xs ys : List (Option Ptr × Literal × Int)}
    (h : OptVal.toStr F r (.array op (xs.map fun x => .int x.1 x.2.1 x.2.2)) =
      OptVal.toStr F r (.array op' (ys.map fun x => .int x.1 x.2.1 x.2.2))) :
    xs.map (fun x => x.2.2) = ys.map fun x => x.2.2 := by
  have strs : ∀ xs : List (Option Ptr × Literal × Int),
      OptVal.toStrs F r (xs.map fun x => .int x.1 x.2.1 x.2.2) = xs.map fun x => itoa x.2.2 := by
    intro xs
    induction xs with
    | nil => unfold OptVal.toStrs; rfl
    | cons x xs ih => simp only [List.map_cons]; unfold OptVal.toStrs; rw [ih]; unfold OptVal.toStr; rfl
  unfold OptVal.toStr at h
  rw [strs, strs] at h
  replace h := List.append_cancel_left (List.append_cancel_right h)
  have key : ∀ (xs : List (Option Ptr × Literal × Int)), ∀ s ∈ xs.map (fun x => itoa x.2.2), (44 : UInt8) ∉ s ∧ s ≠ [] := by
    intro xs s hs
    rw [List.mem_map] at hs
    obtain ⟨x, _, rfl⟩ := hs
    exact decimalInt_comma (itoa_decimal _)
  replace h := joined_inj (key xs) (key ys) h
  clear key strs
  induction xs generalizing ys with
  | nil => cases ys with | nil => rfl | cons y ys => cases h
  | cons x xs ih =>
    cases ys with
    | nil => cases h
    | cons y ys =>
      simp only [List.map_cons, List.cons.injEq] at h ⊢
      refine ⟨?_, ih h.2⟩
      have h1 := itoa_decimal x.2.2
      rw [h.1] at h1
      exact signed_unique (decimalInt_signed h1) (decimalInt_signed (itoa_decimal y.2.2))

end Protoast.Props
