import Verif.Proof.ValueExact
import Verif.Props.QuickStart
import Verif.Props.Protoc
/-
  C112: the result of `Option.Value`, for every option handle of every history.
-/
namespace Protoast.Props
open Protoast

/-- The files of C112: proper package and import statements, and the nesting of the protobuf language. -/
def ShapedFile (path : Str) (elems : List Elem) : Prop := WFFile path elems ∧ NestedFile path elems

mutual
theorem const_good {o r} : (v : OptVal) → GoodVal o r v → ∀ x ∈ v.consts, GoodW o r x.1 .enumValue x.2
  | .enum _ _ a p, g => by
    intro x hx
    simp only [OptVal.consts, List.mem_cons, List.not_mem_nil, or_false] at hx
    subst hx
    simp only [GoodVal] at g
    exact g.2
  | .array _ vs, g => by
    simp only [GoodVal] at g
    intro x hx
    simp only [OptVal.consts] at hx
    exact consts_good vs g.2 x hx
  | .map _ _ items, g => by
    simp only [GoodVal] at g
    intro x hx
    simp only [OptVal.consts] at hx
    exact constItems_good items g.2 x hx
  | .bool _ _ _, _ => by intro x hx; cases hx
  | .int _ _ _, _ => by intro x hx; cases hx
  | .uint _ _ _, _ => by intro x hx; cases hx
  | .float _ _ _, _ => by intro x hx; cases hx
  | .string _ _ _, _ => by intro x hx; cases hx
  | .bytes _ _ _, _ => by intro x hx; cases hx
theorem consts_good {o r} : (vs : List OptVal) → GoodVals o r vs → ∀ x ∈ OptVal.constsAll vs,
    GoodW o r x.1 .enumValue x.2
  | [], _ => by intro x hx; cases hx
  | v :: vs, g => by
    simp only [GoodVals] at g
    intro x hx
    simp only [OptVal.constsAll, List.mem_append] at hx
    rcases hx with hx | hx
    · exact const_good v g.1 x hx
    · exact consts_good vs g.2 x hx
theorem constItems_good {o r} : (vs : List (Str × OptVal)) → GoodItems o r vs → ∀ x ∈ OptVal.constsItems vs,
    GoodW o r x.1 .enumValue x.2
  | [], _ => by intro x hx; cases hx
  | kv :: vs, g => by
    simp only [GoodItems] at g
    intro x hx
    simp only [OptVal.constsItems, List.mem_append] at hx
    rcases hx with hx | hx
    · exact constItem_good kv g.1 x hx
    · exact constItems_good vs g.2 x hx
theorem constItem_good {o r} : (kv : Str × OptVal) → GoodItem o r kv → ∀ x ∈ OptVal.constsItem kv,
    GoodW o r x.1 .enumValue x.2
  | (_, v), g => by
    simp only [GoodItem] at g
    intro x hx
    simp only [OptVal.constsItem] at hx
    exact const_good v g x hx
end

/-- The enum constants inside a value that `Value` returned are the nodes the client already has, where it has any. -/
theorem value_consts {F c a q cls f v r'} {P} (hc : Reachable P c) (ho : Node.option a q cls f ∈ c.pool)
    (h : Option.value F q f c.reg = (.ok v, r')) :
    ∀ x ∈ v.consts, ∀ a', Node.wrapped a' .enumValue x.2 ∈ c.pool → a' = x.1 := by
  obtain ⟨o, hi, g⟩ := reachable_inv hc
  obtain ⟨_, ⟨_, hu⟩, _⟩ := g _ ho
  obtain ⟨o', hx, _, hq⟩ := optionValue_tri hi F f hu
  rw [h] at hx hq
  intro x hxm a' hm
  have h1 := const_good v (hq v rfl) x hxm
  have h2 : GoodW o' r' a' .enumValue x.2 := hx.toGExt.good _ (g _ hm)
  have e1 := h1.cached (by decide)
  have e2 := h2.cached (by decide)
  rw [e1] at e2
  cases e2
  rfl

/-- C112, the specification is definite: in the protobuf language, and in the dialect the library accepts, a literal has
    at most one value for a field. -/
theorem C112_definite {F r op f l v w} :
    (FieldValue .protobuf F r op f l v → FieldValue .protobuf F r op f l w → SameData v w) ∧
    (FieldValue .accepted F r op f l v → FieldValue .accepted F r op f l w → SameData v w) :=
  ⟨fun h g => h.same protobuf_definite g, fun h g => h.same accepted_definite g⟩

/-- C112: for every option handle of every history, `Value` returns the value its literal has for its field in the
    accepted dialect, and panics if it has none. The enum constants in it are the nodes the client already has. -/
theorem C112_value {F c a q cls f} (hc : CleanReachable ShapedFile c) (ho : Node.option a q cls f ∈ c.pool) :
    ∃ name lit, c.reg.kind q = some (.option name lit) ∧
      (∀ v, FieldValue .accepted F c.reg (some q) f lit v → ∃ v' r', Option.value F q f c.reg = (.ok v', r') ∧
        SameData v' v ∧ ∀ x ∈ v'.consts, ∀ a', Node.wrapped a' .enumValue x.2 ∈ c.pool → a' = x.1) ∧
      ((∀ v, ¬ FieldValue .accepted F c.reg (some q) f lit v) → ∃ e r', Option.value F q f c.reg = (.panic e, r')) := by
  have hw : CleanReachable WFFile c := clean_mono (fun _ _ h => h.1) hc
  obtain ⟨o, hi, g⟩ := reachable_inv (clean_reachable hw)
  obtain ⟨_, ⟨⟨name, lit, hk⟩, _⟩, _, hf, hu⟩ := g _ ho
  have hs := reachable_heapSat (clean_reachable hc)
  obtain ⟨s, hd⟩ := field_declared (fun i f hf => (hs i f hf).2) hu hf
  refine ⟨name, lit, hk, ?_, ?_⟩
  · intro v hv
    obtain ⟨v', r', h⟩ := (C49_accepts hw ho hd hk).mpr ⟨v, hv⟩
    exact ⟨v', r', h, C112_definite.2 (C49_sound hw ho hd hk h) hv, value_consts (clean_reachable hw) ho h⟩
  · intro hno
    refine panics (NT.optionValue F q f) ?_
    intro v r' h
    exact hno v (C49_sound hw ho hd hk h)

/-- C112, what the client writes in the supported fragment of the protobuf language is what it gets. -/
theorem C112_supported {F c a q cls f name lit v} (hc : CleanReachable WFFile c) (ho : Node.option a q cls f ∈ c.pool)
    (hk : c.reg.kind q = some (.option name lit)) (h : FieldValue .supported F c.reg (some q) f lit v) :
    ∃ v' r', Option.value F q f c.reg = (.ok v', r') ∧ SameData v' v := by
  obtain ⟨v', r', h1, _, h2⟩ := C49_partial hc ho hk h
  exact ⟨v', r', h1, C112_definite.1 h2 (h.mono supported_protobuf)⟩

/-! ### Examples -/

theorem WO_shaped : Ex.WO.Sat ShapedFile := by
  apply Ex.worldOf_sat
  intro x hx
  refine ⟨Ex.wfb_spec ?_, ?_⟩
  · simp only [List.mem_cons, List.not_mem_nil, or_false] at hx
    rcases hx with rfl | rfl <;> decide +kernel
  · have : x.2.all (·.nests) = true := by
      simp only [List.mem_cons, List.not_mem_nil, or_false] at hx
      rcases hx with rfl | rfl <;> decide +kernel
    intro e he
    exact List.all_eq_true.mp this e he

theorem cO_shaped : CleanReachable ShapedFile Ex.cO :=
  ⟨Ex.WO, 5, _, Ex.opsO, WO_shaped, Ex.WO_ok, Ex.onlyO_sat WO_shaped Ex.opsO_only, Ex.loadsB_spec (by decide +kernel), rfl⟩

set_option maxRecDepth 100000 in
/-- Non-vacuity of C112: the option `(color) = GREEN` is read as the constant `GREEN` of the enum `Color`. -/
example : ∃ a lit v r', Node.option a ⟨1, [0, 3, 5]⟩ ⟨0, [4]⟩ ⟨1, [3, 2]⟩ ∈ Ex.cO.pool ∧
    Option.value ⟨fun _ => none, fun _ => []⟩ ⟨1, [0, 3, 5]⟩ ⟨1, [3, 2]⟩ Ex.cO.reg = (.ok v, r') ∧
    SameData v (.enum (some ⟨1, [0, 3, 5]⟩) lit 0 ⟨1, [1, 4]⟩) := by
  obtain ⟨a, hm⟩ := hasOpt_spec (c := Ex.cO) (i := 15) (q := ⟨1, [0, 3, 5]⟩) (cls := ⟨0, [4]⟩) (f := ⟨1, [3, 2]⟩)
    (by decide +kernel)
  obtain ⟨name, lit, hk, h, _⟩ := C112_value (F := ⟨fun _ => none, fun _ => []⟩) cO_shaped hm
  obtain ⟨n', l', hk', hl⟩ := optB_spec (r := Ex.cO.reg) (q := ⟨1, [0, 3, 5]⟩) (P := fun l => l.source == b!"GREEN")
    (by decide +kernel)
  rw [hk] at hk'
  cases hk'
  rw [beq_iff_eq] at hl
  have hf : FieldAt Ex.cO.reg ⟨1, [3, 2]⟩ b!"Color" false := fieldB_spec (by decide +kernel)
  have hfm : FirstMember Ex.cO.reg ⟨1, [4]⟩ valueSel lit.source ⟨1, [1, 4]⟩ := by
    rw [hl]
    exact ⟨_, 1, _, rfl, rfl, rfl, rfl, rfl, by
      intro j e' hj he' _
      obtain rfl : j = 0 := by omega
      cases he'
      decide⟩
  obtain ⟨v, r', h1, h2, _⟩ := h (.enum (some ⟨1, [0, 3, 5]⟩) lit 0 ⟨1, [1, 4]⟩)
    (.one hf (.enum (n := b!"Color") hf ⟨by rintro ⟨b, hb⟩; cases b <;> exact absurd hb (by decide), by decide, by decide, rfl⟩
      (s := b!".o.color") (declared_intro (by decide +kernel))
      (resolve_refers (c := b!".o.Color") (by decide +kernel) (by decide +kernel)) rfl hfm))
  exact ⟨a, lit, v, r', hm, h1, h2⟩

/-- Non-vacuity of the other half: the option `(limit) = 5` of type `uint32` has no value in the accepted dialect. -/
example : ∃ a e r', Node.option a ⟨1, [0, 4, 5]⟩ ⟨0, [4]⟩ ⟨1, [4, 2]⟩ ∈ Ex.cO.pool ∧
    Option.value ⟨fun _ => none, fun _ => []⟩ ⟨1, [0, 4, 5]⟩ ⟨1, [4, 2]⟩ Ex.cO.reg = (.panic e, r') := by
  obtain ⟨a, hm⟩ := hasOpt_spec (c := Ex.cO) (i := 16) (q := ⟨1, [0, 4, 5]⟩) (cls := ⟨0, [4]⟩) (f := ⟨1, [4, 2]⟩)
    (by decide +kernel)
  obtain ⟨name, lit, hk, _, h⟩ := C112_value (F := ⟨fun _ => none, fun _ => []⟩) cO_shaped hm
  have hf : FieldAt Ex.cO.reg ⟨1, [4, 2]⟩ b!"uint32" false := fieldB_spec (by decide +kernel)
  obtain ⟨e, r', he⟩ := h (by
    intro v hv
    cases hv with
    | many g _ _ => exact absurd (fieldAt_unique hf g).2 (by decide)
    | single g _ _ => exact absurd (fieldAt_unique hf g).2 (by decide)
    | one g g' =>
      have hs : Dialect.accepted.sort b!"uint32" = 6 := by decide
      cases g' with
      | bool g1 _ => exact absurd (sort_same hf g1 hs sort_bool) (by decide)
      | int g1 g2 _ => exact absurd (sort_same hf g1 hs (sort_int g2)) (by decide)
      | uint g1 g2 _ => exact absurd (sort_same hf g1 hs (sort_uint accepted_definite g2)) (by decide)
      | float g1 g2 _ => exact absurd (sort_same hf g1 hs (sort_float accepted_definite g2)) (by decide)
      | string g1 => exact absurd (sort_same hf g1 hs (sort_string accepted_definite)) (by decide)
      | bytes g1 => exact absurd (sort_same hf g1 hs (sort_bytes accepted_definite)) (by decide)
      | enum g1 g2 _ _ _ _ => obtain ⟨rfl, _⟩ := fieldAt_unique hf g1; exact g2.1 ⟨.uint32, rfl⟩
      | message g1 g2 _ _ _ _ => obtain ⟨rfl, _⟩ := fieldAt_unique hf g1; exact g2.1 ⟨.uint32, rfl⟩)
  exact ⟨a, e, r', hm, he⟩

end Protoast.Props
