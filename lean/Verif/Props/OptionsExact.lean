import Verif.Props.Options
import Verif.Props.Exact
/-
  C76: options, exactly, by every route.
-/
namespace Protoast.Props
open Protoast

/-- The scope in which the library looks up the names of the options of a node: the outermost one for enum values,
    else the package for a file and the fully qualified name for other declarations. -/
def LookupScope (r : Reg) (n : Node) (s : Str) : Prop :=
  match n with
  | .wrapped _ .enumValue _ => s = []
  | n => OptionScope r n s

/-- Every option statement of the object at `p` is bound in scope `s`. -/
def AllBound (r : Reg) (p cls : Ptr) (s : Str) : Prop := ∀ x ∈ optionsOf r p, ∃ f, Binds r s cls x.2 f

theorem enumValue_scope {c a p} (hr : Reachable WFFile c) (hn : Node.wrapped a .enumValue p ∈ c.pool) :
    c.reg.scope (.at p) = [] := by
  have := (C73_enum_value_index hr hn).1
  unfold nodeIndex at this
  obtain ⟨kd, h1, h2⟩ := handle_kind hr hn (by decide)
  unfold Reg.scope
  cases hsc : c.reg.scopes (.at p) with
  | none => rfl
  | some s =>
    exfalso
    have hs := reachable_sound hr
    have hne : p.path ≠ [] := by
      intro h0
      unfold Reg.kind Reg.elem at h1
      rw [h0] at h1
      cases hh : c.reg.heap[p.file]? <;> simp [hh, ProtoFile.elemAt] at h1
    obtain ⟨f, e, hf, he, hq⟩ := hs.holders p s hsc hne
    have hk : kd = e.kind := by
      unfold Reg.kind Reg.elem at h1
      simp [hf, he] at h1
      exact h1.symm
    rw [← hk] at hq
    cases kd <;> simp [wrapKind, Kind.isEnumField] at h2 hq

theorem lookup_scope {c n p className s} (hc : CleanReachable WFFile c) (hn : n ∈ c.pool)
    (ho : optionClassOf c.reg n = some (p, className)) (hs : LookupScope c.reg n s) :
    ∃ s', options n c.reg = seqOptions s' className p c.reg ∧
      (∀ name, optionNamed n name c.reg = namedOption name s' className p c.reg ∨
        ∃ a q, n = .wrapped a .messageField q ∧ ∃ x b d g i, c.reg.kind q = some (.normalField x b d g i)) ∧
      dotted s' = dotted s := by
  by_cases h : ∃ a q, n = .wrapped a .enumValue q
  · obtain ⟨a, q, rfl⟩ := h
    simp only [LookupScope] at hs
    subst hs
    cases ho
    have := enumValue_scope (clean_reachable hc) hn
    exact ⟨c.reg.scope (.at p), rfl, fun name => .inl rfl, by rw [this]⟩
  · have hne : ∀ a q, n ≠ .wrapped a .enumValue q := fun a q e => h ⟨a, q, e⟩
    have hs' : OptionScope c.reg n s := by
      unfold LookupScope at hs
      split at hs
      · next a q => exact absurd rfl (hne _ _)
      · exact hs
    obtain ⟨s', h1, h2, h3, _⟩ := options_scope hc hn ho hs'
    exact ⟨s', h1, h2, h3 hne⟩

theorem collectSteps_no_timeout {α : Type} : ∀ (l : List (M α)), (∀ m ∈ l, NT m) → NT (collectSteps l) := by
  intro l
  induction l with
  | nil => intro _; exact NT.pure _
  | cons m l ih =>
    intro h
    exact NT.bind (h m (by simp)) fun _ => NT.bind (ih fun x hx => h x (List.mem_cons_of_mem _ hx)) fun _ => NT.pure _

theorem overKids_no_timeout {α : Type} {p : Ptr} {pick : Ptr → Kind → Option (M α)}
    (h : ∀ q k m, pick q k = some m → NT m) : NT (Seq.collect (overKids p pick)) := by
  intro r
  unfold Seq.collect
  simp only [M.bind_apply, overKids_apply]
  refine collectSteps_no_timeout _ ?_ r
  intro m hm
  rw [List.mem_filterMap] at hm
  obtain ⟨x, _, hx⟩ := hm
  exact h _ _ _ hx

theorem panics {α : Type} {m : M α} {r : Reg} (h : NT m) (hno : ∀ a r', m r ≠ (.ok a, r')) :
    ∃ e r', m r = (.panic e, r') := by
  rcases hm : m r with ⟨res, r'⟩
  cases res with
  | ok a => exact absurd hm (hno a r')
  | panic e => exact ⟨e, r', rfl⟩
  | timeout => have := h r; rw [hm] at this; exact absurd rfl this

theorem matching_bound {r : Reg} {p cls : Ptr} {s : Str} {ns : List Node}
    (h : Matching (OptionFor r s cls) (optionsOf r p) ns) : AllBound r p cls s := by
  intro x hx
  obtain ⟨b, _, a, f, _, hb⟩ := matching_total h x hx
  exact ⟨f, hb⟩

/-- C76, `Registry.Options`: for every node that can have options, enum values included, it gives one option node per
    option statement, in order, each bound by the protobuf rules in the lookup scope of the node, and panics if and only
    if some statement is not bound there. -/
theorem C76_options {c n p className s cls} (hc : CleanReachable WFFile c) (hn : n ∈ c.pool)
    (ho : optionClassOf c.reg n = some (p, className)) (hs : LookupScope c.reg n s)
    (hcl : ClassAt c.reg className cls) :
    (∀ ns r', collectOptions n c.reg = (.ok ns, r') → Matching (OptionFor c.reg s cls) (optionsOf c.reg p) ns) ∧
    ((∃ ns r', collectOptions n c.reg = (.ok ns, r')) ↔ AllBound c.reg p cls s) ∧
    ((∃ e r', collectOptions n c.reg = (.panic e, r')) ↔ ¬ AllBound c.reg p cls s) := by
  obtain ⟨s', h1, _, hd⟩ := lookup_scope hc hn ho hs
  have hx : OptionsExact c.reg n p s cls :=
    exact_iff (fun x _ f => ⟨Binds.scope_congr hd, Binds.scope_congr hd.symm⟩) (exact_of_scope h1 hcl)
  have e : collectOptions n c.reg = (do let seq ← seqOptions s' className p; seq.collect) c.reg := by
    unfold collectOptions
    simp only [M.bind_apply, h1]
  have hnt : (collectOptions n c.reg).1 ≠ .timeout := by
    rw [e]
    unfold seqOptions
    simp only [M.bind_apply, optionClass_ok hcl, M.pure_apply]
    refine overKids_no_timeout ?_ c.reg
    intro q k m hm
    cases k <;> simp only [reduceCtorEq, Option.some.injEq] at hm
    subst hm
    exact newOption_no_timeout _ _ _
  have hok : (∃ ns r', collectOptions n c.reg = (.ok ns, r')) ↔ AllBound c.reg p cls s :=
    ⟨fun ⟨ns, r', h⟩ => matching_bound (hx.1 ns r' h), hx.2⟩
  refine ⟨hx.1, hok, ?_, ?_⟩
  · rintro ⟨er, r', h⟩ hb
    obtain ⟨ns, r2, h2⟩ := hok.mpr hb
    rw [h] at h2
    cases h2
  · intro hb
    rcases hm : collectOptions n c.reg with ⟨res, r'⟩
    cases res with
    | ok ns => exact absurd (hok.mp ⟨ns, r', hm⟩) hb
    | panic e => exact ⟨e, r', rfl⟩
    | timeout => rw [hm] at hnt; exact absurd rfl hnt

/-- C76, `Method.Options`: the same, with the outermost scope as lookup scope, in every reachable state. -/
theorem C76_method_options {c a p cls} (hr : Reachable WFFile c) (_hn : Node.wrapped a .method p ∈ c.pool)
    (hcl : ClassAt c.reg b!".google.protobuf.MethodOptions" cls) :
    (∀ ns r', (Method.options p).collect c.reg = (.ok ns, r') →
      Matching (OptionFor c.reg [] cls) (optionsOf c.reg p) ns) ∧
    ((∃ ns r', (Method.options p).collect c.reg = (.ok ns, r')) ↔ AllBound c.reg p cls []) ∧
    ((∃ e r', (Method.options p).collect c.reg = (.panic e, r')) ↔ ¬ AllBound c.reg p cls []) := by
  have hit := iterate_options (p := p) (picks_wrap (reachable_sound hr) hcl)
  have hnt : NT (Method.options p).collect := by
    refine overKids_no_timeout ?_
    intro q k m hm
    cases k <;> simp only [reduceCtorEq, Option.some.injEq] at hm
    subst hm
    refine NT.bind (optionClass_no_timeout _) fun cls => ?_
    unfold wrapOption
    exact NT.bind NT.get fun r => newOption_no_timeout _ _ _
  have hok : (∃ ns r', (Method.options p).collect c.reg = (.ok ns, r')) ↔ AllBound c.reg p cls [] :=
    ⟨fun ⟨ns, r', h⟩ => matching_bound (hit.1 ns r' h), hit.2⟩
  refine ⟨hit.1, hok, ?_, ?_⟩
  · rintro ⟨er, r', h⟩ hb
    obtain ⟨ns, r2, h2⟩ := hok.mpr hb
    rw [h] at h2
    cases h2
  · intro hb
    exact panics hnt fun ns r' h => hb (hok.mp ⟨ns, r', h⟩)

/-- C76, `OptionNamed`, for all nodes that can have options but normal fields (for which it always panics,
    `C47_normal_field_panics`): nil if no option statement is written exactly like `name`; else the first such statement,
    bound in the lookup scope of the node; and a panic if and only if this statement is not bound. -/
theorem C76_option_named {c n p className s cls} (hc : CleanReachable WFFile c) (hn : n ∈ c.pool)
    (ho : optionClassOf c.reg n = some (p, className)) (hs : LookupScope c.reg n s)
    (hcl : ClassAt c.reg className cls)
    (hnf : ∀ x b d g i, c.reg.kind p ≠ some (.normalField x b d g i)) (name : Str) :
    ((∀ x ∈ optionsOf c.reg p, x.2 ≠ name) → optionNamed n name c.reg = (.ok none, c.reg)) ∧
    (∀ pre x post, optionsOf c.reg p = pre ++ x :: post → x.2 = name → (∀ y ∈ pre, y.2 ≠ name) →
      (∀ f, Binds c.reg s cls name f → ∃ a r', optionNamed n name c.reg = (.ok (some (.option a x.1 cls f)), r')) ∧
      ((∀ f, ¬ Binds c.reg s cls name f) → ∃ e r', optionNamed n name c.reg = (.panic e, r'))) := by
  obtain ⟨s', _, h2, hd⟩ := lookup_scope hc hn ho hs
  have he : optionNamed n name c.reg = namedOption name s' className p c.reg := by
    rcases h2 name with h | ⟨a, q, rfl, x, b, d, g, i, hk⟩
    · exact h
    · simp only [optionClassOf, hk] at ho
      cases ho
      exact absurd hk (hnf _ _ _ _ _)
  rw [he, namedOption_eq hcl]
  constructor
  · intro h
    have : (c.reg.kids p).find? (fun x => optionOf x == some (x.1, name)) = none := by
      rw [List.find?_eq_none]
      intro x hx ho
      rw [beq_iff_eq] at ho
      exact h (x.1, name) (by rw [optionsOf_kids, List.mem_filterMap]; exact ⟨x, hx, ho⟩) rfl
    rw [this]
  · intro pre x post hp hx hpre
    rw [optionsOf_kids] at hp
    obtain ⟨e, h1, h2, h3⟩ := first_option _ pre post x hp hx hpre
    rw [h1]
    have hel := kids_elem _ _ _ h2
    simp only at hel
    have hk : ∃ l, c.reg.kind x.1 = some (.option name l) := by
      unfold optionOf at h3
      split at h3
      · next w l hw => cases h3; exact ⟨l, by simp only [Reg.kind, hel, Option.map_some, hw]⟩
      · cases h3
    obtain ⟨l, hk⟩ := hk
    refine ⟨fun f hb => ?_, fun hno => ?_⟩
    · simp only [M.bind_apply, newOption_binds hk (hb.scope_congr hd.symm), M.pure_apply]
      exact ⟨_, _, rfl⟩
    · refine panics (NT.bind (newOption_no_timeout _ _ _) fun _ => NT.pure _) ?_
      intro o r' h
      simp only [M.bind_apply] at h
      rcases hno' : newOption s' cls x.1 c.reg with ⟨res, r1⟩
      rw [hno'] at h
      cases res with
      | ok n =>
        obtain ⟨w, l', f, hk', hb, _, _⟩ := newOption_ok hno'
        rw [hk] at hk'
        cases hk'
        exact hno f (hb.scope_congr hd)
      | panic e => cases h
      | timeout => cases h

/-! ### Non-vacuity -/

/-- The options of the message `M` of the example are all bound in its lookup scope, so `Options` returns them. -/
example : ∃ a ns r', Node.wrapped a .message ⟨1, [6]⟩ ∈ cV.pool ∧ AllBound cV.reg ⟨1, [6]⟩ ⟨0, [3]⟩ b!".v.M" ∧
    collectOptions (.wrapped a .message ⟨1, [6]⟩) cV.reg = (.ok ns, r') ∧
    Matching (OptionFor cV.reg b!".v.M" ⟨0, [3]⟩) [(⟨1, [0, 6]⟩, b!"(tag)"), (⟨1, [2, 6]⟩, b!"(.v.tag)")] ns := by
  obtain ⟨a, hm⟩ := Ex.hasW_spec (c := cV) (i := 3) (k := .message) (p := ⟨1, [6]⟩) (by decide +kernel)
  have hcl : ClassAt cV.reg b!".google.protobuf.MessageOptions" ⟨0, [3]⟩ := ⟨by decide +kernel, _, _, rfl⟩
  have e : optionsOf cV.reg ⟨1, [6]⟩ = [(⟨1, [0, 6]⟩, b!"(tag)"), (⟨1, [2, 6]⟩, b!"(.v.tag)")] := by decide +kernel
  have hx := C76_options cV_clean hm rfl (s := b!".v.M") ⟨_, rfl, declared_intro (by decide +kernel)⟩ hcl
  have hb : AllBound cV.reg ⟨1, [6]⟩ ⟨0, [3]⟩ b!".v.M" := by
    intro x hx
    rw [e] at hx
    simp only [List.mem_cons, List.not_mem_nil, or_false] at hx
    rcases hx with rfl | rfl
    · exact ⟨⟨1, [0, 3]⟩, .inl ⟨resolve_refers (c := b!".v.tag") (by decide +kernel) (by decide +kernel),
        _, _, _, _, _, rfl⟩⟩
    · exact ⟨⟨1, [0, 3]⟩, .inl ⟨resolve_refers (c := b!".v.tag") (by decide +kernel) (by decide +kernel),
        _, _, _, _, _, rfl⟩⟩
  obtain ⟨ns, r', h⟩ := hx.2.1.mpr hb
  refine ⟨a, ns, r', hm, hb, h, ?_⟩
  have := hx.1 ns r' h
  rwa [e] at this

/-- The option `(note)` of the enum value of the example is not bound in the lookup scope of an enum value, so
    `Options` panics. -/
example : ∃ a, Node.wrapped a .enumValue ⟨1, [0, 5]⟩ ∈ cV.pool ∧ ¬ AllBound cV.reg ⟨1, [0, 5]⟩ ⟨0, [7]⟩ [] ∧
    ∃ e r', collectOptions (.wrapped a .enumValue ⟨1, [0, 5]⟩) cV.reg = (.panic e, r') := by
  obtain ⟨a, hm⟩ := Ex.hasW_spec (c := cV) (i := 2) (k := .enumValue) (p := ⟨1, [0, 5]⟩) (by decide +kernel)
  have hcl : ClassAt cV.reg b!".google.protobuf.EnumValueOptions" ⟨0, [7]⟩ := ⟨by decide +kernel, _, _, rfl⟩
  have hx := C76_options cV_clean hm rfl (s := []) rfl hcl
  have hno : ¬ AllBound cV.reg ⟨1, [0, 5]⟩ ⟨0, [7]⟩ [] := by
    intro hb
    obtain ⟨ns, r', e⟩ := hx.2.1.mpr hb
    have hp : Ex.isOk (collectOptions (.wrapped a .enumValue ⟨1, [0, 5]⟩) cV.reg).1 = false := by
      show Ex.isOk (collectOptions (.wrapped 0 .enumValue ⟨1, [0, 5]⟩) cV.reg).1 = false
      decide +kernel
    rw [e] at hp
    cases hp
  exact ⟨a, hm, hno, hx.2.2.mpr hno⟩

/-- The options of the method of the example are not all bound in the outermost scope, so `Method.Options` panics. -/
example : ∃ a, Node.wrapped a .method ⟨1, [0, 7]⟩ ∈ cV.pool ∧ ¬ AllBound cV.reg ⟨1, [0, 7]⟩ ⟨0, [9]⟩ [] ∧
    ∃ e r', (Method.options ⟨1, [0, 7]⟩).collect cV.reg = (.panic e, r') := by
  obtain ⟨a, hm⟩ := Ex.hasW_spec (c := cV) (i := 6) (k := .method) (p := ⟨1, [0, 7]⟩) (by decide +kernel)
  have hcl : ClassAt cV.reg b!".google.protobuf.MethodOptions" ⟨0, [9]⟩ := ⟨by decide +kernel, _, _, rfl⟩
  have hx := C76_method_options (clean_reachable cV_clean) hm hcl
  have hno : ¬ AllBound cV.reg ⟨1, [0, 7]⟩ ⟨0, [9]⟩ [] := by
    intro hb
    obtain ⟨ns, r', e⟩ := hx.2.1.mpr hb
    have hp : Ex.isOk ((Method.options ⟨1, [0, 7]⟩).collect cV.reg).1 = false := by decide +kernel
    rw [e] at hp
    cases hp
  exact ⟨a, hm, hno, hx.2.2.mpr hno⟩

/-- `OptionNamed` on the message of the example: an unwritten name, and a written one. -/
example : ∃ a, Node.wrapped a .message ⟨1, [6]⟩ ∈ cV.pool ∧
    optionNamed (.wrapped a .message ⟨1, [6]⟩) b!"absent" cV.reg = (.ok none, cV.reg) ∧
    ∃ b r', optionNamed (.wrapped a .message ⟨1, [6]⟩) b!"(tag)" cV.reg =
      (.ok (some (.option b ⟨1, [0, 6]⟩ ⟨0, [3]⟩ ⟨1, [0, 3]⟩)), r') := by
  obtain ⟨a, hm⟩ := Ex.hasW_spec (c := cV) (i := 3) (k := .message) (p := ⟨1, [6]⟩) (by decide +kernel)
  have hcl : ClassAt cV.reg b!".google.protobuf.MessageOptions" ⟨0, [3]⟩ := ⟨by decide +kernel, _, _, rfl⟩
  have e : optionsOf cV.reg ⟨1, [6]⟩ = [(⟨1, [0, 6]⟩, b!"(tag)"), (⟨1, [2, 6]⟩, b!"(.v.tag)")] := by decide +kernel
  have hx := C76_option_named cV_clean hm rfl (s := b!".v.M") ⟨_, rfl, declared_intro (by decide +kernel)⟩ hcl
    (by
      intro x b d g i hk
      have : (match cV.reg.kind ⟨1, [6]⟩ with | some (.normalField ..) => true | _ => false) = false := by
        decide +kernel
      rw [hk] at this
      cases this)
  refine ⟨a, hm, (hx b!"absent").1 ?_, ?_⟩
  · intro x hx
    rw [e] at hx
    simp only [List.mem_cons, List.not_mem_nil, or_false] at hx
    rcases hx with rfl | rfl <;> decide
  · exact ((hx b!"(tag)").2 [] _ _ e rfl (by intro y hy; cases hy)).1 _
      (.inl ⟨resolve_refers (c := b!".v.tag") (by decide +kernel) (by decide +kernel), _, _, _, _, _, rfl⟩)

end Protoast.Props
