import Verif.Proof.Options
/-
  Enumeration of options.
-/
namespace Protoast

/-- The registries differ in nothing but the next address. -/
def SameBut (r r1 : Reg) : Prop := ∃ k, r1 = { r with next := k }

theorem SameBut.refl (r : Reg) : SameBut r r := ⟨r.next, rfl⟩
theorem SameBut.bump {r r1 : Reg} (h : SameBut r r1) (k : Nat) : SameBut r { r1 with next := k } := by
  obtain ⟨j, rfl⟩ := h
  exact ⟨k, rfl⟩

theorem SameBut.heap {r r1 : Reg} (h : SameBut r r1) : r1.heap = r.heap := by obtain ⟨j, rfl⟩ := h; rfl
theorem SameBut.registry {r r1 : Reg} (h : SameBut r r1) : r1.registry = r.registry := by obtain ⟨j, rfl⟩ := h; rfl
theorem SameBut.scopes {r r1 : Reg} (h : SameBut r r1) : r1.scopes = r.scopes := by obtain ⟨j, rfl⟩ := h; rfl

/-- The option statement of a child. -/
def optionOf (x : Ptr × Elem) : Option (Ptr × Str) :=
  match x.2.kind with
  | .option w _ => some (x.1, w)
  | _ => none

theorem optionsOf_kids (r : Reg) (p : Ptr) : optionsOf r p = (r.kids p).filterMap optionOf := by
  rw [kids_zipIdx, List.filterMap_map]
  rfl

/-- `pick` handles options as `newOption scope cls` does and skips everything else. -/
def PicksOptions (r : Reg) (scope : Str) (cls : Ptr) (pick : Ptr → Kind → Option (M Node)) : Prop :=
  ∀ (q : Ptr) (k : Kind), match k with
    | .option w l => ∃ m, pick q k = some m ∧
        (r.kind q = some (.option w l) → ∀ r1, SameBut r r1 → m r1 = newOption scope cls q r1)
    | _ => pick q k = none

theorem collect_options_ok {r : Reg} {scope : Str} {cls : Ptr} {pick : Ptr → Kind → Option (M Node)}
    (hp : PicksOptions r scope cls pick) : ∀ (l : List (Ptr × Elem)), (∀ x ∈ l, r.elem x.1 = some x.2) →
    ∀ r1 ns r', SameBut r r1 → collectSteps (l.filterMap fun x => pick x.1 x.2.kind) r1 = (.ok ns, r') →
    Matching (OptionFor r scope cls) (l.filterMap optionOf) ns ∧ SameBut r r' := by
  intro l
  induction l with
  | nil =>
    intro _ r1 ns r' hs h
    cases h
    exact ⟨.nil, hs⟩
  | cons x l ih =>
    intro hl r1 ns r' hs h
    have hx := hl x (by simp)
    have hl' : ∀ y ∈ l, r.elem y.1 = some y.2 := fun y hy => hl y (by simp [hy])
    have hkd : r.kind x.1 = some x.2.kind := by simp [Reg.kind, hx]
    have key := hp x.1 x.2.kind
    cases hk : x.2.kind
    case option w lit =>
      rw [hk] at key hkd
      obtain ⟨m, h1, h2⟩ := key
      rw [List.filterMap_cons, hk, h1] at h
      simp only [collectSteps, M.bind_apply] at h
      rw [h2 hkd r1 hs] at h
      have hkd1 : r1.kind x.1 = some (.option w lit) := by
        simp only [Reg.kind, Reg.elem, hs.heap] at hkd ⊢; exact hkd
      rcases hn : newOption scope cls x.1 r1 with ⟨res, r2⟩
      rw [hn] at h
      cases res with
      | panic e => simp at h
      | timeout => simp at h
      | ok o =>
      simp only at h
      obtain ⟨w', l', f, g1, g2, rfl, rfl⟩ := newOption_ok hn
      rw [hkd1] at g1
      cases g1
      have hs2 := hs.bump (r1.next + 1)
      rcases hc : collectSteps (l.filterMap fun x => pick x.1 x.2.kind) { r1 with next := r1.next + 1 } with ⟨res, r3⟩
      rw [hc] at h
      cases res with
      | panic e => simp at h
      | timeout => simp at h
      | ok os =>
      simp only [M.pure_apply, Prod.mk.injEq, Res.ok.injEq] at h
      obtain ⟨rfl, rfl⟩ := h
      obtain ⟨i1, i2⟩ := ih hl' _ _ _ hs2 hc
      refine ⟨?_, i2⟩
      have ho : optionOf x = some (x.1, w) := by simp [optionOf, hk]
      rw [List.filterMap_cons, ho]
      exact .cons ⟨_, f, rfl, g2.congr hs.heap.symm hs.registry.symm⟩ i1
    all_goals
      rw [hk] at key
      have ho : optionOf x = none := by simp [optionOf, hk]
      simp only at key
      rw [List.filterMap_cons, hk, key] at h
      rw [List.filterMap_cons, ho]
      exact ih hl' r1 ns r' hs h

theorem collect_options_all {r : Reg} {scope : Str} {cls : Ptr} {pick : Ptr → Kind → Option (M Node)}
    (hp : PicksOptions r scope cls pick) : ∀ (l : List (Ptr × Elem)), (∀ x ∈ l, r.elem x.1 = some x.2) →
    (∀ x ∈ l.filterMap optionOf, ∃ f, Binds r scope cls x.2 f) →
    ∀ r1, SameBut r r1 → ∃ ns r', collectSteps (l.filterMap fun x => pick x.1 x.2.kind) r1 = (.ok ns, r') := by
  intro l
  induction l with
  | nil => intro _ _ r1 _; exact ⟨[], r1, rfl⟩
  | cons x l ih =>
    intro hl hb r1 hs
    have hx := hl x (by simp)
    have hl' : ∀ y ∈ l, r.elem y.1 = some y.2 := fun y hy => hl y (by simp [hy])
    have hkd : r.kind x.1 = some x.2.kind := by simp [Reg.kind, hx]
    have key := hp x.1 x.2.kind
    cases hk : x.2.kind
    case option w lit =>
      rw [hk] at key hkd
      obtain ⟨m, h1, h2⟩ := key
      have ho : optionOf x = some (x.1, w) := by simp [optionOf, hk]
      rw [List.filterMap_cons, ho] at hb
      obtain ⟨f, hf⟩ := hb (x.1, w) (by simp)
      have hkd1 : r1.kind x.1 = some (.option w lit) := by
        simp only [Reg.kind, Reg.elem, hs.heap] at hkd ⊢; exact hkd
      have hn := newOption_binds hkd1 (hf.congr hs.heap hs.registry)
      obtain ⟨ns, r', hc⟩ := ih hl' (fun y hy => hb y (List.mem_cons_of_mem _ hy)) _ (hs.bump (r1.next + 1))
      refine ⟨.option r1.next x.1 cls f :: ns, r', ?_⟩
      rw [List.filterMap_cons, hk, h1]
      simp only [collectSteps, M.bind_apply]
      rw [h2 hkd r1 hs, hn]
      simp only [hc, M.pure_apply]
    all_goals
      rw [hk] at key
      simp only at key
      have ho : optionOf x = none := by simp [optionOf, hk]
      rw [List.filterMap_cons, ho] at hb
      rw [List.filterMap_cons, hk, key]
      exact ih hl' hb r1 hs

theorem kids_elem (r : Reg) (p : Ptr) : ∀ x ∈ r.kids p, r.elem x.1 = some x.2 := fun ⟨_, _⟩ hx =>
  (kids_mem hx).elim fun _ h => h.2

/-- Any iterator over the options of `p` that binds them in `scope`. -/
theorem iterate_options {r : Reg} {scope : Str} {cls p : Ptr} {pick : Ptr → Kind → Option (M Node)}
    (hp : PicksOptions r scope cls pick) :
    (∀ ns r', Seq.collect (overKids p pick) r = (.ok ns, r') →
      Matching (OptionFor r scope cls) (optionsOf r p) ns) ∧
    ((∀ x ∈ optionsOf r p, ∃ f, Binds r scope cls x.2 f) →
      ∃ ns r', Seq.collect (overKids p pick) r = (.ok ns, r')) := by
  have e : Seq.collect (overKids p pick) r = collectSteps ((r.kids p).filterMap fun x => pick x.1 x.2.kind) r := by
    unfold Seq.collect
    simp only [M.bind_apply, overKids_apply]
  rw [optionsOf_kids, e]
  exact ⟨fun ns r' h => (collect_options_ok hp _ (kids_elem r p) r ns r' (.refl r) h).1,
    fun h => collect_options_all hp _ (kids_elem r p) h r (.refl r)⟩

theorem picks_new (r : Reg) (scope : Str) (cls : Ptr) :
    PicksOptions r scope cls (fun q k => match k with
      | .option _ _ => some (newOption scope cls q)
      | _ => none) := by
  intro q k
  cases k <;> simp

theorem seqOptions_exact {r : Reg} {scope className : Str} {cls p : Ptr} (hc : ClassAt r className cls) :
    (∀ ns r', (do let seq ← seqOptions scope className p; seq.collect) r = (.ok ns, r') →
      Matching (OptionFor r scope cls) (optionsOf r p) ns) ∧
    ((∀ x ∈ optionsOf r p, ∃ f, Binds r scope cls x.2 f) →
      ∃ ns r', (do let seq ← seqOptions scope className p; seq.collect) r = (.ok ns, r')) := by
  have e : (do let seq ← seqOptions scope className p; seq.collect) r =
      Seq.collect (overKids p fun q k => match k with
        | .option _ _ => some (newOption scope cls q)
        | _ => none) r := by
    unfold seqOptions
    simp only [M.bind_apply, optionClass_ok hc, M.pure_apply]
    rfl
  rw [e]
  exact iterate_options (picks_new r scope cls)

/-! ### Binding in related scopes -/

theorem Binds.scope_congr {r : Reg} {s s' : Str} (h : dotted s = dotted s') {cls w f} (g : Binds r s cls w f) :
    Binds r s' cls w f := by
  unfold Binds Refers Unresolved at *
  rw [h] at g
  exact g

theorem dotted_packageDot {es : List Elem} (h : hasDotPrefix (firstPackage es) = false) :
    dotted (packageDot es) = dotted (firstPackage es) := by
  unfold packageDot
  rw [← firstPackage_eq]
  cases hf : firstPackage es with
  | nil => rfl
  | cons c cs =>
    rw [hf] at h
    have hc : c ≠ dot := by
      rintro rfl
      simp [hasDotPrefix] at h
    simp [dotted, hc]

theorem wf_package {path : Str} {es : List Elem} (h : WFFile path es) : hasDotPrefix (firstPackage es) = false := by
  obtain ⟨_, h | ⟨pre, pos, cm, n, cs, post, rfl, _, hn, hpre, _⟩⟩ := h
  · rw [firstPackage_none h]; rfl
  · rw [firstPackage_append (fun e he => by
      have := hpre e he
      cases hk : e.kind <;> rw [hk] at this <;> simp_all [Kind.preamble, Kind.notPackage])]
    simpa [firstPackage, Elem.kind_mk] using hn

/-- A reference that only the outermost scope can answer means the same in every scope. -/
theorem outermost_binds {r : Reg} {s cls w f} (h : OutermostOnly r s (optionRef w)) :
    Binds r s cls w f ↔ Binds r [] cls w f := by
  have hnil : ∀ s', Encloses s' (dotted []) ↔ s' = [] := by
    intro s'
    constructor
    · rintro (h | ⟨t, h⟩)
      · exact h
      · exact absurd h.symm (by simp [dotted])
    · rintro rfl; exact .inl rfl
  have hs : Encloses [] (dotted s) := encloses_nil_of_dotted (isDotted_dotted s)
  have hr : ∀ q, Refers r s (optionRef w) q ↔ Refers r [] (optionRef w) q := by
    intro q
    unfold Refers
    split
    · exact Iff.rfl
    · next hd =>
      have h : ∀ s', Encloses s' (dotted s) → s' ≠ [] → r.registry (s' ++ dot :: optionRef w) = none := by
        rcases h with h | h
        · exact absurd h hd
        · exact h
      constructor
      · rintro ⟨c, ⟨s', h1, rfl, h2, h3⟩, h4⟩
        by_cases hne : s' = []
        · subst hne
          exact ⟨_, ⟨[], (hnil []).mpr rfl, rfl, h2, fun s'' he hl => by
            rw [hnil] at he; subst he; simp at hl⟩, h4⟩
        · rw [h s' h1 hne] at h4; cases h4
      · rintro ⟨c, ⟨s', h1, rfl, h2, h3⟩, h4⟩
        rw [hnil] at h1
        subst h1
        refine ⟨_, ⟨[], hs, rfl, h2, fun s'' he hl => ?_⟩, h4⟩
        unfold Reg.defined
        rw [h s'' he (by rintro rfl; simp at hl)]
        rfl
  have hu : Unresolved r s (optionRef w) ↔ Unresolved r [] (optionRef w) := by
    unfold Unresolved
    split
    · exact Iff.rfl
    · next hd =>
      have h : ∀ s', Encloses s' (dotted s) → s' ≠ [] → r.registry (s' ++ dot :: optionRef w) = none := by
        rcases h with h | h
        · exact absurd h hd
        · exact h
      constructor
      · intro g s' he
        rw [hnil] at he
        subst he
        exact g [] hs
      · intro g s' he
        by_cases hne : s' = []
        · subst hne; exact g [] ((hnil []).mpr rfl)
        · exact h s' he hne
  unfold Binds
  rw [hr f, hu]

theorem picks_wrap {r : Reg} (hs : Sound r) {className : Str} {cls : Ptr} (hc : ClassAt r className cls) :
    PicksOptions r [] cls (fun q k => match k with
      | .option _ _ => some do
          let cls ← optionClass className
          wrapOption q cls
      | _ => none) := by
  intro q k
  cases k <;> simp only
  case option w l =>
  refine ⟨_, rfl, fun hk r1 h1 => ?_⟩
  have hsc : r1.scope (.at q) = [] := by
    unfold Reg.scope
    rw [h1.scopes]
    exact option_scope hs hk
  simp only [M.bind_apply, optionClass_ok (hc.congr h1.heap h1.registry), wrapOption, M.get_apply, hsc]

theorem Binds.unique {r : Reg} {s cls w f f'} (h : Binds r s cls w f) (g : Binds r s cls w f') : f = f' := by
  have b1 : ∀ f, Refers r s (optionRef w) f → ¬ Unresolved r s (optionRef w) := by
    intro f hf hu
    obtain ⟨c, e, _⟩ := refers_resolve hf
    have := unresolved_iff.mp hu
    rw [e] at this
    cases this
  rcases h with ⟨h1, _⟩ | ⟨h1, h2⟩ <;> rcases g with ⟨g1, _⟩ | ⟨g1, g2⟩
  · obtain ⟨c, e, e'⟩ := refers_resolve h1
    obtain ⟨c', d, d'⟩ := refers_resolve g1
    rw [e] at d
    cases d
    rw [e'] at d'
    cases d'
    rfl
  · exact absurd g1 (b1 _ h1)
  · exact absurd h1 (b1 _ g1)
  · have := builtin_named.mpr h2
    rw [builtin_named.mpr g2] at this
    cases this
    rfl

/-! ### Everything, with the fields -/

/-- What `Everything` gives for a child. -/
def EveryFor (r : Reg) (cls : Ptr) (x : Ptr × Elem) (n : Option Node) : Prop :=
  n.bind Node.optionField = none ∧ optionOf x = none ∨
  ∃ w a f, optionOf x = some (x.1, w) ∧ n = some (.option a x.1 cls f) ∧ Binds r [] cls w f

theorem everything_step_fields {o r} (hi : Inv o r) (hs : Sound r) {className : Str} {cls : Ptr}
    (hc : ClassAt r className cls) {x : Ptr × Elem} (he : r.elem x.1 = some x.2) (hu : Under r x.1)
    (hrep : Representable r className x.2) :
    ∃ m n o' r', everythingStep className x.1 x.2.kind = some m ∧ m r = (.ok n, r') ∧ EveryFor r cls x n ∧
      Ext o r o' r' ∧ Inv o' r' ∧ CacheExt r r' := by
  have hkd : r.kind x.1 = some x.2.kind := by simp [Reg.kind, he]
  obtain ⟨q, e⟩ := x
  simp only at he hu hkd hrep ⊢
  rcases hrep with hk0 | ⟨w, l, cls', f, hk, hc', hb⟩
  · obtain ⟨k, hk⟩ := hasNode_wrapKind hk0
    obtain ⟨a, o', r', h1, h2, h3, h4⟩ := wrap_full hi (target_of_elem he hk) hu
    refine ⟨wrap (.at q), some (.wrapped a k q), o', r', ?_, h1, .inl ⟨rfl, ?_⟩, h2, h3, ?_⟩
    · unfold everythingStep
      cases hkk : e.kind <;> first | rfl | (rw [hkk] at hk; cases hk)
    · unfold optionOf
      cases hkk : e.kind <;> first | rfl | (rw [hkk] at hk; cases hk)
    · have := RO.wrap (.at q) r
      rw [h1] at this; exact this
  · have : cls' = cls := by
      have := hc.1
      rw [hc'.1] at this
      cases this
      rfl
    subst this
    rw [hk] at hkd
    have hrun : (do
        let cls ← optionClass className
        let o ← wrapOption q cls
        pure (some o) : M (Option Node)) r =
        (.ok (some (.option r.next q cls' f)), { r with next := r.next + 1 }) := by
      simp only [M.bind_apply, optionClass_ok hc, wrapOption, M.get_apply, option_scope hs hkd,
        newOption_binds hkd hb, M.pure_apply]
    obtain ⟨o', h1, h2, _⟩ := everythingStep_tri hi (c := className) (k := .option w l) hu rfl
    rw [hrun] at h1 h2
    refine ⟨_, some (.option r.next q cls' f), o', _, by rw [hk]; rfl, hrun, .inr ⟨w, r.next, f, ?_, rfl, hb⟩,
      h1, h2, ?_⟩
    · simp [optionOf, hk]
    · exact ⟨rfl, rfl, rfl, rfl, fun _ _ h => h, fun _ _ h => h, Nat.le_succ _, fun _ _ _ _ h => .inl h⟩

theorem everything_collect_fields {className : Str} {cls : Ptr} : ∀ (l : List (Ptr × Elem)) {o r}, Inv o r →
    Sound r → ClassAt r className cls → Present r l → (∀ x ∈ l, Representable r className x.2) →
    ∃ ns r', collectSteps (l.filterMap fun x => everythingStep className x.1 x.2.kind) r = (.ok ns, r') ∧
      Matching (EveryFor r cls) l ns := by
  intro l
  induction l with
  | nil => intro o r _ _ _ _ _; exact ⟨[], r, rfl, .nil⟩
  | cons x l ih =>
    intro o r hi hs hc hp hrep
    obtain ⟨m, n, o', r', h1, h2, h3, h4, h5, h6⟩ := everything_step_fields hi hs hc (hp x (by simp)).1
      (hp x (by simp)).2 (hrep x (by simp))
    obtain ⟨ns, r2, g1, g2⟩ := ih h5 (hs.cacheExt h6) (hc.congr h6.heap h6.registry)
      (present_ext h4 fun y hy => hp y (by simp [hy]))
      (fun y hy => (hrep y (by simp [hy])).congr h6.heap h6.registry)
    refine ⟨n :: ns, r2, ?_, .cons h3 ?_⟩
    · rw [List.filterMap_cons, h1]
      simp only [collectSteps, M.bind_apply, h2, g1, M.pure_apply]
    · clear ih hp hrep g1 h1 h2 h3
      induction g2 with
      | nil => exact .nil
      | cons h _ ih' =>
        refine .cons ?_ ih'
        rcases h with h | ⟨w, a, f, e1, e2, e3⟩
        · exact .inl h
        · exact .inr ⟨w, a, f, e1, e2, e3.congr h6.heap.symm h6.registry.symm⟩

/-- Two enumerations of the same options have the same fields if the bindings agree. -/
theorem same_options {r : Reg} {s s' : Str} {cls : Ptr} : ∀ {l : List (Ptr × Str)} {ns ms : List Node},
    Matching (OptionFor r s cls) l ns → Matching (OptionFor r s' cls) l ms →
    (∀ x ∈ l, ∀ f, Binds r s cls x.2 f ↔ Binds r s' cls x.2 f) → SameOptions ns ms := by
  intro l
  induction l with
  | nil => intro ns ms h g _; cases h; cases g; rfl
  | cons x l ih =>
    intro ns ms h g hb
    cases h with
    | cons h1 h2 =>
    cases g with
    | cons g1 g2 =>
    obtain ⟨a, f, rfl, e1⟩ := h1
    obtain ⟨a', f', rfl, e2⟩ := g1
    have : f = f' := ((hb x (by simp) f).mp e1).unique e2
    subst this
    have := ih h2 g2 fun y hy => hb y (by simp [hy])
    unfold SameOptions at *
    simp [Node.optionField, this]

theorem every_options {r : Reg} {cls : Ptr} : ∀ {l : List (Ptr × Elem)} {ns : List (Option Node)},
    Matching (EveryFor r cls) l ns →
    ∃ ms, Matching (OptionFor r [] cls) (l.filterMap optionOf) ms ∧ SameOptions (ns.filterMap id) ms := by
  intro l ns h
  induction h with
  | nil => exact ⟨[], .nil, rfl⟩
  | cons h _ ih =>
    obtain ⟨ms, i1, i2⟩ := ih
    rcases h with ⟨h1, h2⟩ | ⟨w, a, f, h1, rfl, h2⟩
    · refine ⟨ms, ?_, ?_⟩
      · rw [List.filterMap_cons, h2]; exact i1
      · unfold SameOptions at *
        rw [← i2]
        rename_i b _ _ _
        cases b with
        | none => rfl
        | some b =>
          simp only [Option.bind_some] at h1
          simp [h1]
    · rename_i x _ _ _
      refine ⟨.option a x.1 cls f :: ms, ?_, ?_⟩
      · rw [List.filterMap_cons, h1]; exact .cons ⟨a, f, rfl, h2⟩ i1
      · unfold SameOptions at *
        simp [Node.optionField, i2]

end Protoast
