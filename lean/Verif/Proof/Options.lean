import Verif.Proof.Iter
import Verif.Proof.NamesInv
import Verif.Spec.Options
/-
  Binding of options.
-/
namespace Protoast

theorem find_zipIdx {p : Ptr} {P : Kind → Bool} : ∀ (es : List Elem) (n : Nat),
    match (kidsFrom p n es).find? (fun x => P x.2.kind) with
    | none => ∀ e ∈ es, P e.kind = false
    | some x => ∃ i, es[i]? = some x.2 ∧ x.1 = p.child (n + i) ∧ P x.2.kind = true ∧
        ∀ j e, j < i → es[j]? = some e → P e.kind = false := by
  intro es
  induction es with
  | nil => intro n; simp [kidsFrom]
  | cons a es ih =>
    intro n
    simp only [kidsFrom, List.find?_cons]
    cases hP : P a.kind with
    | true =>
      exact ⟨0, by simp, rfl, hP, by intro j e hj; omega⟩
    | false =>
      have := ih (n + 1)
      revert this
      cases (kidsFrom p (n + 1) es).find? (fun x => P x.2.kind) with
      | none =>
        intro h e he
        rcases List.mem_cons.mp he with rfl | he
        · exact hP
        · exact h e he
      | some x =>
        rintro ⟨i, h1, h2, h3, h4⟩
        refine ⟨i + 1, by simpa using h1, by rw [h2, show n + 1 + i = n + (i + 1) by omega], h3, ?_⟩
        intro j e hj he
        cases j with
        | zero => simp at he; subst he; exact hP
        | succ j => exact h4 j e (by omega) (by simpa using he)

/-- The predicate of the loop in `newOption`. -/
def isFieldCalled (name : Str) (k : Kind) : Bool :=
  match k with
  | .normalField n _ _ _ _ => n == name
  | _ => false

theorem isFieldCalled_iff {name : Str} {k : Kind} :
    isFieldCalled name k = true ↔ ∃ b c d g, k = .normalField name b c d g := by
  cases k <;> simp [isFieldCalled]

theorem builtinOptionField_eq (r : Reg) (cls : Ptr) (name : Str) :
    builtinOptionField r cls name = ((r.kids cls).find? fun x => isFieldCalled name x.2.kind).map Prod.fst := rfl

theorem builtin_named {r : Reg} {cls f : Ptr} {name : Str} :
    builtinOptionField r cls name = some f ↔ FieldNamed r cls name f := by
  rw [builtinOptionField_eq]
  have key := find_zipIdx (p := cls) (P := isFieldCalled name) ((r.children cls).getD []) 0
  constructor
  · intro h
    rw [Option.map_eq_some_iff] at h
    obtain ⟨x, hx, rfl⟩ := h
    unfold Reg.kids at hx
    rw [hx] at key
    obtain ⟨i, h1, h2, h3, h4⟩ := key
    cases hc : r.children cls with
    | none => rw [hc] at h1; simp at h1
    | some es =>
      rw [hc] at h1 h4
      obtain ⟨b, c, d, g, hk⟩ := isFieldCalled_iff.mp h3
      refine ⟨es, i, x.2, b, c, d, g, hc, by rw [h2, Nat.zero_add]; rfl, h1, hk, ?_⟩
      intro j e hj he b c d g hk'
      have := h4 j e hj he
      rw [isFieldCalled_iff.mpr ⟨b, c, d, g, hk'⟩] at this
      cases this
  · rintro ⟨es, i, e, b, c, d, g, hc, hf, he, hk, hmin⟩
    rw [Option.map_eq_some_iff]
    unfold Reg.kids
    rw [hc] at key ⊢
    simp only [Option.getD_some] at key ⊢
    cases hx : (kidsFrom cls 0 es).find? (fun x => isFieldCalled name x.2.kind) with
    | none =>
      rw [hx] at key
      have := key e (List.mem_of_getElem? he)
      rw [isFieldCalled_iff.mpr ⟨b, c, d, g, hk⟩] at this
      cases this
    | some x =>
      rw [hx] at key
      obtain ⟨i', h1, h2, h3, h4⟩ := key
      have hii : i' = i := by
        rcases Nat.lt_trichotomy i' i with h | h | h
        · obtain ⟨b, c, d, g, hk'⟩ := isFieldCalled_iff.mp h3
          exact absurd hk' (hmin i' x.2 h h1 b c d g)
        · exact h
        · have := h4 i e h he
          rw [isFieldCalled_iff.mpr ⟨b, c, d, g, hk⟩] at this
          cases this
      exact ⟨x, rfl, by rw [h2, hf, hii, Nat.zero_add]; rfl⟩

theorem builtin_none {r : Reg} {cls : Ptr} {name : Str} :
    builtinOptionField r cls name = none ↔ NoFieldNamed r cls name := by
  rw [builtinOptionField_eq]
  have key := find_zipIdx (p := cls) (P := isFieldCalled name) ((r.children cls).getD []) 0
  unfold Reg.kids
  cases hx : (kidsFrom cls 0 ((r.children cls).getD [])).find? (fun x => isFieldCalled name x.2.kind) with
  | none =>
    rw [hx] at key
    simp only [Option.map_none, true_iff]
    intro e he b c d g hk
    have := key e he
    rw [isFieldCalled_iff.mpr ⟨b, c, d, g, hk⟩] at this
    cases this
  | some x =>
    rw [hx] at key
    obtain ⟨i, h1, h2, h3, h4⟩ := key
    obtain ⟨b, c, d, g, hk⟩ := isFieldCalled_iff.mp h3
    simp only [Option.map_some, reduceCtorEq, false_iff]
    intro h
    exact h x.2 (List.mem_of_getElem? h1) b c d g hk

/-- The outcome of `newOption` on an option element. -/
theorem newOption_binds {r : Reg} {scope : Str} {cls opt f : Ptr} {written : Str} {lit : Literal}
    (hk : r.kind opt = some (.option written lit)) (hb : Binds r scope cls written f) :
    newOption scope cls opt r = (.ok (.option r.next opt cls f), { r with next := r.next + 1 }) := by
  unfold newOption
  simp only [M.bind_apply, M.get_apply, hk]
  rcases hb with ⟨hr, a, b, c, d, e, hf⟩ | ⟨hu, hn⟩
  · obtain ⟨c', h1, h2⟩ := refers_resolve hr
    have h1' : resolveNameRaw r.defined scope (stripParens written) = (c', true) := h1
    simp only [h1', h2, hf, M.bind_apply, M.alloc_apply, M.pure_apply]
  · have h1 := unresolved_iff.mp hu
    have h1' : (resolveNameRaw r.defined scope (stripParens written)).2 = false := h1
    rcases hx : resolveNameRaw r.defined scope (stripParens written) with ⟨c', b⟩
    rw [hx] at h1'
    simp only at h1'
    subst h1'
    simp only [builtin_named.mpr hn, M.bind_apply, M.alloc_apply, M.pure_apply]

theorem newOption_ok {r r' : Reg} {scope : Str} {cls opt : Ptr} {n : Node}
    (h : newOption scope cls opt r = (.ok n, r')) :
    ∃ written lit f, r.kind opt = some (.option written lit) ∧ Binds r scope cls written f ∧
      n = .option r.next opt cls f ∧ r' = { r with next := r.next + 1 } := by
  unfold newOption at h
  simp only [M.bind_apply, M.get_apply] at h
  rcases hk : r.kind opt with _ | kd
  · rw [hk] at h; simp [M.panic_apply] at h
  rw [hk] at h
  cases kd <;> simp only [M.panic_apply, Prod.mk.injEq, reduceCtorEq, false_and] at h
  case option written lit =>
  refine ⟨written, lit, ?_⟩
  rcases hx : resolveNameRaw r.defined scope (stripParens written) with ⟨c', b⟩
  rw [hx] at h
  cases b with
  | true =>
    simp only at h
    rcases hreg : r.registry c' with _ | f
    · rw [hreg] at h; simp [M.panic_apply] at h
    rw [hreg] at h
    simp only at h
    rcases hf : r.kind f with _ | kf
    · rw [hf] at h; simp [M.panic_apply] at h
    rw [hf] at h
    cases kf <;> simp only [M.panic_apply, Prod.mk.injEq, reduceCtorEq, false_and] at h
    simp only [M.bind_apply, M.alloc_apply, M.pure_apply, Prod.mk.injEq, Res.ok.injEq] at h
    exact ⟨f, rfl, .inl ⟨resolve_refers hx hreg, _, _, _, _, _, hf⟩, h.1.symm, h.2.symm⟩
  | false =>
    simp only at h
    rcases hbf : builtinOptionField r cls written with _ | f
    · rw [hbf] at h; simp [M.panic_apply] at h
    rw [hbf] at h
    simp only [M.bind_apply, M.alloc_apply, M.pure_apply, Prod.mk.injEq, Res.ok.injEq] at h
    refine ⟨f, rfl, .inr ⟨unresolved_iff.mpr ?_, builtin_named.mp hbf⟩, h.1.symm, h.2.symm⟩
    show (resolveNameRaw r.defined scope (stripParens written)).2 = false
    rw [hx]

theorem optionClass_ok {r : Reg} {className : Str} {cls : Ptr} (h : ClassAt r className cls) :
    optionClass className r = (.ok cls, r) := by
  obtain ⟨h1, n, e, h2⟩ := h
  unfold optionClass
  simp only [M.bind_apply, M.get_apply, h1, h2, M.pure_apply]

theorem optionClass_classAt {r r' : Reg} {className : Str} {cls : Ptr}
    (h : optionClass className r = (.ok cls, r')) : ClassAt r className cls ∧ r' = r := by
  unfold optionClass at h
  simp only [M.bind_apply, M.get_apply] at h
  rcases h1 : r.registry className with _ | q
  · rw [h1] at h; simp [M.panic_apply] at h
  rw [h1] at h
  simp only at h
  rcases h2 : r.kind q with _ | kd
  · rw [h2] at h; simp [M.panic_apply] at h
  rw [h2] at h
  cases kd <;> simp only [M.panic_apply, M.pure_apply, Prod.mk.injEq, Res.ok.injEq, reduceCtorEq, false_and] at h
  obtain ⟨rfl, rfl⟩ := h
  exact ⟨⟨h1, _, _, h2⟩, rfl⟩

/-! ### Everything -/

/-- Options have no recorded scope. -/
theorem option_scope {r : Reg} (hs : Sound r) {p : Ptr} {w l} (hk : r.kind p = some (.option w l)) :
    r.scope (.at p) = [] := by
  unfold Reg.scope
  cases hsc : r.scopes (.at p) with
  | none => rfl
  | some s =>
    exfalso
    have hne : p.path ≠ [] := by
      intro h0
      unfold Reg.kind Reg.elem at hk
      rw [h0] at hk
      cases hh : r.heap[p.file]? <;> simp [hh, ProtoFile.elemAt] at hk
    obtain ⟨f, hf, hq⟩ := hs.scopes p s hsc hne
    cases hp : p.path with
    | nil => exact hne hp
    | cons j rest =>
      have he : f.elemAt (j :: rest) = (r.elem p) := by
        simp [Reg.elem, hf, hp]
      rw [hp] at hq
      unfold Reg.kind at hk
      rw [Option.map_eq_some_iff] at hk
      obtain ⟨e, h1, h2⟩ := hk
      rw [h1] at he
      unfold ProtoFile.fqn at hq
      simp only [he, Option.bind_some, h2, Kind.declName] at hq
      revert hq
      cases f.scopeAt rest <;> simp

theorem hasNode_wrapKind {kd : Kind} (h : kd.hasNode = true) : ∃ k, wrapKind kd = some k := by
  cases kd <;> simp [Kind.hasNode, wrapKind] at h ⊢

theorem Refers.congr {r r' : Reg} (h : r'.registry = r.registry) {s n q} (g : Refers r s n q) : Refers r' s n q := by
  unfold Refers Reg.defined at *
  rw [h]; exact g

theorem Unresolved.congr {r r' : Reg} (h : r'.registry = r.registry) {s n} (g : Unresolved r s n) :
    Unresolved r' s n := by
  unfold Unresolved at *
  rw [h]; exact g

theorem Binds.congr {r r' : Reg} (hh : r'.heap = r.heap) (hr : r'.registry = r.registry) {s cls w f}
    (g : Binds r s cls w f) : Binds r' s cls w f := by
  have hkd : ∀ p, r'.kind p = r.kind p := fun p => by simp [Reg.kind, Reg.elem, hh]
  have hch : ∀ p, r'.children p = r.children p := fun p => by simp [Reg.children, hh]
  rcases g with ⟨g1, a, b, c, d, e, g2⟩ | ⟨g1, g2⟩
  · exact .inl ⟨g1.congr hr, a, b, c, d, e, by rw [hkd]; exact g2⟩
  · refine .inr ⟨g1.congr hr, ?_⟩
    unfold FieldNamed at *
    rw [hch]; exact g2

theorem ClassAt.congr {r r' : Reg} (hh : r'.heap = r.heap) (hr : r'.registry = r.registry) {c p}
    (g : ClassAt r c p) : ClassAt r' c p := by
  unfold ClassAt Reg.kind Reg.elem at *
  rw [hh, hr]; exact g

theorem Representable.congr {r r' : Reg} (hh : r'.heap = r.heap) (hr : r'.registry = r.registry) {c e}
    (g : Representable r c e) : Representable r' c e := by
  rcases g with g | ⟨w, l, cls, f, h1, h2, h3⟩
  · exact .inl g
  · exact .inr ⟨w, l, cls, f, h1, h2.congr hh hr, h3.congr hh hr⟩

theorem everything_step {o r} (hi : Inv o r) (hs : Sound r) {className : Str} {q : Ptr} {e : Elem}
    (he : r.elem q = some e) (hu : Under r q) (hrep : Representable r className e) :
    ∃ m n o' r', everythingStep className q e.kind = some m ∧ m r = (.ok (some n), r') ∧ n.place = some q ∧
      Ext o r o' r' ∧ Inv o' r' ∧ CacheExt r r' := by
  have hkd : r.kind q = some e.kind := by simp [Reg.kind, he]
  rcases hrep with hk0 | ⟨w, l, cls, f, hk, hc, hb⟩
  · obtain ⟨k, hk⟩ := hasNode_wrapKind hk0
    obtain ⟨a, o', r', h1, h2, h3, h4⟩ := wrap_full hi (target_of_elem he hk) hu
    refine ⟨wrap (.at q), .wrapped a k q, o', r', ?_, h1, rfl, h2, h3, ?_⟩
    · unfold everythingStep
      cases hkk : e.kind <;> first | rfl | (rw [hkk] at hk; cases hk)
    · have := RO.wrap (.at q) r
      rw [h1] at this; exact this
  · rw [hk] at hkd
    have hrun : (do
        let cls ← optionClass className
        let o ← wrapOption q cls
        pure (some o) : M (Option Node)) r =
        (.ok (some (.option r.next q cls f)), { r with next := r.next + 1 }) := by
      simp only [M.bind_apply, optionClass_ok hc, wrapOption, M.get_apply, option_scope hs hkd,
        newOption_binds hkd hb, M.pure_apply]
    obtain ⟨o', h1, h2, _⟩ := everythingStep_tri hi (c := className) (k := .option w l) hu rfl
    rw [hrun] at h1 h2
    refine ⟨_, .option r.next q cls f, o', _, by rw [hk]; rfl, hrun, rfl, h1, h2, ?_⟩
    exact ⟨rfl, rfl, rfl, rfl, fun _ _ h => h, fun _ _ h => h, Nat.le_succ _, fun _ _ _ _ h => .inl h⟩

theorem everything_collect {className : Str} : ∀ (l : List (Ptr × Elem)) {o r}, Inv o r → Sound r → Present r l →
    (∀ x ∈ l, Representable r className x.2) →
    ∃ ns r', collectSteps (l.filterMap fun x => everythingStep className x.1 x.2.kind) r = (.ok ns, r') ∧
      ns.map (fun n => n.bind Node.place) = l.map fun x => some x.1 := by
  intro l
  induction l with
  | nil => intro o r _ _ _ _; exact ⟨[], r, rfl, rfl⟩
  | cons x l ih =>
    intro o r hi hs hp hrep
    obtain ⟨m, n, o', r', h1, h2, h3, h4, h5, h6⟩ := everything_step hi hs (hp x (by simp)).1
      (hp x (by simp)).2 (hrep x (by simp))
    obtain ⟨ns, r2, g1, g2⟩ := ih h5 (hs.cacheExt h6) (present_ext h4 fun y hy => hp y (by simp [hy]))
      (fun y hy => (hrep y (by simp [hy])).congr h6.heap h6.registry)
    refine ⟨some n :: ns, r2, ?_, ?_⟩
    · rw [List.filterMap_cons, h1]
      simp only [collectSteps, M.bind_apply, h2, g1, M.pure_apply]
    · simp only [List.map_cons, Option.bind_some, h3, g2]

theorem everything_all {o r} (hi : Inv o r) (hs : Sound r) {className : Str} {p : Ptr}
    (hroot : Rooted r p) (hrep : ∀ e ∈ (r.children p).getD [], Representable r className e) :
    EnumeratesAll r (overKids p (everythingStep className)) p := by
  obtain ⟨ns, r', h1, h2⟩ := everything_collect (r.kids p) hi hs (present_kids hroot) (className := className) (by
    intro x hx
    rw [kids_zipIdx, List.mem_map] at hx
    obtain ⟨⟨e, i⟩, h1, rfl⟩ := hx
    exact hrep e (List.fst_mem_of_mem_zipIdx h1))
  refine ⟨ns, r', ?_, ?_⟩
  · unfold Seq.collect
    simp only [M.bind_apply, overKids_apply]
    exact h1
  · rw [h2, kids_zipIdx, List.map_map]
    rfl

end Protoast
