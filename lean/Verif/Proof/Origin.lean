import Verif.Spec.Origin
import Verif.Props.OptionsExact
/-
  Calls that return option nodes.
-/
namespace Protoast
open Protoast.Props

/-- Not an option node. -/
def NotOption : Node → Prop
  | .option _ _ _ _ => False
  | _ => True

/-- Not an option node, if not nil. -/
def NoOpt (_ : Ghost) (_ : Reg) (x : Option Node) : Prop := ∀ n, x = some n → NotOption n

/-- No option node in the list. -/
def NoOpts (_ : Ghost) (_ : Reg) (l : List Node) : Prop := ∀ n ∈ l, NotOption n

theorem notOption_type {n : Node} (h : n.isType = true) : NotOption n := by
  cases n <;> first | trivial | cases h

theorem noOpt_T {o r x} (h : GoodT o r x) : NoOpt o r x := fun n hn => notOption_type (h n hn).1

theorem wrapAs_no {o r} (hi : Inv o r) {k p} (hp : Under r p) :
    Tri o r (wrapAs k p) (fun _ _ n => NotOption n) :=
  (wrapAs_tri hi hp).mono fun _ _ _ _ _ _ ⟨_, h1, _⟩ => by subst h1; trivial

theorem wrap_no {o r} (hi : Inv o r) {v : Vis} (hv : ∀ p, v = .at p → Under r p) : Tri o r (wrap v) NoOpt :=
  (wrap_tri hi hv).mono fun _ _ _ _ _ _ h n hn => by
    obtain ⟨a, k, p, _, h2, _, _⟩ := h n hn
    subst h2; trivial

theorem wrapNamed_no {o r} (hi : Inv o r) {p} (hp : Under r p) : Tri o r (wrapNamed p) (fun _ _ n => NotOption n) := by
  unfold wrapNamed
  refine Tri.bind (wrap_no hi (v := .at p) (by intro q hq; cases hq; exact hp)) fun o' r' x _ _ hi' hq => ?_
  split
  · exact Tri.pure hi' (hq _ rfl)
  · exact Tri.pure hi' (hq _ rfl)
  · exact Tri.panic hi'

theorem assertKind_no {o r} (hi : Inv o r) {k : WKind} {t : Option Node} (h : NoOpt o r t) :
    Tri o r (assertKind k t) (fun _ _ n => NotOption n) := by
  unfold assertKind
  split
  · split
    · exact Tri.pure hi (h _ rfl)
    · exact Tri.panic hi
  · exact Tri.panic hi

theorem methodInput_no {o r} (hi : Inv o r) (p : Ptr) :
    Tri o r (Method.input p) (fun _ _ x => NotOption x.2) := by
  unfold Method.input
  refine Tri.get ?_
  split
  · refine Tri.bind (getTypeByName_tri hi p _) fun o' r' t _ _ hi' hq => ?_
    refine Tri.bind (assertKind_no hi' (noOpt_T hq.1)) fun o' r' t _ _ hi' hq => ?_
    exact Tri.pure hi' hq
  · exact Tri.panic hi

theorem methodOutput_no {o r} (hi : Inv o r) (p : Ptr) :
    Tri o r (Method.output p) (fun _ _ x => NotOption x.2) := by
  unfold Method.output
  refine Tri.get ?_
  split
  · refine Tri.bind (getTypeByName_tri hi p _) fun o' r' t _ _ hi' hq => ?_
    refine Tri.bind (assertKind_no hi' (noOpt_T hq.1)) fun o' r' t _ _ hi' hq => ?_
    exact Tri.pure hi' hq
  · exact Tri.panic hi

theorem mapKey_no {o r} (hi : Inv o r) (p : Ptr) : Tri o r (Map.key p) (fun _ _ x => NotOption x) := by
  unfold Map.key
  refine Tri.get ?_
  split
  · split
    · exact Tri.pure hi trivial
    · exact Tri.panic hi
  · exact Tri.panic hi

theorem mapValue_no {o r} (hi : Inv o r) (p : Ptr) : Tri o r (Map.value p) (fun _ _ x => NotOption x) := by
  unfold Map.value
  refine Tri.get ?_
  split
  · split
    · exact Tri.pure hi trivial
    · split
      · exact Tri.panic hi
      · next q hq =>
        split
        · exact wrapAs_no hi (hi.regRooted _ _ hq).under
        · exact wrapAs_no hi (hi.regRooted _ _ hq).under
        · exact Tri.panic hi
  · exact Tri.panic hi

theorem firstKid_no {o r} (hi : Inv o r) {p k sel} (hp : Rooted r p) : Tri o r (firstKid p k sel) NoOpt :=
  (firstKid_tri hi hp).mono fun _ _ _ _ _ _ h n hn => by
    obtain ⟨a, q, rfl, _⟩ := h n hn
    trivial

theorem wrapSome_no {o r} (hi : Inv o r) {k p} (hp : Under r p) :
    Tri o r (do let n ← wrapAs k p; pure (some n)) NoOpt :=
  Tri.bind (wrapAs_no hi hp) fun _ _ _ _ _ hi' hg => Tri.pure hi' fun x hx => by cases hx; exact hg

theorem fileType_no {o r} (hi : Inv o r) {p s} (hp : Rooted r p) : Tri o r (File.type p s) NoOpt := by
  unfold File.type
  refine Tri.get ?_
  split
  · next q e h =>
    have := kids_under hp (List.mem_of_find?_eq_some h)
    split <;> exact wrapSome_no hi this
  · exact Tri.pure hi (by intro x hx; cases hx)

theorem messageType_no {o r} (hi : Inv o r) {p s} (hp : Rooted r p) : Tri o r (Message.type p s) NoOpt := by
  unfold Message.type
  refine Tri.get ?_
  split
  · next q e h =>
    have := kids_under hp (List.mem_of_find?_eq_some h)
    split <;> exact wrapSome_no hi this
  · exact Tri.pure hi (by intro x hx; cases hx)

theorem wrapParent_no {o r} (hi : Inv o r) {p : Ptr} (hp : Under r p) : Tri o r (wrap p.parent) NoOpt := by
  obtain ⟨o', h1, h2, h3⟩ := wrapParent_good hi hp
  refine ⟨o', h1, h2, fun x hx n hn => ?_⟩
  subst hn
  have hr : wrap p.parent r = (.ok (some n), (wrap p.parent r).2) := by rw [← hx]
  unfold wrap at hr
  split at hr
  · next m hc =>
    simp only [Prod.mk.injEq, Res.ok.injEq] at hr
    obtain ⟨hm, _⟩ := hr
    subst hm
    obtain ⟨a, k, q, _, e, _⟩ := hi.cacheSome _ _ hc
    rw [e]; trivial
  · split at hr
    · cases hr; trivial
    · cases hr

theorem nodeParent_no {o r} (hi : Inv o r) : (n : Node) → Good o r n → Tri o r (nodeParent n) NoOpt
  | .repeated a (some t), g => by
    unfold nodeParent
    exact nodeParent_no hi t g.2.2
  | .repeated a none, _ => Tri.panic hi
  | .wrapped a k p, g => by
    have hp := (GoodW.rooted g).under
    unfold nodeParent
    refine Tri.get ?_
    cases k <;> first | exact wrapParent_no hi hp | skip
    · exact Tri.pure hi (by intro x hx; cases hx)
    · simp only
      split <;> first | exact wrapParent_no hi hp | exact Tri.panic hi
  | .oneof a p, g => wrapParent_no hi g.2.2.under
  | .option a p c f, g => wrapParent_no hi g.2.1.2
  | .value v, g => by
    unfold nodeParent
    have := goodVal_opt g
    split
    · next q hq =>
      rw [hq] at this
      exact wrap_no hi (by intro x hx; cases hx; exact this.2)
    · exact wrap_no hi (by intro x hx; cases hx)
  | .map _ _, _ => Tri.panic hi
  | .builtin _, _ => Tri.panic hi
  | .mapItem _ _, _ => Tri.panic hi

/-- The nodes of a hierarchy but the first are not options. -/
theorem hierarchy_no : ∀ (fuel : Nat) {o r}, Inv o r → ∀ {x : Option Node}, GoodO o r x →
    Tri o r (nodeHierarchy fuel x) (fun _ _ ns => ∀ n ∈ ns, some n = x ∨ NotOption n) := by
  intro fuel
  induction fuel with
  | zero =>
    intro o r hi x g
    cases x with
    | none => exact Tri.pure hi (by simp)
    | some n => exact ⟨o, Ext.refl _ _, hi, by intro a ha; cases ha⟩
  | succ fuel ih =>
    intro o r hi x g
    cases x with
    | none => exact Tri.pure hi (by simp)
    | some n =>
      unfold nodeHierarchy
      obtain ⟨o0, e1, e2, e3⟩ := nodeParent_no hi n (g n rfl)
      refine Tri.bind (nodeParent_tri hi n (g n rfl)) fun o1 r1 y hy hx1 hi1 hq1 => ?_
      rw [hy] at e3
      refine Tri.bind (ih hi1 hq1) fun o2 r2 ns _ hx2 hi2 hq2 => Tri.pure hi2 ?_
      intro m hm
      rcases List.mem_cons.mp hm with rfl | h
      · exact .inl rfl
      · rcases hq2 m h with h | h
        · exact .inr (e3 y rfl m h.symm)
        · exact .inr h

theorem nodeFile_no {o r} (hi : Inv o r) (n : Node) : Tri o r (nodeFile n) NoOpt := by
  unfold nodeFile
  refine Tri.bind (Tri.rd (Rd.nodePos n) hi) fun o1 r1 ps _ hx1 hi1 _ => ?_
  refine Tri.get ?_
  split
  · exact Tri.pure hi1 (by intro x hx; cases hx)
  · next i hp =>
    obtain ⟨f, hf, _⟩ := hi1.protosHeap _ _ hp
    exact wrapSome_no hi1 (rooted_file (List.getElem?_eq_some_iff.mp hf).1).under

theorem parts_no (v : OptVal) : ∀ n ∈ v.parts, NotOption n := by
  intro n hn
  cases v <;> simp only [OptVal.parts, List.not_mem_nil, List.mem_cons, or_false, List.mem_map] at hn
  · subst hn; trivial
  · obtain ⟨_, _, rfl⟩ := hn; trivial
  · obtain ⟨_, _, rfl⟩ := hn; trivial

theorem noOpts_toList {o r x} (h : NoOpt o r x) : NoOpts o r x.toList := by
  intro n hn
  cases x with
  | none => simp at hn
  | some y => simp at hn; subst hn; exact h _ rfl

theorem Tri.toListNo {m : M (Option Node)} {o r} (h : Tri o r m NoOpt) :
    Tri o r (m >>= fun x => Pure.pure x.toList) NoOpts :=
  Tri.bind h fun _ _ _ _ _ hi hx => Tri.pure hi (noOpts_toList hx)

/-- The results of the calls that are neither iterators nor lookups: no options but the receiver itself. -/
theorem plain_no {o r} (hi : Inv o r) (q : PlainQ) {n : Node} (g : Good o r n) :
    Tri o r (q.run n) (fun _ _ l => ∀ m ∈ l, m = n ∨ NotOption m) := by
  have lift : ∀ {m : M (List Node)}, Tri o r m NoOpts → Tri o r m (fun _ _ l => ∀ x ∈ l, x = n ∨ NotOption x) :=
    fun h => h.mono fun _ _ _ _ _ _ h x hx => .inr (h x hx)
  have one : ∀ {α} {m : M α} {f : α → Node}, Tri o r m (fun _ _ x => NotOption (f x)) →
      Tri o r (m >>= fun x => Pure.pure [f x]) NoOpts := fun h =>
    Tri.bind h fun _ _ _ _ _ hi hx => Tri.pure hi (by intro y hy; simp at hy; subst hy; exact hx)
  have nil : ∀ {α} {m : M α}, Tri o r (m >>= fun _ => Pure.pure []) GoodL →
      Tri o r (m >>= fun _ => Pure.pure []) (fun _ _ l => ∀ x ∈ l, x = n ∨ NotOption x) := by
    intro α m h
    refine h.mono fun o' r' l hl _ _ _ => ?_
    have : l = [] := by
      simp only [M.bind_apply] at hl
      split at hl <;> cases hl
      rfl
    rw [this]
    intro x hx; cases hx
  have main := plainRun_tri hi q g
  unfold PlainQ.run at main ⊢
  split
  · exact lift (Tri.toListNo ((fieldType_tri hi g).mono fun _ _ _ _ _ _ h => noOpt_T h.1))
  · exact lift (Tri.toListNo ((branchType_tri hi _).mono fun _ _ _ _ _ _ h => noOpt_T h))
  · exact lift (one (methodInput_no hi _))
  · exact lift (one (methodOutput_no hi _))
  · exact lift (one (mapKey_no hi _))
  · exact lift (one (mapValue_no hi _))
  · next t =>
    refine lift (Tri.pure hi ?_)
    cases t with
    | none => intro n hn; simp at hn
    | some t => intro n hn; simp at hn; subst hn; exact notOption_type g.2.1
  · exact lift (one (f := Node.value) ((optionValue_tri hi _ _ g.2.1.2).mono fun _ _ _ _ _ _ _ => trivial))
  · exact lift (Tri.pure hi (parts_no _))
  · refine lift (Tri.pure hi ?_)
    intro n hn; simp at hn; subst hn; trivial
  · exact lift (Tri.toListNo (nodeParent_no hi n g))
  · refine (hierarchy_no _ hi (x := some n) (by intro x hx; cases hx; exact g)).mono fun _ _ _ _ _ _ h m hm => ?_
    rcases h m hm with h | h
    · cases h; exact .inl rfl
    · exact .inr h
  · exact lift (Tri.toListNo (nodeFile_no hi n))
  all_goals first
    | exact nil main
    | exact Tri.pure hi (by intro n hn; cases hn)

/-! ### The calls that make options -/

/-- What a new option node of a receiver with class name `cn` and statements at `p` is, names looked up in `s`. -/
def NewOption (r : Reg) (p : Ptr) (cn s : Str) (x : Node) : Prop :=
  ∃ a q cls f w, x = .option a q cls f ∧ ClassAt r cn cls ∧ (q, w) ∈ optionsOf r p ∧ Binds r s cls w f

theorem mem_optionsOf {r : Reg} {p q : Ptr} {e : Elem} {w l} (h : (q, e) ∈ r.kids p) (hk : e.kind = .option w l) :
    (q, w) ∈ optionsOf r p := by
  rw [optionsOf_kids, List.mem_filterMap]
  exact ⟨(q, e), h, by simp [optionOf, hk]⟩

theorem newOption_made {r r' : Reg} {s cn : Str} {cls p q : Ptr} {e : Elem} {w l} {x : Node} (hcl : ClassAt r cn cls)
    (h1 : (q, e) ∈ r.kids p) (hk : e.kind = .option w l) (h : newOption s cls q r = (.ok x, r')) :
    NewOption r p cn s x := by
  obtain ⟨w', l', f, h2, h3, h4, _⟩ := newOption_ok h
  have := kids_kind h1
  rw [this, hk] at h2
  cases h2
  exact ⟨_, q, cls, f, w, h4, hcl, mem_optionsOf h1 hk, h3⟩

theorem nth_ok {α} {p : Ptr} {pick : Ptr → Kind → Option (M α)} {r r' : Reg} {i : Nat} {x : α}
    (h : Seq.nth (overKids p pick) i r = (.ok (some x), r')) :
    ∃ q e m, (q, e) ∈ r.kids p ∧ pick q e.kind = some m ∧ m r = (.ok x, r') := by
  unfold Seq.nth at h
  simp only [M.bind_apply, overKids_apply] at h
  rcases hm : (List.filterMap (fun x => pick x.1 x.2.kind) (r.kids p))[i]? with _ | m
  · have hm2 : ((r.kids p).filterMap fun (q, e) => pick q e.kind)[i]? = none := hm
    rw [hm2] at h
    cases h
  · have hm2 : ((r.kids p).filterMap fun (q, e) => pick q e.kind)[i]? = some m := hm
    rw [hm2] at h
    have hm' := List.mem_of_getElem? hm
    rw [List.mem_filterMap] at hm'
    obtain ⟨⟨q, e⟩, h1, h2⟩ := hm'
    refine ⟨q, e, m, h1, h2, ?_⟩
    simp only [M.bind_apply] at h
    rcases hr : m r with ⟨res, r1⟩
    rw [hr] at h
    cases res <;> cases h
    rfl

theorem everything_made {o r} (hi : Inv o r) (hs : Sound r) {cn : Str} {p : Ptr} {i : Nat} (hp : Rooted r p) {r' : Reg}
    {x : Node} (h : (do let x ← Seq.nth (overKids p (everythingStep cn)) i; pure (flatOpt x)) r = (.ok (some x), r')) :
    NotOption x ∨ NewOption r p cn [] x := by
  simp only [M.bind_apply] at h
  rcases hr : Seq.nth (overKids p (everythingStep cn)) i r with ⟨res, r1⟩
  rw [hr] at h
  cases res with
  | panic e => cases h
  | timeout => cases h
  | ok y =>
    simp only [M.pure_apply, Prod.mk.injEq, Res.ok.injEq] at h
    obtain ⟨h, rfl⟩ := h
    cases y with
    | none => cases h
    | some y =>
      simp only [flatOpt] at h
      subst h
      obtain ⟨q, e, m, h1, h2, h3⟩ := nth_ok hr
      unfold everythingStep at h2
      split at h2
      · next w l hk =>
        cases h2
        right
        simp only [M.bind_apply] at h3
        rcases hc : optionClass cn r with ⟨res, r2⟩
        rw [hc] at h3
        cases res with
        | panic e => cases h3
        | timeout => cases h3
        | ok cls =>
          obtain ⟨hcl, rfl⟩ := optionClass_classAt hc
          simp only [wrapOption, M.bind_apply, M.get_apply] at h3
          rw [option_scope hs (by rw [kids_kind h1, hk])] at h3
          rcases hn : newOption [] cls q r2 with ⟨res, r3⟩
          rw [hn] at h3
          cases res with
          | panic e => cases h3
          | timeout => cases h3
          | ok z =>
            cases h3
            exact newOption_made hcl h1 hk hn
      · cases h2
        left
        obtain ⟨_, _, _, h4⟩ := wrap_no hi (v := .at q) (by intro y hy; cases hy; exact kids_under hp h1)
        exact h4 (some x) (by rw [h3]) x rfl

theorem methodOptions_made {r} (hs : Sound r) {p : Ptr} {i : Nat} {r' : Reg} {x : Node}
    (h : (Method.options p).nth i r = (.ok (some x), r')) : NewOption r p registryOptionsMethod [] x := by
  unfold Method.options at h
  obtain ⟨q, e, m, h1, h2, h3⟩ := nth_ok h
  split at h2
  · next w l hk =>
    cases h2
    simp only [M.bind_apply] at h3
    rcases hc : optionClass registryOptionsMethod r with ⟨res, r2⟩
    rw [hc] at h3
    cases res with
    | panic e => cases h3
    | timeout => cases h3
    | ok cls =>
      obtain ⟨hcl, rfl⟩ := optionClass_classAt hc
      simp only [wrapOption, M.bind_apply, M.get_apply] at h3
      rw [option_scope hs (by rw [kids_kind h1, hk])] at h3
      exact newOption_made hcl h1 hk h3
  · cases h2

theorem seqOptions_made {r} {p : Ptr} {s cn : Str} {i : Nat} {r' : Reg} {x : Node}
    (h : (do let y ← seqOptions s cn p; y.nth i) r = (.ok (some x), r')) : NewOption r p cn s x := by
  unfold seqOptions at h
  simp only [M.bind_apply] at h
  rcases hc : optionClass cn r with ⟨res, r2⟩
  rw [hc] at h
  cases res with
  | panic e => cases h
  | timeout => cases h
  | ok cls =>
    obtain ⟨hcl, rfl⟩ := optionClass_classAt hc
    simp only [M.pure_apply] at h
    obtain ⟨q, e, m, h1, h2, h3⟩ := nth_ok h
    split at h2
    · next w l hk =>
      cases h2
      exact newOption_made hcl h1 hk h3
    · cases h2

theorem namedOption_made {r} {p : Ptr} {s cn name : Str} {r' : Reg} {x : Node}
    (h : namedOption name s cn p r = (.ok (some x), r')) : NewOption r p cn s x := by
  have h0 := h
  unfold namedOption at h0
  simp only [M.bind_apply] at h0
  rcases hc : optionClass cn r with ⟨res, r2⟩
  rw [hc] at h0
  cases res with
  | panic e => cases h0
  | timeout => cases h0
  | ok cls =>
    obtain ⟨hcl, rfl⟩ := optionClass_classAt hc
    rw [namedOption_eq hcl] at h
    rcases hf : (r2.kids p).find? (fun x => optionOf x == some (x.1, name)) with _ | ⟨q, e⟩
    · rw [hf] at h; cases h
    · rw [hf] at h
      have hm := List.mem_of_find?_eq_some hf
      have hp := List.find?_some hf
      simp only [beq_iff_eq, optionOf] at hp
      split at hp
      · next w l hk =>
        simp only [M.bind_apply] at h
        rcases hn : newOption s cls q r2 with ⟨res, r3⟩
        rw [hn] at h
        cases res with
        | panic e => cases h
        | timeout => cases h
        | ok z =>
          cases h
          exact newOption_made hcl hm hk hn
      · cases hp

/-- `Options` and `OptionNamed` work on the statements of the node, with the class of its kind, in the scope recorded for
    it. -/
theorem options_shape {o r} {n : Node} (g : Good o r n) :
    (∃ p cn s, optionClassOf r n = some (p, cn) ∧ options n r = seqOptions s cn p r ∧
      (∀ name, optionNamed n name r = namedOption name s cn p r ∨ ∃ e, optionNamed n name r = (.panic e, r)) ∧
      ((∀ a p, n ≠ .wrapped a .file p) → s = r.scope (.at p)) ∧ n.decl = some p ∧
      ((∃ a, n = .wrapped a .file p) → s = firstPackage ((r.children p).getD []))) ∨
    (∃ e, options n r = (.panic e, r) ∧ ∀ name, ∃ e, optionNamed n name r = (.panic e, r)) := by
  cases n with
  | wrapped a k p =>
    cases k with
    | messageField =>
      have hw : GoodW o r a .messageField p := g
      rcases fieldKind_cases hw.target with ⟨n, t, s, rep, op, hk⟩ | ⟨n, hk⟩ | ⟨n, kt, t, s, hk⟩ <;>
        refine .inl ⟨p, _, _, by simp only [optionClassOf, hk]; rfl, ?_, ?_, fun _ => rfl, rfl, by rintro ⟨_, h⟩; cases h⟩
      · simp only [options, M.bind_apply, M.get_apply, hk]; rfl
      · intro name
        exact .inr ⟨_, by simp only [optionNamed, M.bind_apply, M.get_apply, hk]; rfl⟩
      · simp only [options, M.bind_apply, M.get_apply, hk]; rfl
      · intro name
        exact .inl (by simp only [optionNamed, M.bind_apply, M.get_apply, hk]; rfl)
      · simp only [options, M.bind_apply, M.get_apply, hk]; rfl
      · intro name
        exact .inl (by simp only [optionNamed, M.bind_apply, M.get_apply, hk]; rfl)
    | file => exact .inl ⟨p, _, _, rfl, rfl, fun _ => .inl rfl, fun h => absurd rfl (h a p), rfl, fun _ => rfl⟩
    | _ => first
      | exact .inr ⟨_, rfl, fun _ => ⟨_, rfl⟩⟩
      | exact .inl ⟨p, _, _, rfl, rfl, fun _ => .inl rfl, fun _ => rfl, rfl, by rintro ⟨_, h⟩; cases h⟩
  | oneof a p => exact .inl ⟨p, _, _, rfl, rfl, fun _ => .inl rfl, fun _ => rfl, rfl, by rintro ⟨_, h⟩; cases h⟩
  | _ => exact .inr ⟨_, rfl, fun _ => ⟨_, rfl⟩⟩

end Protoast
