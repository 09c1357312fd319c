import Verif.Props.Exact
import Verif.Props.Meta
/-
  C81, C82: loops over `Everything`, and `GoPackage`, exactly.
-/
namespace Protoast.Props
open Protoast

/-- What `Everything` delivers for the element `x`: its node; the option, bound at top level in the option class; nil for
    elements that have no node type. -/
def Delivered (r : Reg) (className : Str) (x : Ptr × Elem) (n : Option Node) : Prop :=
  (x.2.kind.hasNode = true ∧ ∃ a k, n = some (.wrapped a k x.1)) ∨
  (∃ w l a cls f, x.2.kind = .option w l ∧ ClassAt r className cls ∧ n = some (.option a x.1 cls f) ∧ Binds r [] cls w f) ∨
  (¬ Representable r className x.2 ∧ (∀ w l, x.2.kind ≠ .option w l) ∧ n = none)

/-- No entry of the node cache became nil. -/
def NoNewNil (r r' : Reg) : Prop := ∀ v, r'.cache v = some none → r.cache v = some none

theorem wrap_noNewNil {v : Vis} {r r' : Reg} {n : Option Node} (h : wrap v r = (.ok n, r')) : NoNewNil r r' := by
  unfold wrap at h
  split at h
  · cases h; exact fun _ h => h
  · split at h
    · cases h
      intro u hu
      simp only [upd] at hu
      split at hu
      · cases hu
      · exact hu
    · cases h

theorem target_eq {r : Reg} {q : Ptr} {e : Elem} (he : r.elem q = some e) :
    r.wrapTarget (.at q) = (wrapKind e.kind).map fun k => (k, q) := by
  cases h : wrapKind e.kind with
  | some k => exact target_of_elem he h
  | none =>
    unfold Reg.wrapTarget
    rcases q with ⟨i, path⟩
    cases path with
    | nil =>
      exfalso
      unfold Reg.elem at he
      cases hf : r.heap[i]? <;> simp [hf, ProtoFile.elemAt] at he
    | cons j rest => simp [Reg.kind, he, h]

theorem every_ok {o r r'} (hi : Inv o r) (hs : Sound r) {className : Str} {x : Ptr × Elem} {m : M (Option Node)}
    {n : Option Node} (he : r.elem x.1 = some x.2) (hu : Under r x.1)
    (hm : everythingStep className x.1 x.2.kind = some m) (h : m r = (.ok n, r')) :
    ∃ o', Ext o r o' r' ∧ Inv o' r' ∧ CacheExt r r' ∧ NoNewNil r r' ∧ Delivered r className x n := by
  have hkd : r.kind x.1 = some x.2.kind := by simp [Reg.kind, he]
  obtain ⟨o', h1, h2, h3⟩ := everythingStep_tri hi hu hm
  rw [h] at h1 h2 h3
  refine ⟨o', h1, h2, ?_⟩
  obtain ⟨q, e⟩ := x
  simp only at he hu hkd hm
  unfold everythingStep at hm
  split at hm
  · next w l hk =>
    cases hm
    simp only [M.bind_apply] at h
    rcases hx : optionClass className r with ⟨res, r1⟩
    rw [hx] at h
    cases res with
    | panic er => cases h
    | timeout => cases h
    | ok cp =>
      obtain ⟨hc, rfl⟩ := optionClass_classAt hx
      rw [hk] at hkd
      simp only [wrapOption, M.bind_apply, M.get_apply, option_scope hs hkd] at h
      rcases hy : newOption [] cp q _ with ⟨res, r2⟩
      rw [hy] at h
      cases res with
      | panic er => cases h
      | timeout => cases h
      | ok y =>
        cases h
        obtain ⟨w', l', f, e1, e2, rfl, rfl⟩ := newOption_ok hy
        rw [hkd] at e1; cases e1
        exact ⟨⟨rfl, rfl, rfl, rfl, fun _ _ h => h, fun _ _ h => h, Nat.le_succ _, fun _ _ _ _ h => .inl h⟩, fun _ h => h,
          .inr (.inl ⟨w, l, _, cp, f, hk, hc, rfl, e2⟩)⟩
  · next hno =>
    cases hm
    have hx := RO.wrap (.at q) r
    rw [h] at hx
    refine ⟨hx, wrap_noNewNil h, ?_⟩
    have ht := target_eq he
    cases hwk : wrapKind e.kind with
    | some k =>
      rw [hwk] at ht
      have hh : e.kind.hasNode = true := by
        cases hk : e.kind <;> first | rfl | (rw [hk] at hwk; cases hwk)
      refine .inl ⟨hh, ?_⟩
      obtain ⟨a, o2, r2, g1, _⟩ := wrap_full hi (target_of_elem he hwk) hu
      rw [g1] at h
      cases h
      exact ⟨a, k, rfl⟩
    | none =>
      rw [hwk] at ht
      refine .inr (.inr ⟨?_, hno, ?_⟩)
      · rintro (hh | ⟨w, l, _, _, hk, _⟩)
        · obtain ⟨k, hk⟩ := hasNode_wrapKind hh
          rw [hwk] at hk; cases hk
        · exact hno _ _ hk
      · unfold wrap at h
        split at h
        · next y hc =>
          cases h
          cases n with
          | none => rfl
          | some y =>
            obtain ⟨a, k, p, e1, rfl, e3, _⟩ := hi.cacheSome _ _ hc
            rw [ht] at e3; cases e3
        · rw [ht] at h; cases h

/-- The step at `x` delivers something. -/
def StepOk (r : Reg) (className : Str) (x : Ptr × Elem) : Prop :=
  ∃ m n r', everythingStep className x.1 x.2.kind = some m ∧ m r = (.ok n, r')

theorem stepOk_iff {o r} (hi : Inv o r) (hs : Sound r) {className : Str} {x : Ptr × Elem} (he : r.elem x.1 = some x.2)
    (hu : Under r x.1) :
    StepOk r className x ↔
      Representable r className x.2 ∨ ((∀ w l, x.2.kind ≠ .option w l) ∧ r.cache (.at x.1) = some none) := by
  constructor
  · rintro ⟨m, n, r', hm, h⟩
    obtain ⟨_, _, _, _, hnil, h1 | ⟨w, l, a, cls, f, h1, h2, h3, h4⟩ | ⟨h1, h2, h3⟩⟩ := every_ok hi hs he hu hm h
    · exact .inl (.inl h1.1)
    · exact .inl (.inr ⟨w, l, cls, f, h1, h2, h4⟩)
    · refine .inr ⟨h2, ?_⟩
      subst h3
      have hmw : m = wrap (.at x.1) := by
        unfold everythingStep at hm
        split at hm
        · next w l hk => exact absurd hk (h2 w l)
        · cases hm; rfl
      subst hmw
      unfold wrap at h
      split at h
      · next y hc => cases h; exact hc
      · split at h <;> cases h
  · rintro (hrep | ⟨h2, hc⟩)
    · obtain ⟨m, n, _, r', h1, h2, _⟩ := everything_step hi hs he hu hrep
      exact ⟨m, _, r', h1, h2⟩
    · refine ⟨wrap (.at x.1), none, r, ?_, ?_⟩
      · unfold everythingStep
        split
        · next w l hk => exact absurd hk (h2 w l)
        · rfl
      · unfold wrap; rw [hc]

theorem stepOk_back {o r o' r'} (hi : Inv o r) (hs : Sound r) (hi' : Inv o' r') (hext : Ext o r o' r')
    (hx : CacheExt r r') (hn : NoNewNil r r')
    {className : Str} {x : Ptr × Elem} (he : r.elem x.1 = some x.2) (hu : Under r x.1) :
    StepOk r' className x ↔ StepOk r className x := by
  rw [stepOk_iff hi hs he hu, stepOk_iff hi' (hs.cacheExt hx) (hext.elem he) (hext.under hu)]
  constructor
  · rintro (h | ⟨h1, h2⟩)
    · exact .inl (h.congr hx.heap.symm hx.registry.symm)
    · exact .inr ⟨h1, hn _ h2⟩
  · rintro (h | ⟨h1, h2⟩)
    · exact .inl (h.congr hx.heap hx.registry)
    · exact .inr ⟨h1, hx.cache _ _ h2⟩

theorem Delivered.back {r r' : Reg} (hx : CacheExt r r') {className x n} (h : Delivered r' className x n) :
    Delivered r className x n := by
  rcases h with h | ⟨w, l, a, cls, f, h1, h2, h3, h4⟩ | ⟨h1, h2, h3⟩
  · exact .inl h
  · exact .inr (.inl ⟨w, l, a, cls, f, h1, h2.congr hx.heap.symm hx.registry.symm, h3,
      h4.congr hx.heap.symm hx.registry.symm⟩)
  · exact .inr (.inr ⟨fun g => h1 (g.congr hx.heap hx.registry), h2, h3⟩)

theorem Matching.imp {α β : Type} {R S : α → β → Prop} (h : ∀ a b, R a b → S a b) {as bs} (g : Matching R as bs) :
    Matching S as bs := by
  induction g with
  | nil => exact .nil
  | cons h1 _ ih => exact .cons (h _ _ h1) ih

/-- A whole loop over the elements `l`. -/
theorem every_collect {className : Str} : ∀ (l : List (Ptr × Elem)) {o r}, Inv o r → Sound r → Present r l →
    ((∃ ns r', collectSteps (l.filterMap fun x => everythingStep className x.1 x.2.kind) r = (.ok ns, r')) ↔
      ∀ x ∈ l, StepOk r className x) ∧
    (∀ ns r', collectSteps (l.filterMap fun x => everythingStep className x.1 x.2.kind) r = (.ok ns, r') →
      Matching (Delivered r className) l ns) := by
  intro l
  induction l with
  | nil =>
    intro o r _ _ _
    refine ⟨⟨fun _ _ h => by simp at h, fun _ => ⟨[], r, rfl⟩⟩, fun ns r' h => ?_⟩
    cases h; exact .nil
  | cons x l ih =>
    intro o r hi hs hp
    obtain ⟨m, hm⟩ := everythingStep_some className x.1 x.2.kind
    rw [List.filterMap_cons, hm]
    simp only [collectSteps, M.bind_apply]
    rcases h : m r with ⟨res, r1⟩
    cases res with
    | ok n =>
      obtain ⟨o1, h1, h2, h3, h4, h5⟩ := every_ok hi hs (hp x (by simp)).1 (hp x (by simp)).2 hm h
      obtain ⟨i1, i2⟩ := ih h2 (hs.cacheExt h3) (present_ext h1 fun y hy => hp y (by simp [hy]))
      have hback : ∀ y ∈ l, (StepOk r1 className y ↔ StepOk r className y) := fun y hy =>
        stepOk_back hi hs h2 h1 h3 h4 (hp y (by simp [hy])).1 (hp y (by simp [hy])).2
      simp only
      refine ⟨?_, ?_⟩
      · constructor
        · rintro ⟨ns, r', g⟩
          intro y hy
          rcases List.mem_cons.mp hy with rfl | hy
          · exact ⟨m, n, r1, hm, h⟩
          · refine (hback y hy).mp (i1.mp ?_ y hy)
            rcases g1 : collectSteps (l.filterMap fun x => everythingStep className x.1 x.2.kind) r1 with ⟨res, r2⟩
            rw [g1] at g
            cases res with
            | ok ms => exact ⟨ms, r2, g1⟩
            | panic => cases g
            | timeout => cases g
        · intro hall
          obtain ⟨ms, r2, g⟩ := i1.mpr fun y hy => (hback y hy).mpr (hall y (by simp [hy]))
          exact ⟨n :: ms, r2, by rw [g]; rfl⟩
      · intro ns r' g
        rcases g1 : collectSteps (l.filterMap fun x => everythingStep className x.1 x.2.kind) r1 with ⟨res, r2⟩
        rw [g1] at g
        cases res with
        | ok ms => cases g; exact .cons h5 (Matching.imp (fun _ _ => Delivered.back h3) (i2 _ _ g1))
        | panic => cases g
        | timeout => cases g
    | panic e =>
      refine ⟨⟨fun ⟨_, _, g⟩ => (by cases g), fun g => ?_⟩, fun _ _ g => (by cases g)⟩
      obtain ⟨m', n, r', e1, e2⟩ := g x (by simp)
      rw [hm] at e1; cases e1
      rw [h] at e2; cases e2
    | timeout =>
      refine ⟨⟨fun ⟨_, _, g⟩ => (by cases g), fun g => ?_⟩, fun _ _ g => (by cases g)⟩
      obtain ⟨m', n, r', e1, e2⟩ := g x (by simp)
      rw [hm] at e1; cases e1
      rw [h] at e2; cases e2

theorem nth_stepOk {cls : Str} {p : Ptr} {i : Nat} {e : Elem} {r : Reg} (he : ((r.children p).getD [])[i]? = some e) :
    (∃ x r', Seq.nth (overKids p (everythingStep cls)) i r = (.ok (some x), r')) ↔ StepOk r cls (childPtr p i, e) := by
  obtain ⟨m, hm, hn⟩ := everything_nth (cls := cls) he
  rw [hn]
  simp only [M.bind_apply]
  constructor
  · rintro ⟨x, r', h⟩
    rcases h1 : m r with ⟨res, r1⟩
    rw [h1] at h
    cases res with
    | ok n => exact ⟨m, n, r1, hm, h1⟩
    | panic => cases h
    | timeout => cases h
  · rintro ⟨m', n, r', e1, e2⟩
    simp only at e1 e2
    rw [hm] at e1; cases e1
    exact ⟨n, r', by rw [e2]; rfl⟩

/-- The child with the number `i` of the object at `p`. -/
def childrenOf (r : Reg) (p : Ptr) : List (Ptr × Elem) :=
  ((r.children p).getD []).zipIdx.map fun x => (childPtr p x.2, x.1)

theorem childrenOf_kids (r : Reg) (p : Ptr) : childrenOf r p = r.kids p := by
  rw [kids_zipIdx]; rfl

/-! ### C81 -/

/-- C81: a loop over `Everything` comes to its end exactly if each element can be delivered by itself (C70 says when);
    then it delivers exactly one thing per element, in source order: its node, the option, or nil. -/
theorem C81_everything_loop {c n seq cls p} (hr : Reachable WFFile c) (hn : n ∈ c.pool)
    (he : everythingOf n = some (seq, cls, p)) :
    ((∃ ns r', seq.collect c.reg = (.ok ns, r')) ↔
      ∀ i, i < ((c.reg.children p).getD []).length → ∃ x r', Seq.nth seq i c.reg = (.ok (some x), r')) ∧
    (∀ ns r', seq.collect c.reg = (.ok ns, r') → Matching (Delivered c.reg cls) (childrenOf c.reg p) ns) := by
  obtain ⟨rfl, a, k, rfl⟩ := everythingOf_eq he
  obtain ⟨o, hinv, hg⟩ := reachable_inv hr
  have hs := reachable_sound hr
  have hroot := GoodW.rooted (hg _ hn)
  obtain ⟨h1, h2⟩ := every_collect (className := cls) (c.reg.kids p) hinv hs (present_kids hroot)
  simp only [Seq.collect, M.bind_apply, overKids_apply, childrenOf_kids]
  refine ⟨h1.trans ?_, h2⟩
  constructor
  · intro h i hi
    exact (nth_stepOk (List.getElem?_eq_getElem hi)).mpr (h _ (List.mem_of_getElem? (kids_get (List.getElem?_eq_getElem hi))))
  · intro h x hx
    rw [kids_zipIdx, List.mem_map] at hx
    obtain ⟨⟨e, i⟩, hm, rfl⟩ := hx
    rw [List.mem_zipIdx_iff_getElem?] at hm
    simp only at hm
    have hlt := (List.getElem?_eq_some_iff.mp hm).1
    exact (nth_stepOk hm).mp (h i hlt)

/-! ### C82 -/

/-- The element is an option bound, at top level, to the field `gf`. -/
def GoOpt (r : Reg) (cls gf : Ptr) (x : Ptr × Elem) : Prop := ∃ w l, x.2.kind = .option w l ∧ Binds r [] cls w gf

/-- What `GoPackage` returns, for the options among the elements `l`. -/
def GoResult (r : Reg) (cls gf : Ptr) (os : List (Ptr × Str)) (res : Option (Option GoPackageInfo)) : Prop :=
  (res = none ∧ ∀ x ∈ os, ¬ Binds r [] cls x.2 gf) ∨
  ∃ pre x post w lit info, os = pre ++ x :: post ∧ (∀ y ∈ pre, ¬ Binds r [] cls y.2 gf) ∧
    Binds r [] cls x.2 gf ∧ r.kind x.1 = some (.option w lit) ∧ res = some (some info) ∧
    SplitsAt lit.source info.path info.name

/-- The loop of `GoPackage` over any list of elements. -/
theorem goPackage_scan {cls gf : Ptr} : ∀ (l : List (Ptr × Elem)) {o r}, Inv o r → Named r →
    ClassAt r b!".google.protobuf.FileOptions" cls →
    r.registry b!".google.protobuf.FileOptions.go_package" = some gf → FieldNamed r cls b!"go_package" gf →
    Present r l →
    ((∃ res r', runSteps goPackageBody (l.filterMap fun x => everythingStep registryOptionsFile x.1 x.2.kind) none r =
        (.ok res, r')) ↔
      ∀ pre x post, l = pre ++ x :: post → (∀ y ∈ pre, ¬ GoOpt r cls gf y) → StepOk r registryOptionsFile x) ∧
    (∀ res r', runSteps goPackageBody (l.filterMap fun x => everythingStep registryOptionsFile x.1 x.2.kind) none r =
        (.ok res, r') →
      GoResult r cls gf (l.filterMap optionOf) res) := by
  intro l
  induction l with
  | nil =>
    intro o r _ _ _ _ _ _
    refine ⟨⟨fun _ pre x post h => by simp at h, fun _ => ⟨none, r, rfl⟩⟩, ?_⟩
    intro res r' h
    cases h
    exact .inl ⟨rfl, by simp⟩
  | cons x l ih =>
    intro o r hi hN hcl hg hgn hp
    obtain ⟨m, hm⟩ := everythingStep_some registryOptionsFile x.1 x.2.kind
    rw [List.filterMap_cons, hm]
    simp only [runSteps, M.bind_apply]
    have fails : (∀ n r1, m r ≠ (.ok n, r1)) → ¬ ∀ pre y post, x :: l = pre ++ y :: post →
        (∀ y ∈ pre, ¬ GoOpt r cls gf y) → StepOk r registryOptionsFile y := by
      intro hno g
      obtain ⟨m', n, r', e1, e2⟩ := g [] x l rfl (by simp)
      rw [hm] at e1; cases e1
      exact hno _ _ e2
    rcases h : m r with ⟨res, r1⟩
    cases res with
    | panic e =>
      exact ⟨⟨fun ⟨_, _, g⟩ => (by cases g), fun g => absurd g (fails (by simp [h]))⟩, fun _ _ g => (by cases g)⟩
    | timeout =>
      exact ⟨⟨fun ⟨_, _, g⟩ => (by cases g), fun g => absurd g (fails (by simp [h]))⟩, fun _ _ g => (by cases g)⟩
    | ok n =>
      obtain ⟨o1, h1, h2, h3, h4, h5⟩ := every_ok hi hN.sound (hp x (by simp)).1 (hp x (by simp)).2 hm h
      have hcl' := hcl.congr h3.heap h3.registry
      have hg' : r1.registry b!".google.protobuf.FileOptions.go_package" = some gf := by rw [h3.registry]; exact hg
      have hgn' : FieldNamed r1 cls b!"go_package" gf := by
        unfold FieldNamed at hgn ⊢; rw [h3.children_eq]; exact hgn
      obtain ⟨i1, i2⟩ := ih h2 (hN.cacheExt h3) hcl' hg' hgn' (present_ext h1 fun y hy => hp y (by simp [hy]))
      have hback : ∀ y ∈ l, (StepOk r1 registryOptionsFile y ↔ StepOk r registryOptionsFile y) := fun y hy =>
        stepOk_back hi hN.sound h2 h1 h3 h4 (hp y (by simp [hy])).1 (hp y (by simp [hy])).2
      have hb : ∀ w, Binds r1 [] cls w gf ↔ Binds r [] cls w gf := fun w =>
        ⟨fun g => g.congr h3.heap.symm h3.registry.symm, fun g => g.congr h3.heap h3.registry⟩
      have hgo : ∀ y, GoOpt r1 cls gf y ↔ GoOpt r cls gf y := fun y => by
        constructor
        · rintro ⟨w, l, e1, e2⟩; exact ⟨w, l, e1, (hb w).mp e2⟩
        · rintro ⟨w, l, e1, e2⟩; exact ⟨w, l, e1, (hb w).mpr e2⟩
      simp only [GoResult, hb, h3.kind_eq] at i2
      have hself : StepOk r registryOptionsFile x := ⟨m, n, r1, hm, h⟩
      -- the rest of the loop, when the body goes on
      have hiff : ¬ GoOpt r cls gf x →
          ((∀ pre y post, l = pre ++ y :: post → (∀ z ∈ pre, ¬ GoOpt r1 cls gf z) → StepOk r1 registryOptionsFile y) ↔
           ∀ pre y post, x :: l = pre ++ y :: post → (∀ z ∈ pre, ¬ GoOpt r cls gf z) →
             StepOk r registryOptionsFile y) := by
        intro hnot
        constructor
        · intro g pre y post e hpre
          cases pre with
          | nil => cases e; exact hself
          | cons z pre =>
            cases e
            exact (hback y (by simp)).mp (g pre y post rfl fun z hz h => hpre z (by simp [hz]) ((hgo z).mp h))
        · intro g pre y post e hpre
          refine (hback y (by simp [e])).mpr (g (x :: pre) y post (by rw [e]; rfl) fun z hz h => ?_)
          rcases List.mem_cons.mp hz with rfl | hz
          · exact hnot h
          · exact hpre z hz ((hgo z).mpr h)
      have hres : (optionOf x = none ∨ ∃ w, optionOf x = some (x.1, w) ∧ ¬ Binds r [] cls w gf) → ∀ res,
          GoResult r cls gf (l.filterMap optionOf) res → GoResult r cls gf ((x :: l).filterMap optionOf) res := by
        intro hx res g
        rw [List.filterMap_cons]
        rcases hx with hx | ⟨w, hx, hnb⟩
        · rw [hx]; exact g
        · rw [hx]
          rcases g with ⟨e2, e3⟩ | ⟨pre, y, post, w', lit', info, e2, e3, e4⟩
          · refine .inl ⟨e2, fun y hy => ?_⟩
            rcases List.mem_cons.mp hy with rfl | hy
            · exact hnb
            · exact e3 y hy
          · refine .inr ⟨(x.1, w) :: pre, y, post, w', lit', info, by rw [e2]; rfl, fun y hy => ?_, e4⟩
            rcases List.mem_cons.mp hy with rfl | hy
            · exact hnb
            · exact e3 y hy
      rcases h5 with ⟨e1, a, k, rfl⟩ | ⟨w, lit, a, cls', f, e1, e2, rfl, e4⟩ | ⟨_, e1, rfl⟩
      · have hno : ∀ w l, x.2.kind ≠ .option w l := by
          intro w l hk; rw [hk] at e1; cases e1
        have ho : optionOf x = none := by
          unfold optionOf; split
          · next hk => exact absurd hk (hno _ _)
          · rfl
        exact ⟨i1.trans (hiff fun ⟨w, l, hk, _⟩ => hno w l hk), fun res r' g => hres (.inl ho) _ (i2 res r' g)⟩
      · have : cls' = cls := by
          have h1 : r.registry registryOptionsFile = some cls := hcl.1
          rw [e2.1] at h1
          cases h1; rfl
        subst this
        have ho : optionOf x = some (x.1, w) := by simp [optionOf, e1]
        have hkq : r.kind x.1 = some (.option w lit) := by simp [Reg.kind, (hp x (by simp)).1, e1]
        have hkq' : r1.kind x.1 = some (.option w lit) := by rw [h3.kind_eq]; exact hkq
        obtain ⟨nm, g1, g2⟩ := optionName_go (hN.cacheExt h3) hcl' hg' hgn' hkq' (e4.congr h3.heap h3.registry)
        by_cases hf : f = gf
        · subst hf
          have hnm := g2.mpr rfl
          have hopt : goPackageOption (.option a x.1 cls' f) r1 = (.ok (some (splitGoPackage lit.source)), r1) := by
            simp only [goPackageOption, M.bind_apply, M.get_apply, show r1.registry goPackageField = some f from hg', hkq']
            rw [if_neg (by simp)]
            rfl
          have hbody : goPackageBody none (some (.option a x.1 cls' f)) r1 =
              (.ok (some (some (splitGoPackage lit.source)), false), r1) := by
            simp only [goPackageBody, M.bind_apply, g1, hnm]
            rw [if_neg (by simp)]
            simp only [M.bind_apply, hopt]
            rfl
          simp only [hbody, Bool.false_eq_true, if_false]
          refine ⟨⟨fun _ pre y post e hpre => ?_, fun _ => ⟨_, _, rfl⟩⟩, fun res r' g => ?_⟩
          · cases pre with
            | nil => cases e; exact hself
            | cons z pre => cases e; exact absurd ⟨w, lit, e1, e4⟩ (hpre _ (by simp))
          · cases g
            exact .inr ⟨[], (x.1, w), l.filterMap optionOf, w, lit, _, by rw [List.filterMap_cons, ho]; rfl, by simp, e4,
              hkq, rfl, split_spec lit.source⟩
        · have hnm : nm ≠ b!"(.google.protobuf.FileOptions).go_package" := fun h => hf (g2.mp h)
          have hbody : goPackageBody none (some (.option a x.1 cls' f)) r1 = (.ok (none, true), r1) := by
            simp only [goPackageBody, M.bind_apply, g1]
            rw [if_pos hnm]
            rfl
          have hnb : ¬ Binds r [] cls' w gf := fun h => hf (e4.unique h)
          simp only [hbody, if_true]
          refine ⟨i1.trans (hiff ?_), fun res r' g => hres (.inr ⟨w, ho, hnb⟩) _ (i2 res r' g)⟩
          rintro ⟨w', l', e5, e6⟩
          rw [e1] at e5; cases e5
          exact hnb e6
      · have ho : optionOf x = none := by
          unfold optionOf; split
          · next hk => exact absurd hk (e1 _ _)
          · rfl
        exact ⟨i1.trans (hiff fun ⟨w, l, hk, _⟩ => e1 w l hk), fun res r' g => hres (.inl ho) _ (i2 res r' g)⟩

/-- C82: `GoPackage` succeeds exactly if every element of the file up to the first go_package option (all, if there is
    none) can be delivered by `Everything` (C70 says when); what it then returns is the parsed first option of the file
    that is bound to go_package at top level, nil if there is none. `r1` is the state after `NodeFile`, the first thing
    `GoPackage` does. -/
theorem C82_go_package {c n a p r1 es cls gf} (hc : CleanReachable WFFile c) (_hn : n ∈ c.pool)
    (hfile : nodeFile n c.reg = (.ok (some (.wrapped a .file p)), r1)) (hes : c.reg.children p = some es)
    (hcl : ClassAt c.reg b!".google.protobuf.FileOptions" cls)
    (hg : c.reg.registry b!".google.protobuf.FileOptions.go_package" = some gf)
    (hgn : FieldNamed c.reg cls b!"go_package" gf) :
    ((∃ res r', goPackage n c.reg = (.ok res, r')) ↔
      ∀ i, i < es.length → (∀ j e w l, j < i → es[j]? = some e → e.kind = .option w l → ¬ Binds c.reg [] cls w gf) →
        ∃ x r', Seq.nth (File.everything p) i r1 = (.ok (some x), r')) ∧
    (∀ res r', goPackage n c.reg = (.ok res, r') → GoPackageOf c.reg p [] cls gf res) := by
  obtain ⟨o, hi, hgood⟩ := reachable_inv (clean_reachable hc)
  have hx : CacheExt c.reg r1 := by
    have := (RO.nodeFile n).ext c.reg
    rw [hfile] at this
    exact this
  obtain ⟨o1, h1, h2, h3⟩ := nodeFile_tri hi n
  rw [hfile] at h1 h2 h3
  have hroot : Rooted r1 p := GoodW.rooted (h3 _ rfl _ rfl)
  have hN : Named c.reg := ⟨reachable_sound (clean_reachable hc), fun _ _ => scope_declared hc⟩
  obtain ⟨i1, i2⟩ := goPackage_scan (r1.kids p) h2 (hN.cacheExt hx) (hcl.congr hx.heap hx.registry)
    (by rw [hx.registry]; exact hg) (by unfold FieldNamed at hgn ⊢; rw [hx.children_eq]; exact hgn) (present_kids hroot)
  have hb : ∀ w, Binds r1 [] cls w gf ↔ Binds c.reg [] cls w gf := fun w =>
    ⟨fun g => g.congr hx.heap.symm hx.registry.symm, fun g => g.congr hx.heap hx.registry⟩
  have hes1 : (r1.children p).getD [] = es := by rw [hx.children_eq, hes]; rfl
  have hrun : goPackage n c.reg = (match runSteps goPackageBody ((r1.kids p).filterMap fun x =>
      everythingStep registryOptionsFile x.1 x.2.kind) none r1 with
      | (.ok res, r') => (.ok (res.getD none), r')
      | (.panic e, r') => (.panic e, r')
      | (.timeout, r') => (.timeout, r')) := by
    simp only [goPackage, M.bind_apply, hfile, Seq.run, File.everything, overKids_apply]
    generalize hgen : runSteps goPackageBody ((r1.kids p).filterMap fun x =>
      everythingStep registryOptionsFile x.1 x.2.kind) none r1 = z
    rcases z with ⟨res, r'⟩
    cases res with
    | ok y => cases y <;> rfl
    | panic => rfl
    | timeout => rfl
  rcases hrs : runSteps goPackageBody ((r1.kids p).filterMap fun x =>
      everythingStep registryOptionsFile x.1 x.2.kind) none r1 with ⟨res, r2⟩
  rw [hrs] at hrun i1 i2
  have hcond : (∀ pre x post, r1.kids p = pre ++ x :: post → (∀ y ∈ pre, ¬ GoOpt r1 cls gf y) →
      StepOk r1 registryOptionsFile x) ↔
      ∀ i, i < es.length → (∀ j e w l, j < i → es[j]? = some e → e.kind = .option w l → ¬ Binds c.reg [] cls w gf) →
        ∃ x r', Seq.nth (File.everything p) i r1 = (.ok (some x), r') := by
    have hget : ∀ i e, es[i]? = some e → (r1.kids p)[i]? = some (childPtr p i, e) := fun i e h =>
      kids_get (by rw [hes1]; exact h)
    have hlen : (r1.kids p).length = es.length := by rw [kids_zipIdx, hes1]; simp
    constructor
    · intro g i hi' hpre
      have he := List.getElem?_eq_getElem hi'
      refine (nth_stepOk (by rw [hes1]; exact he)).mpr (g ((r1.kids p).take i) _ ((r1.kids p).drop (i + 1)) ?_ ?_)
      · have h1 := hget i _ he
        obtain ⟨h2, h3⟩ := List.getElem?_eq_some_iff.mp h1
        rw [← h3]; simp
      · rintro y hy ⟨w, l, e1, e2⟩
        obtain ⟨j, hj, rfl⟩ := List.mem_take_iff_getElem.mp hy
        have hj1 : j < i := by omega
        have hj2 : j < es.length := by omega
        have h1 := hget j _ (List.getElem?_eq_getElem hj2)
        obtain ⟨h2, h3⟩ := List.getElem?_eq_some_iff.mp h1
        rw [h3] at e1
        exact hpre j _ w l hj1 (List.getElem?_eq_getElem hj2) e1 ((hb w).mp e2)
    · intro g pre x post e hpre
      have hk : (r1.kids p)[pre.length]? = some x := by rw [e]; simp
      have hlt : pre.length < es.length := by
        rw [← hlen, e]; simp
      have h1 := hget _ _ (List.getElem?_eq_getElem hlt)
      rw [hk] at h1
      cases h1
      refine (nth_stepOk (by rw [hes1]; exact List.getElem?_eq_getElem hlt)).mp (g pre.length hlt ?_)
      intro j e' w l hj he' hk' hbn
      have h2 := hget j e' he'
      rw [e, List.getElem?_append_left hj] at h2
      exact hpre _ (List.mem_of_getElem? h2) ⟨w, l, hk', (hb w).mpr hbn⟩
  rw [hcond] at i1
  cases res with
  | ok y =>
    refine ⟨⟨fun _ => i1.mp ⟨_, _, rfl⟩, fun _ => ⟨_, _, hrun⟩⟩, ?_⟩
    intro res r' h
    rw [hrun] at h
    cases h
    have := i2 _ _ rfl
    simp only [GoResult, hb, hx.kind_eq] at this
    rw [show r1.kids p = c.reg.kids p from hx.kids_eq p, ← optionsOf_kids] at this
    rcases this with ⟨rfl, e3⟩ | ⟨pre, x, post, w, lit, info, f1, f2, f3, f4, rfl, f6⟩
    · exact .inl ⟨rfl, e3⟩
    · exact .inr ⟨pre, x, post, w, lit, info, f1, f2, f3, f4, rfl, f6⟩
  | panic e =>
    refine ⟨⟨fun ⟨_, _, h⟩ => ?_, fun h => ?_⟩, fun _ _ h => ?_⟩
    · rw [hrun] at h; cases h
    · obtain ⟨_, _, h⟩ := i1.mpr h; cases h
    · rw [hrun] at h; cases h
  | timeout =>
    refine ⟨⟨fun ⟨_, _, h⟩ => ?_, fun h => ?_⟩, fun _ _ h => ?_⟩
    · rw [hrun] at h; cases h
    · obtain ⟨_, _, h⟩ := i1.mpr h; cases h
    · rw [hrun] at h; cases h

/-- Non-vacuity of C81: file `g.proto`, with options: four things are delivered. -/
example : ∃ a ns r', Node.wrapped a .file ⟨3, []⟩ ∈ cG.pool ∧ Seq.collect (File.everything ⟨3, []⟩) cG.reg = (.ok ns, r') ∧
    Matching (Delivered cG.reg registryOptionsFile) (childrenOf cG.reg ⟨3, []⟩) ns ∧ (childrenOf cG.reg ⟨3, []⟩).length = 4 := by
  obtain ⟨a, hm⟩ := Ex.hasW_spec (c := cG) (i := 7) (k := .file) (p := ⟨3, []⟩) (by decide +kernel)
  obtain ⟨h1, h2⟩ := C81_everything_loop (clean_reachable cG_clean) hm rfl
  have hok : Ex.isOk (Seq.collect (File.everything ⟨3, []⟩) cG.reg).1 = true := by decide +kernel
  rcases e : Seq.collect (File.everything ⟨3, []⟩) cG.reg with ⟨res, r'⟩
  rw [e] at hok
  cases res with
  | ok ns => exact ⟨a, ns, r', hm, rfl, h2 _ _ e, by decide +kernel⟩
  | panic => cases hok
  | timeout => cases hok

/-- Non-vacuity of C82: in `g.proto` `GoPackage` finds something, in `k.proto` it panics. -/
example : (∃ a res r', Node.wrapped a .enumValue ⟨3, [0, 3]⟩ ∈ cG.pool ∧
      goPackage (.wrapped a .enumValue ⟨3, [0, 3]⟩) cG.reg = (.ok res, r') ∧
      GoPackageOf cG.reg ⟨3, []⟩ [] ⟨0, [2]⟩ ⟨0, [1, 2]⟩ res ∧ res ≠ none) ∧
    (∃ a i r1, Node.wrapped a .message ⟨1, [3]⟩ ∈ cG.pool ∧ ¬ ∃ x r', Seq.nth (File.everything ⟨1, []⟩) i r1 = (.ok (some x), r')) := by
  constructor
  · obtain ⟨a, hm⟩ := Ex.hasW_spec (c := cG) (i := 9) (k := .enumValue) (p := ⟨3, [0, 3]⟩) (by decide +kernel)
    obtain ⟨b, r1, hf⟩ := fileFound_spec (x := nodeFile (.wrapped a .enumValue ⟨3, [0, 3]⟩) cG.reg) (p := ⟨3, []⟩)
      (by show fileFound (nodeFile (.wrapped 0 .enumValue ⟨3, [0, 3]⟩) cG.reg) = _; decide +kernel)
    have h2 := (C82_go_package cG_clean hm hf rfl cG_class (by decide +kernel) cG_go).2
    have hok : (match (goPackage (.wrapped a .enumValue ⟨3, [0, 3]⟩) cG.reg).1 with
      | .ok (some _) => true | _ => false) = true := by
      show (match (goPackage (.wrapped 0 .enumValue ⟨3, [0, 3]⟩) cG.reg).1 with
        | .ok (some _) => true | _ => false) = true
      decide +kernel
    rcases e : goPackage (.wrapped a .enumValue ⟨3, [0, 3]⟩) cG.reg with ⟨res, r'⟩
    rw [e] at hok
    cases res with
    | ok y =>
      refine ⟨a, y, r', hm, e, h2 _ _ e, ?_⟩
      rintro rfl
      cases hok
    | panic => cases hok
    | timeout => cases hok
  · obtain ⟨a, hm⟩ := Ex.hasW_spec (c := cG) (i := 1) (k := .message) (p := ⟨1, [3]⟩) (by decide +kernel)
    obtain ⟨b, r1, hf⟩ := fileFound_spec (x := nodeFile (.wrapped a .message ⟨1, [3]⟩) cG.reg) (p := ⟨1, []⟩)
      (by show fileFound (nodeFile (.wrapped 0 .message ⟨1, [3]⟩) cG.reg) = _; decide +kernel)
    have h1 := (C82_go_package cG_clean hm hf rfl cG_class (by decide +kernel) cG_go).1
    have hp : Ex.isOk (goPackage (.wrapped a .message ⟨1, [3]⟩) cG.reg).1 = false := by
      show Ex.isOk (goPackage (.wrapped 0 .message ⟨1, [3]⟩) cG.reg).1 = false
      decide +kernel
    have hno : ¬ ∃ res r', goPackage (.wrapped a .message ⟨1, [3]⟩) cG.reg = (.ok res, r') := by
      rintro ⟨res, r', e⟩
      rw [e] at hp; cases hp
    rw [h1] at hno
    refine Classical.byContradiction fun hcon => hno fun i _ _ => Classical.byContradiction fun hi => hcon ⟨a, i, r1, hm, hi⟩

end Protoast.Props
