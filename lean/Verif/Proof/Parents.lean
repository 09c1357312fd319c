import Verif.Proof.Options
import Verif.Proof.NewFiles
import Verif.Spec.Parents
/-
  Parents and hierarchies.
-/
namespace Protoast

/-- The node represents the `j`-th child of `p`. -/
def ChildOf (p : Ptr) (n : Node) : Prop := ∃ j, n.place = some (p.child j)

/-- A live node for a child of `p`. -/
def GoodC (p : Ptr) (o : Ghost) (r : Reg) (n : Node) : Prop := Good o r n ∧ ChildOf p n
/-- The same for a possibly nil node. -/
def GoodCO (p : Ptr) (o : Ghost) (r : Reg) (x : Option Node) : Prop := ∀ n, x = some n → GoodC p o r n

theorem kids_child {r : Reg} {p q : Ptr} {e : Elem} (h : (q, e) ∈ r.kids p) : ∃ j, q = p.child j := by
  obtain ⟨i, h1, _⟩ := kids_mem h
  exact ⟨i, h1⟩

theorem wrapAs_child {o r} (hi : Inv o r) {p q e k} (hp : Rooted r p) (h : (q, e) ∈ r.kids p) :
    Tri o r (wrapAs k q) (GoodC p) := by
  obtain ⟨j, hj⟩ := kids_child h
  refine (wrapAs_tri hi (kids_under hp h)).mono ?_
  rintro o' r' n _ _ _ ⟨a, rfl, hg⟩
  exact ⟨hg, j, by simp [Node.place, hj]⟩

theorem wrap_child {o r} (hi : Inv o r) {p q e} (hp : Rooted r p) (h : (q, e) ∈ r.kids p) :
    Tri o r (wrap (.at q)) (GoodCO p) := by
  obtain ⟨j, hj⟩ := kids_child h
  refine (wrap_tri hi (v := .at q) (by intro x hx; cases hx; exact kids_under hp h)).mono ?_
  intro o' r' n _ _ _ hq x hx
  obtain ⟨a, k, p', h1, rfl, h3, hg⟩ := hq x hx
  cases h1
  exact ⟨hg, j, by simp [Node.place, hj]⟩

theorem wrapNamed_child {o r} (hi : Inv o r) {p q e} (hp : Rooted r p) (h : (q, e) ∈ r.kids p) :
    Tri o r (wrapNamed q) (GoodC p) := by
  refine Tri.bind (wrap_child hi hp h) fun o' r' n _ _ hi' hq => ?_
  split
  · exact Tri.pure hi' (hq _ rfl)
  · exact Tri.pure hi' (hq _ rfl)
  · exact Tri.panic hi'

theorem newOption_child {o r} (hi : Inv o r) {p q e s cls} (hp : Rooted r p) (h : (q, e) ∈ r.kids p)
    (hc : IsMessageAt r cls ∧ Rooted r cls) : Tri o r (newOption s cls q) (GoodC p) := by
  obtain ⟨j, hj⟩ := kids_child h
  refine (newOption_tri hi hc (kids_under hp h)).mono ?_
  intro o' r' n hr _ _ hg
  obtain ⟨_, _, f, _, _, rfl, _⟩ := newOption_ok hr
  exact ⟨hg, j, by simp [Node.place, hj]⟩

theorem wrapOption_child {o r} (hi : Inv o r) {p q e cls} (hp : Rooted r p) (h : (q, e) ∈ r.kids p)
    (hc : IsMessageAt r cls ∧ Rooted r cls) : Tri o r (wrapOption q cls) (GoodC p) :=
  Tri.get (newOption_child hi hp h hc)

theorem everythingStep_child {o r} (hi : Inv o r) {c p q e m} (hp : Rooted r p) (h : (q, e) ∈ r.kids p)
    (hm : everythingStep c q e.kind = some m) : Tri o r m (GoodCO p) := by
  unfold everythingStep at hm
  split at hm
  · cases hm
    refine Tri.bind (optionClass_tri hi c) fun o' r' cls _ _ _ hcl => ?_
    obtain ⟨rfl, rfl, hcl⟩ := hcl
    refine Tri.bind (wrapOption_child hi hp h hcl) fun o' r' n _ _ hi' hg => Tri.pure hi' ?_
    intro x hx; cases hx; exact hg
  · cases hm
    exact wrap_child hi hp h

theorem everything_nth_child {o r} (hi : Inv o r) {c : Str} {p : Ptr} {i : Nat} (hp : Rooted r p) :
    Tri o r (do let x ← Seq.nth (overKids p (everythingStep c)) i; pure (flatOpt x)) (GoodCO p) := by
  refine Tri.bind (nth_tri (Q := GoodCO p) hi fun q e m h1 h2 =>
    everythingStep_child hi hp h1 h2) fun o' r' x _ _ hi' hq => Tri.pure hi' ?_
  intro n hn
  cases x with
  | none => cases hn
  | some y => exact hq y rfl n hn

theorem seqOptions_nth_child {o r} (hi : Inv o r) {s c : Str} {p : Ptr} {i : Nat} (hp : Rooted r p) :
    Tri o r (do let x ← seqOptions s c p; Seq.nth x i) (GoodCO p) := by
  refine Tri.bind (Q := fun o' r' x => o' = o ∧ r' = r ∧ ∃ cls, (IsMessageAt r cls ∧ Rooted r cls) ∧
      x = overKids p fun q k => match k with
        | .option _ _ => some (newOption s cls q)
        | _ => none) ?_ ?_
  · unfold seqOptions
    refine Tri.bind (optionClass_tri hi c) fun o' r' cls _ _ _ hcl => ?_
    obtain ⟨rfl, rfl, hcl⟩ := hcl
    exact Tri.pure hi ⟨rfl, rfl, cls, hcl, rfl⟩
  · intro o' r' x _ _ _ hq
    obtain ⟨rfl, rfl, cls, hcl, rfl⟩ := hq
    refine (nth_tri (Q := GoodC p) hi fun q e m h1 h2 => ?_).mono fun _ _ _ _ _ _ h => h
    split at h2
    · cases h2; exact newOption_child hi hp h1 hcl
    · cases h2

/-- The object a node iterates over. -/
def Node.base : Node → Option Ptr
  | .wrapped _ _ p => some p
  | .oneof _ p => some p
  | _ => none

/-- A live node for a child of the object of `X`. -/
def GoodX (X : Node) (o : Ghost) (r : Reg) (x : Option Node) : Prop :=
  ∀ n, x = some n → ∃ p, X.base = some p ∧ GoodC p o r n

theorem GoodCO.x {X : Node} {p o r x} (h : GoodCO p o r x) (hb : X.base = some p) : GoodX X o r x :=
  fun n hn => ⟨p, hb, h n hn⟩

theorem iterRun_child {o r} (hi : Inv o r) (q : IterQ) {X : Node} (g : Good o r X) (i : Nat) :
    Tri o r (q.run X i) (GoodX X) := by
  have up : ∀ {m : M (Option Node)} {p}, X.base = some p → Tri o r m (GoodCO p) → Tri o r m (GoodX X) :=
    fun hb h => h.mono fun _ _ _ _ _ _ hg => hg.x hb
  have wr : ∀ {p : Ptr} {pick : Ptr → Kind → Option (M Node)}, X.base = some p → Rooted r p →
      (∀ q k m, pick q k = some m → (∃ w, m = wrapAs w q) ∨ m = wrapNamed q) →
      Tri o r (Seq.nth (overKids p pick) i) (GoodX X) := by
    intro p pick hb hp h
    refine up hb (nth_tri (Q := GoodC p) hi fun q e m h1 h2 => ?_)
    rcases h q e.kind m h2 with ⟨w, rfl⟩ | rfl
    · exact wrapAs_child hi hp h1
    · exact wrapNamed_child hi hp h1
  unfold IterQ.run
  split
  iterate 5
    · refine wr rfl (by first | exact GoodW.rooted g | exact g.2.2) fun q k m h => ?_
      split at h <;> cases h <;> first | exact .inl ⟨_, rfl⟩ | exact .inr rfl
  · exact up rfl (everything_nth_child hi (GoodW.rooted g))
  iterate 3
    · refine wr rfl (by first | exact GoodW.rooted g | exact g.2.2) fun q k m h => ?_
      split at h <;> cases h <;> first | exact .inl ⟨_, rfl⟩ | exact .inr rfl
  · exact up rfl (everything_nth_child hi (GoodW.rooted g))
  iterate 2
    · refine wr rfl (by first | exact GoodW.rooted g | exact g.2.2) fun q k m h => ?_
      split at h <;> cases h <;> first | exact .inl ⟨_, rfl⟩ | exact .inr rfl
  · exact up rfl (everything_nth_child hi (GoodW.rooted g))
  iterate 2
    · refine wr rfl (by first | exact GoodW.rooted g | exact g.2.2) fun q k m h => ?_
      split at h <;> cases h <;> first | exact .inl ⟨_, rfl⟩ | exact .inr rfl
  · exact up rfl (everything_nth_child hi (GoodW.rooted g))
  · refine up rfl (nth_tri (Q := GoodC _) hi fun q e m h1 h2 => ?_)
    split at h2
    · cases h2
      refine Tri.bind (optionClass_tri hi _) fun o' r' cls _ _ _ hcl => ?_
      obtain ⟨rfl, rfl, hcl⟩ := hcl
      exact wrapOption_child hi (GoodW.rooted g) h1 hcl
    · cases h2
  · rcases options_cases X r with ⟨s, c, p, hn, h⟩ | ⟨e, h⟩
    · have hb : X.base = some p ∧ Rooted r p := by
        rcases hn with ⟨a, k, rfl⟩ | ⟨a, rfl⟩
        · exact ⟨rfl, GoodW.rooted g⟩
        · exact ⟨rfl, g.2.2⟩
      refine Tri.congr ?_ (up hb.1 (seqOptions_nth_child (s := s) (c := c) (i := i) hi hb.2))
      simp only [M.bind_apply, h]
    · refine Tri.congr (m' := M.panic e) ?_ (Tri.panic hi)
      simp only [M.bind_apply, h, M.panic_apply]
  · exact Tri.pure hi (by intro x hx; cases hx)

theorem firstKid_child {o r} (hi : Inv o r) {p k sel} (hp : Rooted r p) :
    Tri o r (firstKid p k sel) (GoodCO p) := by
  unfold firstKid
  refine Tri.get ?_
  split
  · next q e hf =>
    have hm := List.mem_of_find?_eq_some hf
    refine Tri.bind (wrapAs_child hi hp hm) fun o' r' n _ _ hi' hg => Tri.pure hi' ?_
    intro x hx; cases hx; exact hg
  · exact Tri.pure hi (by intro x hx; cases hx)

theorem namedOption_child {o r} (hi : Inv o r) {n s c : Str} {p : Ptr} (hp : Rooted r p) :
    Tri o r (namedOption n s c p) (GoodCO p) := by
  unfold namedOption
  refine Tri.bind (optionClass_tri hi c) fun o' r' cls _ _ _ hcl => ?_
  obtain ⟨rfl, rfl, hcl⟩ := hcl
  refine Tri.get ?_
  split
  · next h =>
    refine Tri.bind (newOption_child hi hp (List.mem_of_find?_eq_some h) hcl)
      fun o' r' n _ _ hi' hg => Tri.pure hi' ?_
    intro x hx; cases hx; exact hg
  · exact Tri.pure hi (by intro x hx; cases hx)

theorem optionNamed_child {o r} (hi : Inv o r) {X : Node} {s : Str} (g : Good o r X) :
    Tri o r (optionNamed X s) (GoodX X) := by
  have up : ∀ {m : M (Option Node)} {p}, X.base = some p → Tri o r m (GoodCO p) → Tri o r m (GoodX X) :=
    fun hb h => h.mono fun _ _ _ _ _ _ hg => hg.x hb
  unfold optionNamed
  cases X with
  | wrapped a k p =>
    refine Tri.get ?_
    have hp : Rooted r p := GoodW.rooted g
    cases k <;> first | exact up rfl (namedOption_child hi hp) | exact Tri.panic hi | skip
    simp only
    split <;> first | exact up rfl (namedOption_child hi hp) | exact Tri.panic hi
  | oneof a p => exact Tri.get (up rfl (namedOption_child hi g.2.2))
  | _ => exact Tri.panic hi

theorem namedRun_child {o r} (hi : Inv o r) (q : NamedQ) {X : Node} (g : Good o r X) (s : Str) :
    Tri o r (q.run X s) (GoodX X) := by
  have up : ∀ {m : M (Option Node)} {p}, X.base = some p → Tri o r m (GoodCO p) → Tri o r m (GoodX X) :=
    fun hb h => h.mono fun _ _ _ _ _ _ hg => hg.x hb
  have ty : ∀ {k p q e}, Rooted r p → (q, e) ∈ r.kids p →
      Tri o r (do let n ← wrapAs k q; pure (some n)) (GoodCO p) := by
    intro k p q e hp hm
    refine Tri.bind (wrapAs_child hi hp hm) fun o' r' n _ _ hi' hg => Tri.pure hi' ?_
    intro x hx; cases hx; exact hg
  unfold NamedQ.run
  split
  · exact up rfl (firstKid_child hi (GoodW.rooted g))
  · exact up rfl (firstKid_child hi (GoodW.rooted g))
  · refine up rfl ?_
    unfold File.type
    refine Tri.get ?_
    split
    · next hf =>
      split <;> exact ty (GoodW.rooted g) (List.mem_of_find?_eq_some hf)
    · exact Tri.pure hi (by intro x hx; cases hx)
  · exact up rfl (firstKid_child hi (GoodW.rooted g))
  · exact up rfl (firstKid_child hi (GoodW.rooted g))
  · exact up rfl (firstKid_child hi (GoodW.rooted g))
  · refine up rfl ?_
    unfold Message.type
    refine Tri.get ?_
    split
    · next hf =>
      split <;> exact ty (GoodW.rooted g) (List.mem_of_find?_eq_some hf)
    · exact Tri.pure hi (by intro x hx; cases hx)
  · exact up rfl (firstKid_child hi (GoodW.rooted g))
  · exact up rfl (firstKid_child hi (GoodW.rooted g))
  · exact up rfl (firstKid_child hi g.2.2)
  · exact up rfl (firstKid_child hi (GoodW.rooted g))
  · exact optionNamed_child hi g
  · exact Tri.pure hi (by intro x hx; cases hx)

/-! ### NodeParent -/

theorem parent_child (p : Ptr) (j : Nat) : (p.child j).parent = .at p := rfl

theorem nodeParent_eq {o r} {m : Node} (g : Good o r m) {p : Ptr} {j : Nat} (h : m.source = some (p.child j)) :
    nodeParent m r = wrap (.at p) r := by
  cases m with
  | wrapped a k q =>
    simp only [Node.source, Option.some.injEq] at h
    subst h
    have ht := GoodW.target g
    cases k with
    | messageField =>
      unfold nodeParent
      simp only [M.bind_apply, M.get_apply, parent_child]
      rcases fieldKind_cases ht with ⟨_, _, _, _, _, hk⟩ | ⟨_, hk⟩ | ⟨_, _, _, _, hk⟩ <;> rw [hk]
    | file =>
      exfalso
      simp only [Reg.wrapTarget, Ptr.child, Option.map_eq_some_iff, Prod.mk.injEq] at ht
      obtain ⟨k, hk, hk', _⟩ := ht
      rw [Option.bind_eq_some_iff] at hk
      obtain ⟨kd, _, h2⟩ := hk
      exact wrapKind_ne_file h2 hk'
    | _ => rfl
  | option a q c f =>
    simp only [Node.source, Option.some.injEq] at h
    subst h
    rfl
  | oneof a q =>
    simp only [Node.source, Option.some.injEq] at h
    subst h
    rfl
  | _ => cases h

theorem good_under {o r} {m : Node} (g : Good o r m) {p : Ptr} (h : m.source = some p) : Under r p := by
  cases m with
  | wrapped a k q => cases h; exact (GoodW.rooted g).under
  | option a q c f => cases h; exact g.2.1.2
  | oneof a q => cases h; exact g.2.2.under
  | _ => cases h

theorem place_source {m : Node} {p : Ptr} (h : m.place = some p) : m.source = some p := by
  cases m <;> first | exact h | cases h

theorem nodeParent_full {o r} (hi : Inv o r) {m : Node} (g : Good o r m) {p : Ptr} {j : Nat}
    (h : m.source = some (p.child j)) :
    ∃ a k o' r', nodeParent m r = (.ok (some (.wrapped a k p)), r') ∧ Ext o r o' r' ∧ Inv o' r' ∧
      GoodW o' r' a k p := by
  have hr : Rooted r p := under_child (good_under g h)
  obtain ⟨k, ht⟩ := hr.target
  rw [nodeParent_eq g h]
  obtain ⟨a, o', r', h1, h2⟩ := wrap_full hi ht hr.under
  exact ⟨a, k, o', r', h1, h2⟩

/-- The parent found for a child of the object of `X` is the node of that object. -/
theorem isParent_of_good {o r a k p} {X : Node} (hX : Good o r X) (hb : X.base = some p)
    (g : GoodW o r a k p) : IsParent X (.wrapped a k p) := by
  cases X with
  | wrapped b k' q =>
    cases hb
    have hk : k' = k := by
      have := GoodW.target hX
      rw [g.target] at this
      simpa using this.symm
    subst hk
    cases k' with
    | file => exact ⟨a, rfl⟩
    | _ =>
      show Node.wrapped a _ p = .wrapped b _ p
      rw [goodW_unique g hX (by simp)]
  | oneof b q =>
    cases hb
    obtain ⟨nm, hk⟩ := hX.2.1
    have : k = .messageField := by
      have h1 := g.target
      rw [target_of_kind hk rfl] at h1
      simpa using h1.symm
    subst this
    exact ⟨a, rfl⟩
  | _ => cases hb

/-! ### NodeHierarchy -/

theorem file_parent {r : Reg} (a : Nat) (p : Ptr) : nodeParent (.wrapped a .file p) r = (.ok none, r) := rfl

/-- A parent that was found once is found again. -/
theorem wrap_again {r : Reg} {a k} {p : Ptr} (h : r.cache (.at p) = some (some (.wrapped a k p))) :
    wrap (.at p) r = (.ok (some (.wrapped a k p)), r) := by
  unfold wrap; rw [h]

theorem wrapped_cached {p : Ptr} {r r' : Reg} {x} (h : wrap (.at p) r = (.ok x, r')) :
    r'.cache (.at p) = some x := wrap_ok_cache h

theorem file_of_path {o r a k} {i : Nat} (g : GoodW o r a k ⟨i, []⟩) : k = .file := by
  have := g.target
  simp only [Reg.wrapTarget] at this
  split at this
  · simpa using this.symm
  · cases this

theorem hierarchy_full (i : Nat) : ∀ (path : List Nat) {o r}, Inv o r → ∀ {m : Node}, Good o r m →
    m.source = some ⟨i, path⟩ →
    ∃ ns o' r', (∀ fuel, path.length < fuel → nodeHierarchy fuel (some m) r = (.ok (m :: ns), r')) ∧
      Ext o r o' r' ∧ Inv o' r' ∧ (∀ n ∈ ns, Good o' r' n) ∧
      (m :: ns).map Node.source = (enclosing i path).map some ∧
      Linked (fun x y => nodeParent x r' = (.ok (some y), r')) (m :: ns) ∧
      (∃ a, (m :: ns).getLast? = some (.wrapped a .file ⟨i, []⟩)) := by
  intro path
  induction path with
  | nil =>
    intro o r hi m g hm
    have hf : ∃ a, m = .wrapped a .file ⟨i, []⟩ := by
      cases m with
      | wrapped a k q => cases hm; exact ⟨a, by rw [file_of_path g]⟩
      | option a q c f =>
        cases hm
        obtain ⟨n, c, hk⟩ := g.2.1.1
        unfold Reg.kind Reg.elem at hk
        cases hh : r.heap[i]? <;> simp [hh, ProtoFile.elemAt] at hk
      | oneof a q =>
        cases hm
        obtain ⟨n, hk⟩ := g.2.1
        unfold Reg.kind Reg.elem at hk
        cases hh : r.heap[i]? <;> simp [hh, ProtoFile.elemAt] at hk
      | _ => cases hm
    obtain ⟨a, rfl⟩ := hf
    refine ⟨[], o, r, ?_, Ext.refl _ _, hi, by simp, rfl, trivial, a, rfl⟩
    intro fuel hlt
    cases fuel with
    | zero => omega
    | succ n =>
      unfold nodeHierarchy
      simp only [M.bind_apply, file_parent, nodeHierarchy_none, M.pure_apply]
  | cons j rest ih =>
    intro o r hi m g hm
    have hm' : m.source = some (Ptr.child ⟨i, rest⟩ j) := hm
    obtain ⟨a, k, o1, r1, h1, hx1, hi1, g1⟩ := nodeParent_full hi g hm'
    obtain ⟨ns, o2, r2, h2, hx2, hi2, hg2, hsrc, hlink, b, hlast⟩ := ih hi1 (m := .wrapped a k ⟨i, rest⟩) g1 rfl
    refine ⟨.wrapped a k ⟨i, rest⟩ :: ns, o2, r2, ?_, hx1.trans hx2, hi2, ?_, ?_, ?_, b, ?_⟩
    · intro fuel hlt
      cases fuel with
      | zero => simp at hlt
      | succ n =>
        unfold nodeHierarchy
        simp only [M.bind_apply, h1, h2 n (by simpa using hlt), M.pure_apply]
    · intro n hn
      rcases List.mem_cons.mp hn with rfl | hn
      · exact hx2.goodW g1
      · exact hg2 n hn
    · simp only [List.map_cons, hm, enclosing] at hsrc ⊢
      rw [hsrc]
    · refine ⟨?_, hlink⟩
      show nodeParent m r2 = _
      rw [nodeParent_eq ((hx1.trans hx2).good m g) hm']
      rw [nodeParent_eq g hm'] at h1
      exact wrap_again (hx2.cache _ _ (wrapped_cached h1))
    · simpa using hlast

end Protoast
