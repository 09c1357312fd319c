import Verif.Spec.Attr
import Verif.Proof.Later
/-
  Reads that give the same answer in every later state.
-/
namespace Protoast

/-- The computation gives the same result in every state later than `r`, and changes nothing. -/
def Fixed {α : Type} (r : Reg) (m : M α) : Prop :=
  (∀ r2, Later r r2 → (m r2).1 = (m r).1) ∧ ∀ r2, (m r2).2 = r2

theorem Fixed.pure {α} (r : Reg) (a : α) : Fixed r (Pure.pure a : M α) := ⟨fun _ _ => rfl, fun _ => rfl⟩
theorem Fixed.panic {α} (r : Reg) (p : Panic) : Fixed r (M.panic p : M α) := ⟨fun _ _ => rfl, fun _ => rfl⟩

theorem Fixed.bind {α β} {r : Reg} {m : M α} {f : α → M β} (hm : Fixed r m) (hf : ∀ a, Fixed r (f a)) :
    Fixed r (m >>= f) := by
  constructor
  · intro r2 h2
    have h1 := hm.1 r2 h2
    have h3 := hm.2 r2
    have h4 := hm.2 r
    simp only [M.bind_apply]
    rcases e1 : m r2 with ⟨x, r2'⟩
    rcases e2 : m r with ⟨y, r'⟩
    rw [e1, e2] at h1
    rw [e1] at h3
    rw [e2] at h4
    simp only at h1 h3 h4
    subst h1 h3 h4
    cases x with
    | ok a => exact (hf a).1 _ h2
    | panic p => rfl
    | timeout => rfl
  · intro r2
    have h3 := hm.2 r2
    simp only [M.bind_apply]
    rcases e1 : m r2 with ⟨x, r2'⟩
    rw [e1] at h3
    simp only at h3
    subst h3
    cases x with
    | ok a => exact (hf a).2 _
    | panic p => rfl
    | timeout => rfl

theorem Fixed.get {β} {r : Reg} {f : Reg → M β} (hc : ∀ r2, Later r r2 → f r2 = f r)
    (h : ∀ r2, Fixed r (f r2)) : Fixed r (M.get >>= f) := by
  constructor
  · intro r2 h2
    simp only [M.bind_apply, M.get_apply]
    rw [hc r2 h2]
    exact (h r).1 r2 h2
  · intro r2
    exact (h r2).2 r2

/-- Proof search for `Fixed`. -/
macro "fixed" : tactic => `(tactic| repeat' (first
  | exact Fixed.pure _ _ | exact Fixed.panic _ _ | assumption
  | refine Fixed.bind ?_ ?_ | intro _ | split))

section
variable {r : Reg} {p : Ptr} (hp : p.file < r.heap.length)
include hp

theorem Fixed.messageName : Fixed r (Message.name p) := by
  unfold Message.name
  refine Fixed.get (fun r2 h => by rw [h.kind hp]) (fun r2 => ?_)
  fixed
theorem Fixed.messageIsExtension : Fixed r (Message.isExtension p) := by
  unfold Message.isExtension
  refine Fixed.get (fun r2 h => by rw [h.kind hp]) (fun r2 => ?_)
  fixed
theorem Fixed.enumName : Fixed r (Enum.name p) := by
  unfold Enum.name
  refine Fixed.get (fun r2 h => by rw [h.kind hp]) (fun r2 => ?_)
  fixed
theorem Fixed.enumValueName : Fixed r (EnumValue.name p) := by
  unfold EnumValue.name
  refine Fixed.get (fun r2 h => by rw [h.kind hp]) (fun r2 => ?_)
  fixed
theorem Fixed.enumValueValue : Fixed r (EnumValue.value p) := by
  unfold EnumValue.value
  refine Fixed.get (fun r2 h => by rw [h.kind hp]) (fun r2 => ?_)
  fixed
theorem Fixed.branchName : Fixed r (OneOfBranch.name p) := by
  unfold OneOfBranch.name
  refine Fixed.get (fun r2 h => by rw [h.kind hp]) (fun r2 => ?_)
  fixed
theorem Fixed.branchValue : Fixed r (OneOfBranch.value p) := by
  unfold OneOfBranch.value
  refine Fixed.get (fun r2 h => by rw [h.kind hp]) (fun r2 => ?_)
  fixed
theorem Fixed.serviceName : Fixed r (Service.name p) := by
  unfold Service.name
  refine Fixed.get (fun r2 h => by rw [h.kind hp]) (fun r2 => ?_)
  fixed
theorem Fixed.methodName : Fixed r (Method.name p) := by
  unfold Method.name
  refine Fixed.get (fun r2 h => by rw [h.kind hp]) (fun r2 => ?_)
  fixed
theorem Fixed.importPath : Fixed r (Import.path p) := by
  unfold Import.path
  refine Fixed.get (fun r2 h => by rw [h.kind hp]) (fun r2 => ?_)
  fixed
theorem Fixed.syntaxValue : Fixed r (Syntax.value p) := by
  unfold Syntax.value
  refine Fixed.get (fun r2 h => by rw [h.kind hp]) (fun r2 => ?_)
  fixed
theorem Fixed.packageName : Fixed r (Package.package p) := by
  unfold Package.package
  refine Fixed.get (fun r2 h => by rw [h.kind hp]) (fun r2 => ?_)
  fixed
theorem Fixed.fieldName : Fixed r (MessageField.name p) := by
  unfold MessageField.name
  refine Fixed.get (fun r2 h => by rw [h.kind hp]) (fun r2 => ?_)
  fixed
theorem Fixed.fieldValue : Fixed r (MessageField.value p) := by
  unfold MessageField.value
  refine Fixed.get (fun r2 h => by rw [h.kind hp]) (fun r2 => ?_)
  fixed
theorem Fixed.fieldOptional : Fixed r (MessageField.optional p) := by
  unfold MessageField.optional
  refine Fixed.get (fun r2 h => by rw [h.kind hp]) (fun r2 => ?_)
  fixed

theorem Fixed.mapKey : Fixed r (Map.key p) := by
  unfold Map.key
  refine Fixed.get (fun r2 h => by rw [h.kind hp]) (fun r2 => ?_)
  fixed

theorem reserved_fixed : Fixed r (do
    let l ← Reserved.values p
    let vs ← collectSteps l
    pure (AttrVal.reserved vs)) := by
  have hsteps : ∀ l : List ReservedValue, ∀ r,
      collectSteps (l.map fun x => (pure x : M ReservedValue)) r = (.ok l, r) := by
    intro l
    induction l with
    | nil => intro r; rfl
    | cons x l ih => intro r; simp only [List.map_cons, collectSteps, M.bind_apply, M.pure_apply, ih]
  have h2 : ∀ (ranges : List Range) (names : List Str), ((ranges.map fun g => (pure (reservedRange g) : M ReservedValue)) ++
      (names.map fun n => (pure (.name n) : M ReservedValue))) =
      ((ranges.map reservedRange ++ names.map ReservedValue.name).map fun x => (pure x : M ReservedValue)) := by
    intro a b; simp [List.map_map, Function.comp_def]
  have hf : (do
      let l ← Reserved.values p
      let vs ← collectSteps l
      pure (AttrVal.reserved vs)) = (do
        let r ← M.get
        match r.kind p with
        | some (.reserved ranges names) =>
          (pure (AttrVal.reserved (ranges.map reservedRange ++ names.map .name)) : M AttrVal)
        | _ => M.panic .illTyped) := by
    funext r0
    unfold Reserved.values
    simp only [M.bind_apply, M.get_apply]
    rcases hk : r0.kind p with _ | kd
    · rfl
    · cases kd <;> simp only [M.panic_apply, M.pure_apply]
      rw [h2, hsteps]
  rw [hf]
  refine Fixed.get (fun r2 h => by rw [h.kind hp]) (fun r2 => ?_)
  fixed

theorem Fixed.fileName : Fixed r (File.name p) := by
  unfold File.name
  refine Fixed.get (fun r2 h => by rw [h.file hp]) (fun r2 => ?_)
  fixed
theorem Fixed.filePackage : Fixed r (File.package p) := by
  unfold File.package
  exact Fixed.get (fun r2 h => by rw [h.children hp]) (fun r2 => Fixed.pure _ _)
theorem Fixed.filePos : Fixed r (filePos p) := by
  unfold Protoast.filePos
  refine Fixed.get (fun r2 h => by rw [h.file hp]) (fun r2 => ?_)
  fixed
theorem Fixed.elemPos : Fixed r (elemPos p) := by
  unfold Protoast.elemPos
  refine Fixed.get (fun r2 h => by rw [h.elem hp]) (fun r2 => ?_)
  fixed
end

theorem goodW_file {o r a k p} (g : GoodW o r a k p) : p.file < r.heap.length := target_file g.target

theorem isMapAt_file {r p} (h : IsMapAt r p) : p.file < r.heap.length := by
  obtain ⟨_, _, _, _, h⟩ := h; exact kind_file h
theorem isOneofAt_file {r p} (h : IsOneofAt r p) : p.file < r.heap.length := by
  obtain ⟨_, h⟩ := h; exact kind_file h

theorem Fixed.nodeIndex {o r} {n : Node} (g : Good o r n) : Fixed r (nodeIndex n) := by
  unfold Protoast.nodeIndex
  split
  · next a k p =>
    have hp := goodW_file g
    refine Fixed.get (fun r2 h => by rw [h.scope hp, h.kind hp]) (fun r2 => ?_)
    fixed
  · next a p =>
    have hp := isOneofAt_file g.2.1
    exact Fixed.get (fun r2 h => by rw [h.scope hp]) (fun r2 => Fixed.pure _ _)
  · next a p =>
    have hp := isMapAt_file g.2
    exact Fixed.get (fun r2 h => by rw [h.scope hp]) (fun r2 => Fixed.pure _ _)
  · exact Fixed.pure _ _

theorem Fixed.comment {o r} {n : Node} (g : Good o r n) : Fixed r (comment n) := by
  unfold Protoast.comment
  split
  · next a k p =>
    have hp := goodW_file g
    refine Fixed.get (fun r2 h => by rw [h.elem hp, h.kind hp]) (fun r2 => ?_)
    fixed
  · next a p =>
    have hp := isOneofAt_file g.2.1
    exact Fixed.get (fun r2 h => by rw [h.elem hp]) (fun r2 => Fixed.pure _ _)
  · next a p =>
    have hp := isMapAt_file g.2
    exact Fixed.get (fun r2 h => by rw [h.elem hp]) (fun r2 => Fixed.pure _ _)
  · exact Fixed.pure _ _

theorem Fixed.typeName {o r} : (n : Node) → Good o r n → Fixed r (typeName n)
  | .wrapped _ k p, g => by
    have hp := goodW_file g
    unfold Protoast.typeName
    refine Fixed.get (fun r2 h => by rw [h.scope hp]) (fun r2 => ?_)
    fixed
  | .repeated _ (some t), g => by
    have := Fixed.typeName t g.2.2
    unfold Protoast.typeName
    fixed
  | .repeated _ none, _ => Fixed.panic _ _
  | .oneof _ _, _ => Fixed.pure _ _
  | .builtin _, _ => Fixed.pure _ _
  | .map _ _, _ => Fixed.panic _ _
  | .option _ _ _ _, _ => Fixed.panic _ _
  | .value _, _ => Fixed.panic _ _
  | .mapItem _ _, _ => Fixed.panic _ _

theorem Fixed.nodeDescription {o r} : (n : Node) → Good o r n → Fixed r (nodeDescription n)
  | .wrapped _ k p, g => by
    unfold Protoast.nodeDescription
    fixed
  | .repeated _ (some t), g => by
    have := Fixed.nodeDescription t g.2.2
    unfold Protoast.nodeDescription
    fixed
  | .repeated _ none, _ => Fixed.panic _ _
  | .oneof _ _, _ => Fixed.pure _ _
  | .builtin _, _ => Fixed.panic _ _
  | .map _ p, g => by
    have := Fixed.mapKey (isMapAt_file g.2)
    unfold Protoast.nodeDescription
    fixed
  | .option _ _ _ _, _ => Fixed.pure _ _
  | .value _, _ => Fixed.panic _ _
  | .mapItem _ _, _ => Fixed.panic _ _

theorem Fixed.attr {o r} (q : Attr) {n : Node} (g : Good o r n) : Fixed r (q.read n) := by
  have e := fun {α} (m : M α) (f : α → AttrVal) (h : Fixed r m) =>
    Fixed.bind (f := fun x => (Pure.pure (f x) : M AttrVal)) h (fun a => Fixed.pure _ _)
  unfold Attr.read
  split
  · exact e _ _ (Fixed.nodeIndex g)
  · exact e _ _ (Fixed.nodeDescription _ g)
  · exact e _ _ (Fixed.comment g)
  · exact e _ _ (Fixed.typeName _ g)
  · exact e _ _ (Fixed.fileName (goodW_file g))
  · exact e _ _ (Fixed.messageName (goodW_file g))
  · exact e _ _ (Fixed.enumName (goodW_file g))
  · exact e _ _ (Fixed.enumValueName (goodW_file g))
  · exact e _ _ (Fixed.fieldName (goodW_file g))
  · exact e _ _ (Fixed.branchName (goodW_file g))
  · exact e _ _ (Fixed.serviceName (goodW_file g))
  · exact e _ _ (Fixed.methodName (goodW_file g))
  · exact e _ _ (Fixed.filePackage (goodW_file g))
  · exact e _ _ (Fixed.packageName (goodW_file g))
  · exact e _ _ (Fixed.messageIsExtension (goodW_file g))
  · exact e _ _ (Fixed.fieldValue (goodW_file g))
  · exact e _ _ (Fixed.enumValueValue (goodW_file g))
  · exact e _ _ (Fixed.branchValue (goodW_file g))
  · exact e _ _ (Fixed.fieldOptional (goodW_file g))
  · exact e _ _ (Fixed.importPath (goodW_file g))
  · exact e _ _ (Fixed.syntaxValue (goodW_file g))
  · exact reserved_fixed (goodW_file g)
  · exact Fixed.pure _ _

/-! ### Positions, parents, hierarchies, files -/

theorem goodVal_opt_file {o r} {v : OptVal} (g : GoodVal o r v) {q} (h : v.opt = some q) :
    q.file < r.heap.length := by
  have := goodVal_opt g
  rw [h] at this
  exact isOptionAt_file this.1

theorem Fixed.nodePos {o r} : (n : Node) → Good o r n → Fixed r (nodePos n)
  | .wrapped _ k p, g => by
    have h1 := Fixed.filePos (goodW_file g)
    have h2 := Fixed.elemPos (goodW_file g)
    cases k <;> assumption
  | .repeated _ (some t), g => by
    have := Fixed.nodePos t g.2.2
    exact this
  | .repeated _ none, _ => Fixed.panic _ _
  | .oneof _ _, g => Fixed.elemPos (isOneofAt_file g.2.1)
  | .builtin _, _ => Fixed.pure _ _
  | .map _ _, g => Fixed.elemPos (isMapAt_file g.2)
  | .option _ _ _ _, g => Fixed.elemPos (isOptionAt_file g.2.1.1)
  | .value v, g => by
    unfold Protoast.nodePos
    split
    · next h => exact Fixed.elemPos (goodVal_opt_file g h)
    · exact Fixed.panic _ _
  | .mapItem _ _, _ => Fixed.panic _ _

theorem Fixed.posBody {o r} {n : Node} (g : Good o r n) : Fixed r (posBody n) := by
  cases n with
  | wrapped a k p =>
    have h1 := Fixed.filePos (goodW_file g)
    have h2 := Fixed.elemPos (goodW_file g)
    cases k <;> assumption
  | option a p c f => exact Fixed.elemPos (isOptionAt_file g.2.1.1)
  | oneof a p => exact Fixed.elemPos (isOneofAt_file g.2.1)
  | map a p => exact Fixed.elemPos (isMapAt_file g.2)
  | «repeated» a t => exact Fixed.panic _ _
  | builtin b => exact Fixed.panic _ _
  | value v => cases v <;> first | exact Fixed.pure _ _ | exact Fixed.panic _ _
  | mapItem k v => exact Fixed.panic _ _

theorem Repeats.congr {α} {r : Reg} {m m' : M α} (h : m = m') (g : Repeats r m') : Repeats r m := h ▸ g

theorem Repeats.nodeParent {o r} : (n : Node) → Good o r n → Repeats r (nodeParent n)
  | .wrapped _ k p, g => by
    have hp := goodW_file g
    unfold Protoast.nodeParent
    refine Repeats.get (fun r2 h => by rw [h.kind hp]) ?_ ?_
    · cases k <;> simp only <;> first | exact RO.wrap _ | exact RO.pure _ | (split <;> ro)
    · cases k <;> simp only <;> first
        | exact Repeats.wrap _ _
        | exact Repeats.pure _ _
        | (split <;> first | exact Repeats.wrap _ _ | exact Repeats.panic _ _)
  | .repeated _ (some t), g => Repeats.nodeParent t g.2.2
  | .repeated _ none, _ => Repeats.panic _ _
  | .oneof _ _, g => Repeats.wrap _ _
  | .builtin _, _ => Repeats.panic _ _
  | .map _ _, g => Repeats.panic _ _
  | .option _ _ _ _, g => Repeats.wrap _ _
  | .value v, g => by
    unfold Protoast.nodeParent
    split <;> exact Repeats.wrap _ _
  | .mapItem _ _, _ => Repeats.panic _ _

theorem nodeHierarchy_none (fuel : Nat) : nodeHierarchy fuel none = Pure.pure [] := by cases fuel <;> rfl

theorem Repeats.nodeHierarchy : ∀ (fuel : Nat) {o r}, Inv o r → ∀ (n : Node), Good o r n →
    Repeats r (nodeHierarchy fuel (some n)) := by
  intro fuel
  induction fuel with
  | zero => intro o r _ n _ x r1 h; cases h
  | succ fuel ih =>
    intro o r hi n g
    unfold Protoast.nodeHierarchy
    refine Repeats.bind (Repeats.nodeParent n g) (RO.nodeParent n) ?_ ?_
    · intro x r1 hx
      obtain ⟨o', _, hi', hq⟩ := nodeParent_tri hi n g
      rw [hx] at hi' hq
      refine Repeats.bind ?_ (RO.nodeHierarchy _ _) (fun _ _ _ => Repeats.pure _ _) (fun _ => RO.pure _)
      cases x with
      | none => rw [nodeHierarchy_none]; exact Repeats.pure _ _
      | some m => exact ih hi' m (hq _ rfl m rfl)
    · intro x
      exact RO.bind (RO.nodeHierarchy _ _) (fun _ => RO.pure _)

theorem Fixed.repeats {α} {r : Reg} {m : M α} (h : Fixed r m) : Repeats r m := by
  intro x r1 hx r2 h2
  have e := h.2 r
  rw [hx] at e
  simp only at e
  subst e
  rw [h.1 r2 h2, hx]

theorem Repeats.posDefer {fuel : Nat} {o r} (hi : Inv o r) {n : Node} (g : Good o r n) (ps : Position) :
    Repeats r (posDefer fuel n ps) := by
  unfold Protoast.posDefer
  split
  · exact Repeats.pure _ _
  · refine Repeats.bind (Repeats.nodeHierarchy fuel hi n g) (RO.nodeHierarchy _ _) ?_ ?_
    · intro l r1 hl
      obtain ⟨o', _, hi', hq⟩ := nodeHierarchy_tri fuel hi (x := some n)
        (by intro m hm; cases hm; exact g)
      rw [hl] at hi' hq
      refine Repeats.bind ?_ (RO.lastFile l) ?_ ?_
      · intro x r1 h r2 _
        have : ∀ l : List Node, ∀ ra rb, (Protoast.lastFile l ra).1 = (Protoast.lastFile l rb).1 := by
          intro l
          induction l with
          | nil => intros; rfl
          | cons a l ih =>
            intro ra rb
            cases l with
            | nil =>
              cases a with
              | wrapped a k p => cases k <;> rfl
              | _ => rfl
            | cons b l =>
              have e : Protoast.lastFile (a :: b :: l) = Protoast.lastFile (b :: l) := by
                cases a with
                | wrapped a k p => cases k <;> rfl
                | _ => rfl
              rw [e]
              exact ih ra rb
        rw [this l r2, h]
      · intro f r2 hf
        have hfg : f.file < r2.heap.length := by
          have hrd := (Rd.lastFile l).1 r1
          rw [hf] at hrd
          simp only at hrd
          subst hrd
          have : ∀ l : List Node, (∀ m ∈ l, Good o' r2 m) → (Protoast.lastFile l r2).1 = .ok f →
              f.file < r2.heap.length := by
            intro l
            induction l with
            | nil => intro _ h; cases h
            | cons a l ih =>
              intro hg h
              cases l with
              | nil =>
                cases a with
                | wrapped a k p =>
                  cases k <;> first | cases h; done | skip
                  cases h
                  exact goodW_file (o := o') (hg (.wrapped _ .file f) (List.mem_singleton.mpr rfl))
                | _ => cases h
              | cons b l =>
                have e : Protoast.lastFile (a :: b :: l) = Protoast.lastFile (b :: l) := by
                  cases a with
                  | wrapped a k p => cases k <;> rfl
                  | _ => rfl
                rw [e] at h
                exact ih (fun m hm => hg m (List.mem_cons_of_mem _ hm)) h
          exact this l (hq l rfl) (by rw [hf])
        exact Repeats.bind (Fixed.fileName hfg).repeats (RO.fileName _) (fun _ _ _ => Repeats.pure _ _)
          (fun _ => RO.pure _)
      · intro f
        exact RO.bind (RO.fileName _) (fun _ => RO.pure _)
    · intro l
      exact RO.bind (RO.lastFile l) (fun _ => RO.bind (RO.fileName _) (fun _ => RO.pure _))

theorem Repeats.pos {fuel : Nat} {o r} (hi : Inv o r) {n : Node} (g : Good o r n) :
    Repeats r (pos fuel n) := by
  intro x r1 h r2 h2
  have hb := Fixed.posBody g
  have e0 := hb.2 r
  have e2 := hb.2 r2
  have hl : Later r r2 := by
    have := ((RO.pos fuel n).ext r).later
    rw [h] at this
    exact this.trans h2
  have e1 := hb.1 r2 hl
  unfold Protoast.pos at h ⊢
  rcases hp : Protoast.posBody n r with ⟨res, r'⟩
  rcases hp2 : Protoast.posBody n r2 with ⟨res2, r2'⟩
  rw [hp, hp2] at e1
  rw [hp] at e0 h
  rw [hp2] at e2
  simp only at e0 e1 e2
  subst e0 e1 e2
  cases res2 with
  | ok ps => exact Repeats.posDefer hi g ps x r1 h _ h2
  | panic e =>
    exfalso
    simp only at h
    rcases hd : Protoast.posDefer fuel n {} r' with ⟨res3, r3⟩
    rw [hd] at h
    cases res3 <;> cases h
  | timeout => cases h

/-- `NodeFile` once it has found a file. -/
theorem nodeFile_repeats {o r} {n : Node} (g : Good o r n) {f r1} (h : nodeFile n r = (.ok (some f), r1))
    {r2} (h2 : Later r1 r2) : (nodeFile n r2).1 = .ok (some f) := by
  have hb := Fixed.nodePos n g
  have e0 := hb.2 r
  have e2 := hb.2 r2
  have hl : Later r r2 := by
    have := ((RO.nodeFile n).ext r).later
    rw [h] at this
    exact this.trans h2
  have e1 := hb.1 r2 hl
  unfold nodeFile at h ⊢
  simp only [M.bind_apply] at h ⊢
  rcases hp : Protoast.nodePos n r with ⟨res, r'⟩
  rcases hp2 : Protoast.nodePos n r2 with ⟨res2, r2'⟩
  rw [hp, hp2] at e1
  rw [hp] at e0 h
  rw [hp2] at e2
  simp only at e0 e1 e2
  subst e0 e1 e2
  cases res2 with
  | panic e => cases h
  | timeout => cases h
  | ok ps =>
    simp only [M.get_apply] at h ⊢
    cases hpr : r'.protos ps.filename with
    | none => rw [hpr] at h; cases h
    | some i =>
      rw [hpr] at h
      rw [hl.protos _ _ hpr]
      have := Repeats.bind (Repeats.wrapAs r' .file ⟨i, []⟩) (RO.wrapAs _ _)
        (f := fun x => (Pure.pure (some x) : M (Option Node))) (fun _ _ _ => Repeats.pure _ _)
        (fun _ => RO.pure _)
      exact this _ _ h _ h2

/-! ### Iterators and lookups by name -/

theorem Repeats.iterRun {o r} (q : IterQ) (hq : q.structural = true) {n : Node} (g : Good o r n) (i : Nat) :
    Repeats r (q.run n i) := by
  have hw : ∀ k p, Repeats r (Protoast.wrapAs k p) ∧ RO (Protoast.wrapAs k p) := fun k p => ⟨Repeats.wrapAs _ _ _, RO.wrapAs _ _⟩
  have hn : ∀ p, Repeats r (Protoast.wrapNamed p) ∧ RO (Protoast.wrapNamed p) := fun p => ⟨Repeats.wrapNamed _ _, RO.wrapNamed _⟩
  unfold IterQ.run
  split <;> first | (simp [IterQ.structural] at hq; done) | skip
  all_goals first
    | exact Repeats.pure _ _
    | (refine Repeats.nth i (goodW_file g) ?_
       intro q k m hm
       split at hm <;> cases hm <;> first | exact hw _ _ | exact hn _)
    | (refine Repeats.nth i (isOneofAt_file g.2.1) ?_
       intro q k m hm
       split at hm <;> cases hm
       exact hw _ _)

theorem Repeats.fileType {r : Reg} {p : Ptr} (hp : p.file < r.heap.length) (n : Str) :
    Repeats r (File.type p n) := by
  unfold File.type
  have h2 : ∀ k q, Repeats r (do let n ← Protoast.wrapAs k q; Pure.pure (some n)) := fun k q =>
    Repeats.bind (Repeats.wrapAs r _ _) (RO.wrapAs _ _) (fun x r1 _ => Repeats.pure _ _) (fun _ => RO.pure _)
  refine Repeats.get (fun r2 h2 => by rw [h2.kids hp]) ?_ ?_
  · split
    · split <;> ro
    · ro
  · split
    · split <;> exact h2 _ _
    · exact Repeats.pure _ _

theorem Repeats.messageType {r : Reg} {p : Ptr} (hp : p.file < r.heap.length) (n : Str) :
    Repeats r (Message.type p n) := by
  unfold Message.type
  have h2 : ∀ k q, Repeats r (do let n ← Protoast.wrapAs k q; Pure.pure (some n)) := fun k q =>
    Repeats.bind (Repeats.wrapAs r _ _) (RO.wrapAs _ _) (fun x r1 _ => Repeats.pure _ _) (fun _ => RO.pure _)
  refine Repeats.get (fun r2 h2 => by rw [h2.kids hp]) ?_ ?_
  · split
    · split <;> ro
    · ro
  · split
    · split <;> exact h2 _ _
    · exact Repeats.pure _ _

theorem Repeats.namedRun {o r} (q : NamedQ) (hq : q.structural = true) {n : Node} (g : Good o r n) (s : Str) :
    Repeats r (q.run n s) := by
  unfold NamedQ.run
  split <;> first | (simp [NamedQ.structural] at hq; done) | skip
  all_goals first
    | exact Repeats.pure _ _
    | exact Repeats.firstKid (goodW_file g)
    | exact Repeats.firstKid (isOneofAt_file g.2.1)
    | exact Repeats.fileType (goodW_file g) _
    | exact Repeats.messageType (goodW_file g) _

end Protoast
