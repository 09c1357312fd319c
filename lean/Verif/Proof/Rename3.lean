import Verif.Proof.Rename2
import Verif.Spec.Answer
/-
  Renaming of files, continued: attributes, parents, positions, loading, and whole histories.
-/
namespace Protoast

variable {s : Ren}

theorem nodeIndex_eqv {n : Node} (hd : Deep n) (hf : ∀ a p, n ≠ .wrapped a .file p) :
    EqvEq s (nodeIndex n) (nodeIndex (s.node n)) := by
  cases n with
  | wrapped a k p =>
    refine Eqv.get fun r1 r2 hs => ?_
    cases k <;> simp only <;> first
      | exact (hf _ _ rfl).elim
      | exact Eqv.pure rfl
      | (rw [hs.scope (deep_path hd (by simp))]; exact Eqv.pure rfl)
      | (simp only [hs.kind]
         split <;> first
          | exact Eqv.pure rfl
          | (rw [hs.scope (deep_path hd (by simp))]; exact Eqv.pure rfl))
  | oneof a p =>
    refine Eqv.get fun r1 r2 hs => ?_
    rw [hs.scope hd]; exact Eqv.pure rfl
  | map a p =>
    refine Eqv.get fun r1 r2 hs => ?_
    rw [hs.scope hd]; exact Eqv.pure rfl
  | «repeated» a t => cases t <;> exact Eqv.pure rfl
  | _ => exact Eqv.pure rfl

theorem nodeDescription_eqv : (n : Node) → EqvEq s (nodeDescription n) (nodeDescription (s.node n))
  | .wrapped a k p => by cases k <;> exact Eqv.pure rfl
  | .option _ _ _ _ => Eqv.pure rfl
  | .oneof _ _ => Eqv.pure rfl
  | .map a p => by
    refine Eqv.bind (mapKey_eqv p) ?_
    rintro n _ ⟨⟨rfl, -⟩, b, rfl⟩
    exact Eqv.panic
  | .repeated _ none => Eqv.panic
  | .repeated _ (some t) => by
    refine Eqv.bind (nodeDescription_eqv t) ?_
    rintro d _ rfl
    exact Eqv.pure rfl
  | .builtin _ => Eqv.panic
  | .value _ => Eqv.panic
  | .mapItem _ _ => Eqv.panic

theorem comment_eqv (n : Node) : EqvEq s (comment n) (comment (s.node n)) := by
  cases n with
  | wrapped a k p =>
    refine Eqv.get fun r1 r2 hs => ?_
    cases k <;> simp only [hs.elem, hs.kind] <;> first
      | exact Eqv.pure rfl
      | (split <;> first | exact Eqv.pure rfl | exact Eqv.panic)
  | oneof a p => refine Eqv.get fun r1 r2 hs => ?_; rw [hs.elem]; exact Eqv.pure rfl
  | map a p => refine Eqv.get fun r1 r2 hs => ?_; rw [hs.elem]; exact Eqv.pure rfl
  | «repeated» a t => cases t <;> exact Eqv.pure rfl
  | _ => exact Eqv.pure rfl

theorem typeName_eqv : (n : Node) → Deep n → EqvEq s (typeName n) (typeName (s.node n))
  | .wrapped a k p, hd => by
    refine Eqv.get fun r1 r2 hs => ?_
    cases k <;> simp only <;> first
      | exact Eqv.panic
      | (rw [hs.scope (deep_path hd (by simp))]; exact Eqv.pure rfl)
  | .option _ _ _ _, _ => Eqv.panic
  | .oneof _ _, _ => Eqv.pure rfl
  | .map _ _, _ => Eqv.panic
  | .repeated _ none, _ => Eqv.panic
  | .repeated _ (some t), hd => by
    refine Eqv.bind (typeName_eqv t hd) ?_
    rintro d _ rfl
    exact Eqv.pure rfl
  | .builtin _, _ => Eqv.pure rfl
  | .value _, _ => Eqv.panic
  | .mapItem _ _, _ => Eqv.panic

theorem wrapParent_eqv (p : Ptr) : Eqv s s.opt (wrap p.parent) (wrap (s.ptr p).parent) := by
  rw [Ren.parent]
  exact (Eqv.wrap p.parent).mono fun _ _ h => h.opt

theorem nodeParent_eqv : (n : Node) → Eqv s s.opt (nodeParent n) (nodeParent (s.node n))
  | .wrapped a k p => by
    refine Eqv.get fun r1 r2 hs => ?_
    cases k <;> simp only [hs.kind] <;> first
      | exact wrapParent_eqv p
      | exact Eqv.pure Ren.opt_none
      | (split <;> first | exact wrapParent_eqv p | exact Eqv.panic)
  | .option _ p _ _ => wrapParent_eqv p
  | .oneof _ p => wrapParent_eqv p
  | .map _ _ => Eqv.panic
  | .repeated _ none => Eqv.panic
  | .repeated _ (some t) => nodeParent_eqv t
  | .builtin _ => Eqv.panic
  | .value v => by
    simp only [nodeParent, Ren.node, val_opt]
    cases v.opt with
    | none => exact (Eqv.wrap .nilOption).mono fun _ _ h => h.opt
    | some o => exact (Eqv.wrap (.at o)).mono fun _ _ h => h.opt
  | .mapItem _ _ => Eqv.panic

theorem nodeHierarchy_eqv : ∀ (fuel : Nat) (o1 o2 : Option Node), s.opt o1 o2 →
    Eqv s s.nds (nodeHierarchy fuel o1) (nodeHierarchy fuel o2) := by
  intro fuel
  induction fuel with
  | zero =>
    rintro o1 _ ⟨rfl, hd⟩
    cases o1 with
    | none => exact Eqv.pure ⟨rfl, fun n h => by cases h⟩
    | some n => exact fun r1 r2 hs => ⟨trivial, hs⟩
  | succ fuel ih =>
    rintro o1 _ ⟨rfl, hd⟩
    cases o1 with
    | none => exact Eqv.pure ⟨rfl, fun n h => by cases h⟩
    | some n =>
      refine Eqv.bind (nodeParent_eqv n) fun p1 p2 hp => ?_
      refine Eqv.bind (ih p1 p2 hp) ?_
      rintro l1 _ ⟨rfl, hl⟩
      refine Eqv.pure ⟨rfl, ?_⟩
      intro m hm
      cases hm with
      | head => exact hd _ rfl
      | tail _ hm => exact hl m hm

theorem elemPos_eqv (p : Ptr) : EqvEq s (elemPos p) (elemPos (s.ptr p)) := by
  refine Eqv.get fun r1 r2 hs => ?_
  rw [hs.elem]
  split <;> first | exact Eqv.pure rfl | exact Eqv.panic

theorem filePos_eqv (p : Ptr) : EqvEq s (filePos p) (filePos (s.ptr p)) := by
  refine Eqv.get fun r1 r2 hs => ?_
  simp only [Ren.ptr, hs.heap]
  cases r1.heap[p.file]? <;> first | exact Eqv.pure rfl | exact Eqv.panic

theorem nodePos_eqv : (n : Node) → EqvEq s (nodePos n) (nodePos (s.node n))
  | .wrapped a k p => by cases k <;> first | exact filePos_eqv p | exact elemPos_eqv p
  | .option _ p _ _ => elemPos_eqv p
  | .oneof _ p => elemPos_eqv p
  | .map _ p => elemPos_eqv p
  | .repeated _ none => Eqv.panic
  | .repeated _ (some t) => nodePos_eqv t
  | .builtin _ => Eqv.pure rfl
  | .value v => by
    simp only [nodePos, Ren.node, val_opt]
    cases v.opt with
    | none => exact Eqv.panic
    | some o => exact elemPos_eqv o
  | .mapItem _ _ => Eqv.panic

theorem nodeFile_eqv (n : Node) : Eqv s s.opt (nodeFile n) (nodeFile (s.node n)) := by
  refine Eqv.bind (nodePos_eqv n) ?_
  rintro pos _ rfl
  refine Eqv.get fun r1 r2 hs => ?_
  rw [hs.protos]
  cases r1.protos pos.filename with
  | none => exact Eqv.pure Ren.opt_none
  | some i => exact Eqv.someOf (wrapAs_nd .file ⟨i, []⟩)

theorem posBody_eqv (n : Node) : EqvEq s (posBody n) (posBody (s.node n)) := by
  cases n with
  | wrapped a k p => cases k <;> first | exact filePos_eqv p | exact elemPos_eqv p
  | option _ p _ _ => exact elemPos_eqv p
  | oneof _ p => exact elemPos_eqv p
  | map _ p => exact elemPos_eqv p
  | «repeated» _ t => cases t <;> exact Eqv.panic
  | builtin _ => exact Eqv.panic
  | value v => cases v <;> simp only [posBody, Ren.node, Ren.val] <;> first | exact Eqv.pure rfl | exact Eqv.panic
  | mapItem _ _ => exact Eqv.panic

theorem lastFile_eqv : (l : List Node) → Eqv s (fun p q => q = s.ptr p) (lastFile l) (lastFile (l.map s.node))
  | [] => Eqv.panic
  | [n] => by
    cases n with
    | wrapped a k p => cases k <;> first | exact Eqv.pure rfl | exact Eqv.panic
    | «repeated» a t => cases t <;> exact Eqv.panic
    | _ => exact Eqv.panic
  | _ :: b :: rest => by
    have := lastFile_eqv (b :: rest)
    simp only [List.map_cons, lastFile] at this ⊢
    exact this

theorem posDefer_eqv (fuel : Nat) {n : Node} (hd : Deep n) (res : Position) :
    EqvEq s (posDefer fuel n res) (posDefer fuel (s.node n) res) := by
  unfold posDefer
  split
  · exact Eqv.pure rfl
  · refine Eqv.bind (nodeHierarchy_eqv fuel (some n) _ ⟨rfl, fun m e => by cases e; exact hd⟩) ?_
    rintro l _ ⟨rfl, -⟩
    refine Eqv.bind (lastFile_eqv l) ?_
    rintro p _ rfl
    refine Eqv.bind (fileName_eqv p) ?_
    rintro nm _ rfl
    exact Eqv.pure rfl

theorem pos_eqv (fuel : Nat) {n : Node} (hd : Deep n) : EqvEq s (pos fuel n) (pos fuel (s.node n)) := by
  intro r1 r2 hs
  have h0 := posBody_eqv (s := s) n r1 r2 hs
  unfold pos
  rcases h1 : posBody n r1 with ⟨res1, r1'⟩
  rcases h2 : posBody (s.node n) r2 with ⟨res2, r2'⟩
  rw [h1, h2] at h0
  cases res1 <;> cases res2 <;> simp only [ResRel] at h0 <;> try exact h0.1.elim
  · obtain ⟨rfl, hs'⟩ := h0
    exact posDefer_eqv fuel hd _ _ _ hs'
  · obtain ⟨rfl, hs'⟩ := h0
    have h3 := posDefer_eqv (s := s) fuel hd {} _ _ hs'
    simp only
    rcases h4 : posDefer fuel n {} r1' with ⟨res3, r3⟩
    rcases h5 : posDefer fuel (s.node n) {} r2' with ⟨res4, r4⟩
    rw [h4, h5] at h3
    cases res3 <;> cases res4 <;> simp only [ResRel] at h3 <;> try exact h3.1.elim
    · exact ⟨rfl, h3.2⟩
    · exact ⟨h3.1, h3.2⟩
    · exact ⟨trivial, h3.2⟩
  · exact ⟨trivial, h0.2⟩

theorem typeIsDefined_eqv (n : Node) (ref : Str) : EqvEq s (typeIsDefined n ref) (typeIsDefined (s.node n) ref) := by
  refine Eqv.get fun r1 r2 hs => ?_
  have hreg : ∀ p, r2.registry ref = some (s.ptr p) ↔ r1.registry ref = some p := by
    intro p
    rw [hs.names]
    simp only [Option.map_eq_some_iff]
    constructor
    · rintro ⟨q, h, e⟩; rw [h, Ren.ptr_inj e]
    · intro h; exact ⟨p, h, rfl⟩
  cases n with
  | wrapped a k p =>
    cases k <;> simp only [Ren.node, hreg] <;> exact Eqv.pure rfl
  | «repeated» a t => cases t <;> exact Eqv.pure rfl
  | _ => exact Eqv.pure rfl

theorem goPackageOption_eqv (n : Node) : EqvEq s (goPackageOption n) (goPackageOption (s.node n)) := by
  cases n with
  | option a o c f =>
    refine Eqv.get fun r1 r2 hs => ?_
    rw [hs.names]
    cases r1.registry goPackageField with
    | none => exact Eqv.panic
    | some q =>
      simp only [Option.map_some, ne_eq, Ren.ptr_iff, hs.kind]
      split
      · exact Eqv.pure rfl
      · split <;> first | exact Eqv.pure rfl | exact Eqv.panic
  | «repeated» a t => cases t <;> exact Eqv.pure rfl
  | _ => exact Eqv.pure rfl

theorem goPackageBody_eqv (st : Option (Option GoPackageInfo)) (o1 o2 : Option Node) (h : s.opt o1 o2) :
    EqvEq s (goPackageBody st o1) (goPackageBody st o2) := by
  obtain ⟨rfl, hd⟩ := h
  cases o1 with
  | none => exact Eqv.pure rfl
  | some n =>
    have hd := hd n rfl
    cases n with
    | option a o c f =>
      refine Eqv.bind (optionName_eqv hd.2.1) ?_
      rintro nm _ rfl
      split
      · exact Eqv.pure rfl
      · refine Eqv.bind (goPackageOption_eqv (.option a o c f)) ?_
        rintro g _ rfl
        exact Eqv.pure rfl
    | «repeated» a t => cases t <;> exact Eqv.pure rfl
    | _ => exact Eqv.pure rfl

theorem goPackage_eqv (n : Node) : EqvEq s (goPackage n) (goPackage (s.node n)) := by
  refine Eqv.bind (nodeFile_eqv n) ?_
  rintro o1 _ ⟨rfl, hd⟩
  cases o1 with
  | none => exact Eqv.pure rfl
  | some m =>
    cases m with
    | wrapped a k p =>
      cases k <;> first | exact Eqv.pure rfl | skip
      refine Eqv.bind (R := fun a b => a = b) ?_ ?_
      · exact Eqv.bind (everything_eqv p registryOptionsFile) fun l1 l2 hl => runSteps_eqv goPackageBody_eqv hl none
      · rintro g _ rfl
        cases g <;> exact Eqv.pure rfl
    | «repeated» a t => cases t <;> exact Eqv.pure rfl
    | _ => exact Eqv.pure rfl

theorem optionIs_eqv {f : Ptr} (hf : f.path ≠ []) (nm : Str) : EqvEq s (Option.is f nm) (Option.is (s.ptr f) nm) := by
  refine Eqv.bind (Eqv.wrap (.at f)) ?_
  rintro o1 _ ⟨rfl, hd⟩
  cases o1 with
  | none => exact Eqv.pure rfl
  | some n =>
    obtain ⟨a, k, p, rfl, hv, hk⟩ := hd n rfl
    cases hv
    refine Eqv.bind (nodeIndex_eqv (n := .wrapped a k f) hk ?_) ?_
    · intro b q e
      cases e
      exact hf (hk.mp rfl)
    · rintro i _ rfl
      exact Eqv.pure rfl

/-! ### Loading -/

/-- Renaming of actions. -/
def Ren.act (s : Ren) : Act → Act
  | .name n p => .name n (s.ptr p)
  | .scope v t => .scope (s.vis v) t
  | .imp f => .imp f

theorem Sim.setName {r1 r2 : Reg} (hs : Sim s r1 r2) (n : Str) (p : Ptr) (hp : p.path ≠ []) :
    Sim s (setName n p r1).2 (setName n (s.ptr p) r2).2 := by
  refine { hs with names := ?_, deep := ?_ }
  · intro m
    show upd r2.registry n (s.ptr p) m = (upd r1.registry n p m).map s.ptr
    simp only [upd]
    split
    · rfl
    · exact hs.names m
  · intro m q h
    simp only [Protoast.setName, M.modify_apply, upd] at h
    split at h
    · cases h; exact hp
    · exact hs.deep _ _ h

theorem Sim.setScope {r1 r2 : Reg} (hs : Sim s r1 r2) (v : Vis) (t : Str) :
    Sim s (setScope v t r1).2 (setScope (s.vis v) t r2).2 := by
  refine { hs with scopes := ?_, scopesFull := ?_ }
  · intro p hp
    show upd r2.scopes (s.vis v) t (.at (s.ptr p)) = upd r1.scopes v t (.at p)
    by_cases h : v = .at p
    · subst h; simp [upd, Ren.vis]
    · have : ¬ (Vis.at (s.ptr p)) = s.vis v := fun e => h (Ren.vis_inj (s := s) (w := .at p) e.symm)
      have h' : ¬ Vis.at p = v := fun e => h e.symm
      simp only [upd, if_neg this, if_neg h']
      exact hs.scopes p hp
  · intro hf w
    show upd r2.scopes (s.vis v) t (s.vis w) = upd r1.scopes v t w
    by_cases h : w = v
    · subst h; simp [upd]
    · have : ¬ s.vis w = s.vis v := fun e => h (Ren.vis_inj e)
      simp only [upd, if_neg this, if_neg h]
      exact hs.scopesFull hf w

/-- The pointers registered by an action are not files. -/
def Act.Deep : Act → Prop
  | .name _ p => p.path ≠ []
  | _ => True

theorem runActs_eqv {i1 i2 : Str → M Unit} (hi : ∀ f, EqvEq s (i1 f) (i2 f)) : ∀ (as : List Act),
    (∀ a ∈ as, a.Deep) → EqvEq s (runActs i1 as) (runActs i2 (as.map s.act)) := by
  intro as
  induction as with
  | nil => intro _; exact Eqv.pure rfl
  | cons a as ih =>
    intro h
    refine Eqv.bind (R := fun a b => a = b) ?_ fun _ _ _ => ih fun b hb => h b (List.mem_cons_of_mem _ hb)
    cases a with
    | name n p => exact fun r1 r2 hs => ⟨rfl, hs.setName n p (h _ (List.mem_cons_self ..))⟩
    | scope v t => exact fun r1 r2 hs => ⟨rfl, hs.setScope v t⟩
    | imp f => exact hi f

mutual
theorem acts_ren (key : Vis) : (e : Elem) → (p : Ptr) → (scope : Str) →
    acts (s.vis key) e (s.ptr p) scope = ((acts key e p scope).1.map s.act, (acts key e p scope).2)
  | .mk pos c k cs, p, scope => by
    have hcs := actsAll_ren key cs p 0
    have hv : ∀ q : Ptr, s.vis (.at q) = .at (s.ptr q) := fun _ => rfl
    cases k <;> simp only [acts, hcs, List.map_nil, List.map_cons, Ren.act, hv]
    case message name ext => cases ext <;> simp [Ren.act, hv]
theorem actsAll_ren (key : Vis) : (es : List Elem) → (p : Ptr) → (n : Nat) → (scope : Str) →
    actsAll (s.vis key) es (s.ptr p) n scope =
      ((actsAll key es p n scope).1.map s.act, (actsAll key es p n scope).2)
  | [], p, n, scope => rfl
  | e :: es, p, n, scope => by
    simp only [actsAll, Ren.child, acts_ren key e, actsAll_ren key es, List.map_append]
end

mutual
theorem acts_deep (key : Vis) : (e : Elem) → (p : Ptr) → (scope : Str) → p.path ≠ [] →
    ∀ a ∈ (acts key e p scope).1, a.Deep
  | .mk pos c k cs, p, scope, hp => by
    have hcs := actsAll_deep key cs p 0
    intro a ha
    cases k <;> simp only [acts] at ha <;> try (simp only [List.mem_cons, List.not_mem_nil, or_false] at ha)
    all_goals first
      | exact ha.elim
      | (rcases ha with rfl | rfl | rfl | ha <;> first | exact hp | trivial | exact hcs _ a ha)
      | (rcases ha with rfl | rfl | ha <;> first | exact hp | trivial | exact hcs _ a ha)
      | (rcases ha with rfl | rfl <;> first | exact hp | trivial)
      | (subst ha; first | exact hp | trivial)
      | skip
    case message name ext =>
      cases ext
      · simp only [Bool.false_eq_true, if_false, List.mem_cons] at ha
        rcases ha with rfl | rfl | ha <;> first | exact hp | trivial | exact hcs _ a ha
      · exact hcs _ a ha
theorem actsAll_deep (key : Vis) : (es : List Elem) → (p : Ptr) → (n : Nat) → (scope : Str) →
    ∀ a ∈ (actsAll key es p n scope).1, a.Deep
  | [], p, n, scope => by intro a ha; cases ha
  | e :: es, p, n, scope => by
    intro a ha
    simp only [actsAll, List.mem_append] at ha
    rcases ha with ha | ha
    · exact acts_deep key e (p.child n) scope (by simp [Ptr.child]) a ha
    · exact actsAll_deep key es p (n + 1) _ a ha
end

theorem acceptFile_run {imp : Str → M Unit} {key : Vis} {i : Nat} {r : Reg} :
    acceptFile imp key i r = runActs imp (fileActs key i ((r.children ⟨i, []⟩).getD [])) r := by
  unfold acceptFile
  simp only [M.bind_apply, M.get_apply, visitAll_eq]
  unfold fileActs
  rcases runActs imp (actsAll key ((r.children ⟨i, []⟩).getD []) ⟨i, []⟩ 0 []).1 r with ⟨res, r'⟩
  cases res <;> rfl

theorem acceptFile_eqv {i1 i2 : Str → M Unit} (hi : ∀ f, EqvEq s (i1 f) (i2 f)) (key : Vis) (i : Nat) :
    EqvEq s (acceptFile i1 key i) (acceptFile i2 (s.vis key) (s.file i)) := by
  intro r1 r2 hs
  rw [acceptFile_run, acceptFile_run]
  have hc := hs.children ⟨i, []⟩
  simp only [Ren.ptr] at hc
  rw [hc]
  have := actsAll_ren (s := s) key ((r1.children ⟨i, []⟩).getD []) ⟨i, []⟩ 0 []
  simp only [Ren.ptr] at this
  unfold fileActs
  rw [this]
  exact runActs_eqv hi _ (actsAll_deep key _ _ _ _) r1 r2 hs

/-- Results of loading. -/
def LoadR (s : Ren) : Except Err Nat → Except Err Nat → Prop
  | .ok i, .ok j => j = s.file i
  | .error e, .error e' => e = e'
  | _, _ => False

theorem protoFile_eqv (W : World) (path : Str) : Eqv s (LoadR s) (protoFile W path) (protoFile W path) := by
  intro r1 r2 hs
  unfold protoFile
  rw [hs.protos]
  cases r1.protos path with
  | some i => exact ⟨rfl, hs⟩
  | none =>
    simp only [Option.map_none]
    split
    · exact ⟨rfl, hs⟩
    · split
      · exact ⟨rfl, hs⟩
      · split
        · exact ⟨rfl, hs⟩
        · rename_i elems _
          have hnew : s.file r1.heap.length = r2.heap.length := hs.new 0
          refine ⟨?_, ?_⟩
          · show r2.heap.length = s.file r1.heap.length
            rw [hnew]
          · refine { hs with heap := ?_, new := ?_, protos := ?_ }
            · intro i
              show (r2.heap ++ [_])[s.file i]? = (r1.heap ++ [_])[i]?
              by_cases hi : i < r1.heap.length
              · have h1 := hs.heap i
                rw [List.getElem?_eq_getElem hi] at h1
                have hl := (List.getElem?_eq_some_iff.mp h1).1
                rw [List.getElem?_append_left hl, List.getElem?_append_left hi, hs.heap]
              · have hi := Nat.le_of_not_lt hi
                have h1 := hs.new (i - r1.heap.length)
                rw [Nat.add_sub_cancel' hi] at h1
                rw [h1, List.getElem?_append_right (by omega), List.getElem?_append_right hi, Nat.add_sub_cancel_left]
            · intro k
              show s.file ((r1.heap ++ [_]).length + k) = (r2.heap ++ [_]).length + k
              simp only [List.length_append, List.length_singleton]
              rw [Nat.add_assoc, hs.new, Nat.add_assoc]
            · intro q
              show upd r2.protos path r2.heap.length q = (upd r1.protos path r1.heap.length q).map s.file
              simp only [upd]
              split
              · simp [hnew]
              · exact hs.protos q

theorem visitImport_eqv (W : World) : ∀ n path, EqvEq s (visitImport W n path) (visitImport W n path) := by
  intro n
  induction n with
  | zero => intro path r1 r2 hs; exact ⟨trivial, hs⟩
  | succ n ih =>
    intro path
    refine Eqv.get fun r1 r2 hs => ?_
    rw [hs.protos]
    cases r1.protos path with
    | some i => exact Eqv.pure rfl
    | none =>
      refine Eqv.bind (protoFile_eqv W path) ?_
      intro a b hab
      cases a <;> cases b <;> simp only [LoadR] at hab
      · subst hab; exact Eqv.panic
      · subst hab; exact acceptFile_eqv ih .nilProto _

theorem demarkFile_eqv (W : World) (fuel : Nat) (path : Str) :
    EqvEq s (demarkFile W fuel path) (demarkFile W fuel path) := by
  refine Eqv.bind (protoFile_eqv W path) ?_
  intro a b hab
  cases a <;> cases b <;> simp only [LoadR] at hab
  · subst hab; exact Eqv.pure rfl
  · subst hab
    rename_i i
    refine Eqv.bind (acceptFile_eqv (visitImport_eqv W fuel) (.at ⟨i, []⟩) i) fun _ _ _ => Eqv.pure rfl

theorem newFile_eqv (i : Nat) : Eqv s s.nd (newFile i) (newFile (s.file i)) := by
  refine Eqv.bind Eqv.alloc ?_
  rintro a _ rfl
  exact Eqv.pure ⟨rfl, by simp [Deep]⟩

/-- Results of `Proto`. -/
def ProtoR (s : Ren) : Except Err Node → Except Err Node → Prop
  | .ok n, .ok m => s.nd n m
  | .error e, .error e' => e = e'
  | _, _ => False

theorem proto_eqv (W : World) (fuel : Nat) (path : Str) :
    Eqv s (ProtoR s) (proto W fuel path) (proto W fuel path) := by
  refine Eqv.get fun r1 r2 hs => ?_
  rw [hs.protos]
  cases r1.protos path with
  | some i => exact Eqv.bind (newFile_eqv i) fun _ _ h => Eqv.pure h
  | none =>
    refine Eqv.bind (demarkFile_eqv W fuel path) ?_
    rintro a _ rfl
    cases a with
    | error e => exact Eqv.pure rfl
    | ok _ =>
      refine Eqv.get fun r1 r2 hs => ?_
      rw [hs.protos]
      cases r1.protos path with
      | some i => exact Eqv.bind (newFile_eqv i) fun _ _ h => Eqv.pure h
      | none => exact Eqv.pure rfl

end Protoast
