import Verif.Proof.Layout2
/-
  Erasing the layout of files, continued: attributes, parents, positions, loading.
-/
namespace Protoast.Layout

theorem nodeIndex_eqv (n : Node) : EqvEq (nodeIndex n) (nodeIndex n.shorn) := by
  cases n with
  | wrapped a k p =>
    refine Eqv.get fun r1 r2 hs => ?_
    rw [hs.scope, hs.kind]
    cases k <;> simp only <;> first
      | exact Eqv.pure rfl
      | skip
    cases r1.kind p with
    | none => exact Eqv.pure rfl
    | some k => cases k <;> exact Eqv.pure rfl
  | oneof a p =>
    refine Eqv.get fun r1 r2 hs => ?_
    rw [hs.scope]; exact Eqv.pure rfl
  | map a p =>
    refine Eqv.get fun r1 r2 hs => ?_
    rw [hs.scope]; exact Eqv.pure rfl
  | «repeated» a t => cases t <;> exact Eqv.pure rfl
  | _ => exact Eqv.pure rfl

theorem nodeDescription_eqv : (n : Node) → EqvEq (nodeDescription n) (nodeDescription n.shorn)
  | .wrapped a k p => by cases k <;> exact Eqv.pure rfl
  | .option _ _ _ _ => Eqv.pure rfl
  | .oneof _ _ => Eqv.pure rfl
  | .map a p => by
    refine Eqv.bind (mapKey_eqv p) ?_
    rintro n _ ⟨rfl, b, rfl⟩
    exact Eqv.panic
  | .repeated _ none => Eqv.panic
  | .repeated _ (some t) => by
    refine Eqv.bind (nodeDescription_eqv t) ?_
    rintro d _ rfl
    exact Eqv.pure rfl
  | .builtin _ => Eqv.panic
  | .value _ => Eqv.panic
  | .mapItem _ _ => Eqv.panic

/-- Comments are not compared. -/
theorem comment_eqv (n : Node) : Eqv (fun _ _ => True) (comment n) (comment n.shorn) := by
  cases n with
  | wrapped a k p =>
    refine Eqv.get fun r1 r2 hs => ?_
    rw [hs.elem, hs.kind]
    cases k <;> simp only <;> first
      | exact Eqv.pure trivial
      | skip
    cases r1.kind p with
    | none => exact Eqv.panic
    | some k => cases k <;> first | exact Eqv.pure trivial | exact Eqv.panic
  | oneof a p => exact Eqv.get fun r1 r2 hs => Eqv.pure trivial
  | map a p => exact Eqv.get fun r1 r2 hs => Eqv.pure trivial
  | «repeated» a t => cases t <;> exact Eqv.pure trivial
  | _ => exact Eqv.pure trivial

theorem typeName_eqv : (n : Node) → EqvEq (typeName n) (typeName n.shorn)
  | .wrapped a k p => by
    refine Eqv.get fun r1 r2 hs => ?_
    rw [hs.scope]
    cases k <;> simp only <;> first
      | exact Eqv.panic
      | exact Eqv.pure rfl
  | .option _ _ _ _ => Eqv.panic
  | .oneof _ _ => Eqv.pure rfl
  | .map _ _ => Eqv.panic
  | .repeated _ none => Eqv.panic
  | .repeated _ (some t) => by
    refine Eqv.bind (typeName_eqv t) ?_
    rintro d _ rfl
    exact Eqv.pure rfl
  | .builtin _ => Eqv.pure rfl
  | .value _ => Eqv.panic
  | .mapItem _ _ => Eqv.panic

theorem nodeParent_eqv : (n : Node) → Eqv opt (nodeParent n) (nodeParent n.shorn)
  | .wrapped a k p => by
    refine Eqv.get fun r1 r2 hs => ?_
    rw [hs.kind]
    cases k <;> simp only <;> first
      | exact wrap_eqv p.parent
      | exact Eqv.pure opt_none
      | skip
    cases r1.kind p with
    | none => exact Eqv.panic
    | some k => cases k <;> first | exact wrap_eqv p.parent | exact Eqv.panic
  | .option _ p _ _ => wrap_eqv p.parent
  | .oneof _ p => wrap_eqv p.parent
  | .map _ _ => Eqv.panic
  | .repeated _ none => Eqv.panic
  | .repeated _ (some t) => nodeParent_eqv t
  | .builtin _ => Eqv.panic
  | .value v => by
    simp only [nodeParent, Node.shorn, val_opt]
    cases v.opt with
    | none => exact wrap_eqv .nilOption
    | some o => exact wrap_eqv (.at o)
  | .mapItem _ _ => Eqv.panic

theorem nodeHierarchy_eqv : ∀ (fuel : Nat) (o1 o2 : Option Node), opt o1 o2 →
    Eqv nds (nodeHierarchy fuel o1) (nodeHierarchy fuel o2) := by
  intro fuel
  induction fuel with
  | zero =>
    rintro o1 _ rfl
    cases o1 with
    | none => exact Eqv.pure rfl
    | some n => exact fun r1 r2 hs => ⟨trivial, hs⟩
  | succ fuel ih =>
    rintro o1 _ rfl
    cases o1 with
    | none => exact Eqv.pure rfl
    | some n =>
      refine Eqv.bind (nodeParent_eqv n) fun p1 p2 hp => ?_
      refine Eqv.bind (ih p1 p2 hp) ?_
      rintro l1 _ rfl
      exact Eqv.pure rfl

/-- Positions in the same file. -/
def PosR (p q : Position) : Prop := q.shorn = p.shorn

theorem PosR.file {p q} (h : PosR p q) : q.filename = p.filename := by
  simp only [PosR, Position.shorn, Position.mk.injEq] at h
  exact h.1

theorem elemPos_eqv (p : Ptr) : Eqv PosR (elemPos p) (elemPos p) := by
  refine Eqv.get fun r1 r2 hs => ?_
  rw [hs.elem]
  cases r1.elem p with
  | none => exact Eqv.panic
  | some e => exact Eqv.pure (by simp [PosR, elem_pos, Position.shorn])

theorem filePos_eqv (p : Ptr) : Eqv PosR (filePos p) (filePos p) := by
  refine Eqv.get fun r1 r2 hs => ?_
  simp only [hs.heap]
  cases r1.heap[p.file]? with
  | none => exact Eqv.panic
  | some f => exact Eqv.pure rfl

theorem nodePos_eqv : (n : Node) → Eqv PosR (nodePos n) (nodePos n.shorn)
  | .wrapped a k p => by cases k <;> first | exact filePos_eqv p | exact elemPos_eqv p
  | .option _ p _ _ => elemPos_eqv p
  | .oneof _ p => elemPos_eqv p
  | .map _ p => elemPos_eqv p
  | .repeated _ none => Eqv.panic
  | .repeated _ (some t) => nodePos_eqv t
  | .builtin _ => Eqv.pure rfl
  | .value v => by
    simp only [nodePos, Node.shorn, val_opt]
    cases v.opt with
    | none => exact Eqv.panic
    | some o => exact elemPos_eqv o
  | .mapItem _ _ => Eqv.panic

theorem nodeFile_eqv (n : Node) : Eqv opt (nodeFile n) (nodeFile n.shorn) := by
  refine Eqv.bind (nodePos_eqv n) ?_
  intro p1 p2 hp
  refine Eqv.get fun r1 r2 hs => ?_
  rw [hs.protos, hp.file]
  cases r1.protos p1.filename with
  | none => exact Eqv.pure opt_none
  | some i => exact Eqv.someOf (wrapAs_nd .file ⟨i, []⟩)

theorem lit_pos (l : Literal) : PosR l.pos l.shorn.pos := by
  cases l; simp [PosR, Literal.shorn, Literal.pos, Position.shorn]

theorem posBody_eqv (n : Node) : Eqv PosR (posBody n) (posBody n.shorn) := by
  cases n with
  | wrapped a k p => cases k <;> first | exact filePos_eqv p | exact elemPos_eqv p
  | option _ p _ _ => exact elemPos_eqv p
  | oneof _ p => exact elemPos_eqv p
  | map _ p => exact elemPos_eqv p
  | «repeated» _ t => cases t <;> exact Eqv.panic
  | builtin _ => exact Eqv.panic
  | value v =>
    cases v <;> simp only [posBody, Node.shorn, OptVal.shorn] <;> first
      | exact Eqv.pure (lit_pos _)
      | exact Eqv.panic
  | mapItem _ _ => exact Eqv.panic

theorem lastFile_eqv : (l : List Node) → EqvEq (lastFile l) (lastFile (l.map Node.shorn))
  | [] => Eqv.panic
  | [n] => by
    cases n with
    | wrapped a k p => cases k <;> first | exact Eqv.pure rfl | exact Eqv.panic
    | «repeated» a t => cases t <;> exact Eqv.panic
    | _ => exact Eqv.panic
  | _ :: b :: rest => by
    have := lastFile_eqv (b :: rest)
    simp only [List.map_cons, lastFile] at this ⊢
    exact this

theorem posDefer_eqv (fuel : Nat) (n : Node) {p q : Position} (h : PosR p q) :
    Eqv PosR (posDefer fuel n p) (posDefer fuel n.shorn q) := by
  unfold posDefer
  rw [h.file]
  split
  · exact Eqv.pure h
  · refine Eqv.bind (nodeHierarchy_eqv fuel (some n) _ rfl) ?_
    rintro l _ rfl
    refine Eqv.bind (lastFile_eqv l) ?_
    rintro p _ rfl
    refine Eqv.bind (fileName_eqv p) ?_
    rintro nm _ rfl
    exact Eqv.pure rfl

theorem pos_eqv (fuel : Nat) (n : Node) : Eqv PosR (pos fuel n) (pos fuel n.shorn) := by
  intro r1 r2 hs
  have h0 := posBody_eqv n r1 r2 hs
  unfold pos
  rcases h1 : posBody n r1 with ⟨res1, r1'⟩
  rcases h2 : posBody n.shorn r2 with ⟨res2, r2'⟩
  rw [h1, h2] at h0
  cases res1 <;> cases res2 <;> simp only [ResRel] at h0 <;> try exact h0.1.elim
  · obtain ⟨hp, hs'⟩ := h0
    exact posDefer_eqv fuel n hp _ _ hs'
  · obtain ⟨rfl, hs'⟩ := h0
    have h3 := posDefer_eqv fuel n (p := {}) (q := {}) rfl _ _ hs'
    simp only
    rcases h4 : posDefer fuel n {} r1' with ⟨res3, r3⟩
    rcases h5 : posDefer fuel n.shorn {} r2' with ⟨res4, r4⟩
    rw [h4, h5] at h3
    cases res3 <;> cases res4 <;> simp only [ResRel] at h3 <;> try exact h3.1.elim
    · exact ⟨rfl, h3.2⟩
    · exact ⟨h3.1, h3.2⟩
    · exact ⟨trivial, h3.2⟩
  · exact ⟨trivial, h0.2⟩

theorem typeIsDefined_eqv (n : Node) (ref : Str) : EqvEq (typeIsDefined n ref) (typeIsDefined n.shorn ref) := by
  refine Eqv.get fun r1 r2 hs => ?_
  rw [hs.names]
  cases n with
  | wrapped a k p => cases k <;> exact Eqv.pure rfl
  | «repeated» a t => cases t <;> exact Eqv.pure rfl
  | _ => exact Eqv.pure rfl

theorem lit_source (l : Literal) : l.shorn.source = l.source := by cases l; simp [Literal.shorn, Literal.source]

theorem goPackageOption_eqv (n : Node) : EqvEq (goPackageOption n) (goPackageOption n.shorn) := by
  cases n with
  | option a o c f =>
    refine Eqv.get fun r1 r2 hs => ?_
    rw [hs.names, hs.kind]
    cases r1.registry goPackageField with
    | none => exact Eqv.panic
    | some q =>
      simp only
      split
      · exact Eqv.pure rfl
      · cases r1.kind o with
        | none => exact Eqv.panic
        | some k =>
          cases k <;> first
            | exact Eqv.panic
            | (refine Eqv.pure ?_; simp only [lit_source])
  | «repeated» a t => cases t <;> exact Eqv.pure rfl
  | _ => exact Eqv.pure rfl

theorem goPackageBody_eqv (st : Option (Option GoPackageInfo)) (o1 o2 : Option Node) (h : opt o1 o2) :
    EqvEq (goPackageBody st o1) (goPackageBody st o2) := by
  obtain rfl := h
  cases o1 with
  | none => exact Eqv.pure rfl
  | some n =>
    cases n with
    | option a o c f =>
      refine Eqv.bind (optionName_eqv o c f) ?_
      rintro nm _ rfl
      split
      · exact Eqv.pure rfl
      · refine Eqv.bind (goPackageOption_eqv (.option a o c f)) ?_
        rintro g _ rfl
        exact Eqv.pure rfl
    | «repeated» a t => cases t <;> exact Eqv.pure rfl
    | _ => exact Eqv.pure rfl

theorem goPackage_eqv (n : Node) : EqvEq (goPackage n) (goPackage n.shorn) := by
  refine Eqv.bind (nodeFile_eqv n) ?_
  rintro o1 _ rfl
  cases o1 with
  | none => exact Eqv.pure rfl
  | some m =>
    cases m with
    | wrapped a k p =>
      cases k <;> first | exact Eqv.pure rfl | skip
      refine Eqv.bind (R := fun a b => a = b) ?_ ?_
      · exact Eqv.bind (everything_eqv p registryOptionsFile) fun l1 l2 hl => runSteps_eqv goPackageBody_eqv hl none
      · rintro g _ rfl
        cases g <;> exact Eqv.pure rfl
    | «repeated» a t => cases t <;> exact Eqv.pure rfl
    | _ => exact Eqv.pure rfl

theorem optionIs_eqv (f : Ptr) (nm : Str) : EqvEq (Option.is f nm) (Option.is f nm) := by
  refine Eqv.bind (wrap_eqv (.at f)) ?_
  rintro o1 _ rfl
  cases o1 with
  | none => exact Eqv.pure rfl
  | some n =>
    refine Eqv.bind (nodeIndex_eqv n) ?_
    rintro i _ rfl
    exact Eqv.pure rfl

/-! ### Loading -/

theorem runActs_eqv {i1 i2 : Str → M Unit} (hi : ∀ f, EqvEq (i1 f) (i2 f)) : ∀ (as : List Act),
    EqvEq (runActs i1 as) (runActs i2 as) := by
  intro as
  induction as with
  | nil => exact Eqv.pure rfl
  | cons a as ih =>
    refine Eqv.bind (R := fun a b => a = b) ?_ fun _ _ _ => ih
    cases a with
    | name n p => rintro r1 _ rfl; exact ⟨rfl, rfl⟩
    | scope v t => rintro r1 _ rfl; exact ⟨rfl, rfl⟩
    | imp f => exact hi f

mutual
theorem acts_plain (key : Vis) : (e : Elem) → (p : Ptr) → (scope : Str) →
    acts key e.shorn p scope = acts key e p scope
  | .mk pos c k cs, p, scope => by
    have hcs := actsAll_plain key cs p 0
    cases k <;> simp only [Elem.shorn, Kind.shorn, acts, hcs]
theorem actsAll_plain (key : Vis) : (es : List Elem) → (p : Ptr) → (n : Nat) → (scope : Str) →
    actsAll key (Elem.plains es) p n scope = actsAll key es p n scope
  | [], p, n, scope => by simp only [Elem.plains]
  | e :: es, p, n, scope => by
    simp only [Elem.plains, actsAll, acts_plain key e, actsAll_plain key es]
end

theorem acceptFile_run {imp : Str → M Unit} {key : Vis} {i : Nat} {r : Reg} :
    acceptFile imp key i r = runActs imp (actsAll key ((r.children ⟨i, []⟩).getD []) ⟨i, []⟩ 0 []).1 r := by
  unfold acceptFile
  simp only [M.bind_apply, M.get_apply, visitAll_eq]
  rcases runActs imp (actsAll key ((r.children ⟨i, []⟩).getD []) ⟨i, []⟩ 0 []).1 r with ⟨res, r'⟩
  cases res <;> rfl

theorem acceptFile_eqv {i1 i2 : Str → M Unit} (hi : ∀ f, EqvEq (i1 f) (i2 f)) (key : Vis) (i : Nat) :
    EqvEq (acceptFile i1 key i) (acceptFile i2 key i) := by
  intro r1 r2 hs
  rw [acceptFile_run, acceptFile_run]
  have hc : (r2.children ⟨i, []⟩).getD [] = Elem.plains ((r1.children ⟨i, []⟩).getD []) := by
    rw [hs.children]
    cases r1.children ⟨i, []⟩ with
    | none => simp [Elem.plains]
    | some es => simp [plains_eq]
  rw [hc, actsAll_plain]
  exact runActs_eqv hi _ r1 r2 hs

theorem protoFile_eqv (W : World) (path : Str) : EqvEq (protoFile W path) (protoFile (worldP W) path) := by
  intro r1 r2 hs
  unfold protoFile
  rw [hs.protos]
  cases r1.protos path with
  | some i => exact ⟨rfl, hs⟩
  | none =>
    simp only [worldP]
    split
    · exact ⟨rfl, hs⟩
    · split
      · exact ⟨rfl, hs⟩
      · rename_i nm _ _
        cases W.load nm path with
        | error e => exact ⟨rfl, hs⟩
        | ok elems =>
          subst hs
          refine ⟨?_, ?_⟩
          · simp [plainLoad, ResRel, regP]
          · simp [plainLoad, Sim, regP, fileP]

theorem visitImport_eqv (W : World) : ∀ n path, EqvEq (visitImport W n path) (visitImport (worldP W) n path) := by
  intro n
  induction n with
  | zero => intro path r1 r2 hs; exact ⟨trivial, hs⟩
  | succ n ih =>
    intro path
    refine Eqv.get fun r1 r2 hs => ?_
    rw [hs.protos]
    cases r1.protos path with
    | some i => exact Eqv.pure rfl
    | none =>
      refine Eqv.bind (protoFile_eqv W path) ?_
      rintro a _ rfl
      cases a
      · exact Eqv.panic
      · exact acceptFile_eqv ih .nilProto _

theorem demarkFile_eqv (W : World) (fuel : Nat) (path : Str) :
    EqvEq (demarkFile W fuel path) (demarkFile (worldP W) fuel path) := by
  refine Eqv.bind (protoFile_eqv W path) ?_
  rintro a _ rfl
  cases a with
  | error e => exact Eqv.pure rfl
  | ok i =>
    refine Eqv.bind (acceptFile_eqv (visitImport_eqv W fuel) (.at ⟨i, []⟩) i) fun _ _ _ => Eqv.pure rfl

theorem newFile_eqv (i : Nat) : Eqv nd (newFile i) (newFile i) := by
  refine Eqv.bind Eqv.alloc ?_
  rintro a _ rfl
  exact Eqv.pure rfl

/-- Results of `Proto`. -/
def ProtoR : Except Err Node → Except Err Node → Prop
  | .ok n, .ok m => nd n m
  | .error e, .error e' => e = e'
  | _, _ => False

theorem proto_eqv (W : World) (fuel : Nat) (path : Str) :
    Eqv ProtoR (proto W fuel path) (proto (worldP W) fuel path) := by
  refine Eqv.get fun r1 r2 hs => ?_
  rw [hs.protos]
  cases r1.protos path with
  | some i => exact Eqv.bind (newFile_eqv i) fun _ _ h => Eqv.pure h
  | none =>
    refine Eqv.bind (demarkFile_eqv W fuel path) ?_
    rintro a _ rfl
    cases a with
    | error e => exact Eqv.pure rfl
    | ok _ =>
      refine Eqv.get fun r1 r2 hs => ?_
      rw [hs.protos]
      cases r1.protos path with
      | some i => exact Eqv.bind (newFile_eqv i) fun _ _ h => Eqv.pure h
      | none => exact Eqv.pure rfl

theorem newRegistry_eqv (W : World) (fuel : Nat) :
    (newRegistry (worldP W) fuel).1 = (newRegistry W fuel).1 ∧
      (newRegistry (worldP W) fuel).2 = regP (newRegistry W fuel).2 := by
  have h : EqvEq (do
      match ← demarkFile W fuel descriptorPath with
      | .error e => pure (.error (.wrap b!"set up proto descriptor" e))
      | .ok () => pure (.ok ()) : M (Except Err Unit)) (do
      match ← demarkFile (worldP W) fuel descriptorPath with
      | .error e => pure (.error (.wrap b!"set up proto descriptor" e))
      | .ok () => pure (.ok ()) : M (Except Err Unit)) := by
    refine Eqv.bind (demarkFile_eqv W fuel descriptorPath) ?_
    rintro a _ rfl
    cases a <;> exact Eqv.pure rfl
  have h0 := h Reg.empty Reg.empty rfl
  refine ⟨?_, h0.2⟩
  have h1 := h0.1
  unfold newRegistry
  revert h1
  generalize (_ : Res (Except Err Unit) × Reg).1 = x
  generalize (_ : Res (Except Err Unit) × Reg).1 = y
  cases x <;> cases y <;> simp only [ResRel] <;> first
    | exact False.elim
    | (rintro rfl; rfl)
    | trivial
    | exact fun _ => rfl

end Protoast.Layout
