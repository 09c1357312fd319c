import Verif.Proof.Layout3
/-
  Erasing the layout of files, continued: calls and histories.
-/
namespace Protoast.Layout

/-- A selection by name does not see the layout. -/
local macro "blindly" : tactic => `(tactic| (intro k; cases k <;> rfl))

theorem opt_of_eqv {m1 m2 : M (Option Node)} (h : Eqv opt m1 m2) :
    Eqv nds (m1 >>= fun x => Pure.pure x.toList) (m2 >>= fun x => Pure.pure x.toList) := by
  refine Eqv.bind h ?_
  rintro o1 _ rfl
  exact Eqv.pure (by cases o1 <;> rfl)

theorem iterRun_eqv (q : IterQ) (n : Node) (i : Nat) :
    Eqv opt (q.run n i) (q.run n.shorn i) := by
  by_cases ho : q = .options
  · subst ho
    cases n with
    | «repeated» a t =>
      cases t
      all_goals exact Eqv.bind (options_eqv _) fun _ _ h => Eqv.nthNode h i
    | _ => exact Eqv.bind (options_eqv _) fun _ _ h => Eqv.nthNode h i
  · cases n with
    | wrapped a k p =>
      cases k <;> cases q <;> first
        | exact Eqv.pure opt_none
        | exact (ho rfl).elim
        | exact Eqv.nthNode (fileImports_eqv p) i
        | exact Eqv.nthNode (fileMessages_eqv p) i
        | exact Eqv.nthNode (fileEnums_eqv p) i
        | exact Eqv.nthNode (fileTypes_eqv p) i
        | exact Eqv.nthNode (fileServices_eqv p) i
        | exact Eqv.nthNode (messageFields_eqv p) i
        | exact Eqv.nthNode (messageMessages_eqv p) i
        | exact Eqv.nthNode (messageTypes_eqv p) i
        | exact Eqv.nthNode (enumValues_eqv p) i
        | exact Eqv.nthNode (enumEnums_eqv p) i
        | exact Eqv.nthNode (serviceMethods_eqv p) i
        | exact Eqv.nthNode (methodOptions_eqv p) i
        | exact Eqv.nthOpt (everything_eqv p _) i
    | oneof a p =>
      cases q <;> first
        | exact Eqv.pure opt_none
        | exact (ho rfl).elim
        | exact Eqv.nthNode (oneofBranches_eqv p) i
    | «repeated» a t => cases t <;> cases q <;> first | exact Eqv.pure opt_none | exact (ho rfl).elim
    | _ => cases q <;> first | exact Eqv.pure opt_none | exact (ho rfl).elim

theorem namedRun_eqv (q : NamedQ) (n : Node) (name : Str) :
    Eqv opt (q.run n name) (q.run n.shorn name) := by
  by_cases ho : q = .optionNamed
  · subst ho
    cases n with
    | «repeated» a t => cases t <;> exact optionNamed_eqv _ name
    | _ => exact optionNamed_eqv _ name
  · cases n with
    | wrapped a k p =>
      cases k <;> cases q <;> first
        | exact Eqv.pure opt_none
        | exact (ho rfl).elim
        | exact fileType_eqv p name
        | exact messageType_eqv p name
        | exact firstKid_eqv p _ (by blindly)
    | oneof a p =>
      cases q <;> first
        | exact Eqv.pure opt_none
        | exact (ho rfl).elim
        | exact firstKid_eqv p _ (by blindly)
    | «repeated» a t => cases t <;> cases q <;> first | exact Eqv.pure opt_none | exact (ho rfl).elim
    | _ => cases q <;> first | exact Eqv.pure opt_none | exact (ho rfl).elim

theorem nds_nil : nds [] [] := rfl

theorem nds_one {n1 n2 : Node} (h : nd n1 n2) : nds [n1] [n2] := by rw [h]; rfl

theorem drop_eqv {α β : Type} {R : α → β → Prop} {m1 : M α} {m2 : M β} (h : Eqv R m1 m2) :
    Eqv nds (m1 >>= fun _ => Pure.pure []) (m2 >>= fun _ => Pure.pure []) :=
  Eqv.bind h fun _ _ _ => Eqv.pure nds_nil

set_option hygiene false in
/-- A call that only wrappers of some kinds answer. -/
local macro "onWrapped" t:tacticSeq : tactic => `(tactic| (
  cases n with
  | wrapped a k p => cases k <;> first | exact Eqv.pure nds_nil | ($t)
  | «repeated» a t => cases t <;> exact Eqv.pure nds_nil
  | _ => exact Eqv.pure nds_nil))

set_option hygiene false in
/-- A call that every node answers. -/
local macro "onAll" t:tacticSeq : tactic => `(tactic| (
  cases n with
  | «repeated» a t => cases t <;> ($t)
  | _ => ($t)))

theorem plainRun_eqv (q : PlainQ) (n : Node) : Eqv nds (q.run n) (q.run n.shorn) := by
  cases q with
  | fieldType => onWrapped exact opt_of_eqv (fieldType_eqv _ _)
  | branchType => onWrapped exact opt_of_eqv (branchType_eqv _)
  | methodInput =>
    onWrapped exact Eqv.bind (methodInput_eqv _) fun _ _ h => Eqv.pure (nds_one h.2)
  | methodOutput =>
    onWrapped exact Eqv.bind (methodOutput_eqv _) fun _ _ h => Eqv.pure (nds_one h.2)
  | mapKey =>
    cases n with
    | map a p => exact Eqv.bind (mapKey_eqv p) fun _ _ h => Eqv.pure (nds_one h.1)
    | «repeated» a t => cases t <;> exact Eqv.pure nds_nil
    | _ => exact Eqv.pure nds_nil
  | mapValue =>
    cases n with
    | map a p => exact Eqv.bind (mapValue_eqv p) fun _ _ h => Eqv.pure (nds_one h)
    | «repeated» a t => cases t <;> exact Eqv.pure nds_nil
    | _ => exact Eqv.pure nds_nil
  | repeatedElem =>
    cases n with
    | «repeated» a t =>
      cases t
      · exact Eqv.pure nds_nil
      · exact Eqv.pure rfl
    | _ => exact Eqv.pure nds_nil
  | optionValue F =>
    cases n with
    | option a o c f =>
      exact Eqv.bind (optionValue_eqv _ o f) fun _ _ h => Eqv.pure (nds_one (by rw [h]; rfl))
    | «repeated» a t => cases t <;> exact Eqv.pure nds_nil
    | _ => exact Eqv.pure nds_nil
  | valueParts =>
    cases n with
    | value v => exact Eqv.pure (parts_eqv v)
    | mapItem k v => exact Eqv.pure rfl
    | «repeated» a t => cases t <;> exact Eqv.pure nds_nil
    | _ => exact Eqv.pure nds_nil
  | parent => onAll exact opt_of_eqv (nodeParent_eqv _)
  | hierarchy fuel => onAll exact nodeHierarchy_eqv _ _ _ rfl
  | file => onAll exact opt_of_eqv (nodeFile_eqv _)
  | pos fuel => onAll exact drop_eqv (pos_eqv _ _)
  | index => onAll exact drop_eqv (nodeIndex_eqv _)
  | description => onAll exact drop_eqv (nodeDescription_eqv _)
  | comment => onAll exact drop_eqv (comment_eqv _)
  | typeName => onAll exact drop_eqv (typeName_eqv _)
  | typeIsDefined ref => onAll exact drop_eqv (typeIsDefined_eqv _ _)
  | goPackage => onAll exact drop_eqv (goPackage_eqv _)
  | goPackageOption => onAll exact drop_eqv (goPackageOption_eqv _)
  | optionIs nm =>
    cases n with
    | option a o c f => exact drop_eqv (optionIs_eqv f _)
    | «repeated» a t => cases t <;> exact Eqv.pure nds_nil
    | _ => exact Eqv.pure nds_nil
  | optionName =>
    cases n with
    | option a o c f => exact drop_eqv (optionName_eqv o c f)
    | «repeated» a t => cases t <;> exact Eqv.pure nds_nil
    | _ => exact Eqv.pure nds_nil
  | name =>
    cases n with
    | wrapped a k p =>
      cases k with
      | file => exact drop_eqv (fileName_eqv _)
      | message => exact drop_eqv (messageName_eqv _)
      | enum => exact drop_eqv (enumName_eqv _)
      | enumValue => exact drop_eqv (enumValueName_eqv _)
      | messageField => exact drop_eqv (fieldName_eqv _)
      | oneofBranch => exact drop_eqv (branchName_eqv _)
      | service => exact drop_eqv (serviceName_eqv _)
      | method => exact drop_eqv (methodName_eqv _)
      | _ => exact Eqv.pure nds_nil
    | «repeated» a t => cases t <;> exact Eqv.pure nds_nil
    | _ => exact Eqv.pure nds_nil
  | package =>
    cases n with
    | wrapped a k p =>
      cases k with
      | file => exact drop_eqv (filePackage_eqv _)
      | packageW => exact drop_eqv (packagePackage_eqv _)
      | _ => exact Eqv.pure nds_nil
    | «repeated» a t => cases t <;> exact Eqv.pure nds_nil
    | _ => exact Eqv.pure nds_nil
  | isExtension => onWrapped exact drop_eqv (messageIsExtension_eqv _)
  | number =>
    cases n with
    | wrapped a k p =>
      cases k with
      | messageField => exact drop_eqv (fieldValue_eqv _)
      | enumValue => exact drop_eqv (enumValueValue_eqv _)
      | oneofBranch => exact drop_eqv (branchValue_eqv _)
      | _ => exact Eqv.pure nds_nil
    | «repeated» a t => cases t <;> exact Eqv.pure nds_nil
    | _ => exact Eqv.pure nds_nil
  | optional => onWrapped exact drop_eqv (fieldOptional_eqv _)
  | importPath => onWrapped exact drop_eqv (importPath_eqv _)
  | syntaxValue => onWrapped exact drop_eqv (syntaxValue_eqv _)
  | reservedValues => onWrapped exact drop_eqv (reservedValues_eqv _)

theorem queryRun_eqv (q : Query) (n : Node) : Eqv nds (q.run n) (q.run n.shorn) := by
  cases q with
  | iter q i => exact opt_of_eqv (iterRun_eqv q n i)
  | named q name => exact opt_of_eqv (namedRun_eqv q n name)
  | plain q => exact plainRun_eqv q n

theorem nds_get {l1 l2 : List Node} (h : nds l1 l2) (i : Nat) :
    (l1[i]? = none ∧ l2[i]? = none) ∨ ∃ n, l1[i]? = some n ∧ l2[i]? = some n.shorn := by
  obtain rfl := h
  cases e : l1[i]? with
  | none => exact .inl ⟨rfl, by simp [e]⟩
  | some n => exact .inr ⟨n, rfl, by simp [e]⟩

/-- A call, reading from files without layout. -/
def opP : Op → Op
  | .proto W fuel path => .proto (worldP W) fuel path
  | .byName name => .byName name
  | .query h q => .query h q

theorem opRun_eqv {l1 l2 : List Node} (h : nds l1 l2) (op : Op) : Eqv nds (op.run l1) ((opP op).run l2) := by
  cases op with
  | proto W fuel path =>
    refine Eqv.bind (proto_eqv W fuel path) ?_
    intro a b hab
    cases a <;> cases b <;> simp only [ProtoR] at hab
    · exact Eqv.pure nds_nil
    · exact Eqv.pure (nds_one hab)
  | byName name => exact opt_of_eqv (nodeByFullName_eqv name)
  | query i q =>
    rcases nds_get h i with ⟨e1, e2⟩ | ⟨n, e1, e2⟩
    · simp only [Op.run, opP, e1, e2]; exact Eqv.pure nds_nil
    · simp only [Op.run, opP, e1, e2]; exact queryRun_eqv q n

/-- Corresponding clients. -/
structure SimC (c1 c2 : Client) : Prop where
  reg : Sim c1.reg c2.reg
  pool : nds c1.pool c2.pool

theorem nds_append {a1 a2 b1 b2 : List Node} (h : nds a1 a2) (h' : nds b1 b2) : nds (a1 ++ b1) (a2 ++ b2) := by
  rw [h, h', nds, List.map_append]

theorem SimC.step {c1 c2} (h : SimC c1 c2) (op : Op) : SimC (c1.step op) (c2.step (opP op)) := by
  have h0 := opRun_eqv h.pool op _ _ h.reg
  unfold Client.step
  rcases h1 : op.run c1.pool c1.reg with ⟨res1, r1'⟩
  rcases h2 : (opP op).run c2.pool c2.reg with ⟨res2, r2'⟩
  rw [h1, h2] at h0
  cases res1 <;> cases res2 <;> simp only [ResRel] at h0 <;> try exact h0.1.elim
  · exact ⟨h0.2, nds_append h.pool h0.1⟩
  · exact ⟨h0.2, h.pool⟩
  · exact ⟨h0.2, h.pool⟩

theorem SimC.exec : ∀ (ops : List Op) {c1 c2}, SimC c1 c2 → SimC (c1.exec ops) (c2.exec (ops.map opP)) := by
  intro ops
  induction ops with
  | nil => intro c1 c2 h; exact h
  | cons op ops ih => intro c1 c2 h; exact ih (h.step op)

/-! ### Answers -/

/-- Answers that agree up to layout. -/
def AnsR (a b : Answer) : Prop := b.shorn = a.shorn

theorem ans_eqv {α : Type} {m1 m2 : M α} (f : α → Answer) (h : EqvEq m1 m2) :
    Eqv AnsR (m1 >>= fun x => Pure.pure (f x)) (m2 >>= fun x => Pure.pure (f x)) :=
  Eqv.bind h fun _ _ e => Eqv.pure (by rw [e]; rfl)

theorem attr_eqv {α : Type} {m1 m2 : M α} (f : α → AttrVal) (h : EqvEq m1 m2) :
    EqvEq (m1 >>= fun x => Pure.pure (f x)) (m2 >>= fun x => Pure.pure (f x)) :=
  Eqv.bind h fun _ _ e => Eqv.pure (by rw [e])

set_option hygiene false in
/-- An attribute that only wrappers of some kinds have. -/
local macro "ofWrapped" t:tacticSeq : tactic => `(tactic| (
  cases n with
  | wrapped a k p => cases k <;> first | exact Eqv.pure rfl | ($t)
  | «repeated» a t => cases t <;> exact Eqv.pure rfl
  | _ => exact Eqv.pure rfl))

theorem attrRead_eqv (q : Attr) (n : Node) (hq : q ≠ .comment) :
    EqvEq (q.read n) (q.read n.shorn) := by
  cases q with
  | index => onAll exact attr_eqv _ (nodeIndex_eqv _)
  | description => onAll exact attr_eqv _ (nodeDescription_eqv _)
  | comment => exact (hq rfl).elim
  | typeName => onAll exact attr_eqv _ (typeName_eqv _)
  | name =>
    cases n with
    | wrapped a k p =>
      cases k with
      | file => exact attr_eqv _ (fileName_eqv _)
      | message => exact attr_eqv _ (messageName_eqv _)
      | enum => exact attr_eqv _ (enumName_eqv _)
      | enumValue => exact attr_eqv _ (enumValueName_eqv _)
      | messageField => exact attr_eqv _ (fieldName_eqv _)
      | oneofBranch => exact attr_eqv _ (branchName_eqv _)
      | service => exact attr_eqv _ (serviceName_eqv _)
      | method => exact attr_eqv _ (methodName_eqv _)
      | _ => exact Eqv.pure rfl
    | «repeated» a t => cases t <;> exact Eqv.pure rfl
    | _ => exact Eqv.pure rfl
  | package =>
    cases n with
    | wrapped a k p =>
      cases k with
      | file => exact attr_eqv _ (filePackage_eqv _)
      | packageW => exact attr_eqv _ (packagePackage_eqv _)
      | _ => exact Eqv.pure rfl
    | «repeated» a t => cases t <;> exact Eqv.pure rfl
    | _ => exact Eqv.pure rfl
  | isExtension => ofWrapped exact attr_eqv _ (messageIsExtension_eqv _)
  | number =>
    cases n with
    | wrapped a k p =>
      cases k with
      | messageField => exact attr_eqv _ (fieldValue_eqv _)
      | enumValue => exact attr_eqv _ (enumValueValue_eqv _)
      | oneofBranch => exact attr_eqv _ (branchValue_eqv _)
      | _ => exact Eqv.pure rfl
    | «repeated» a t => cases t <;> exact Eqv.pure rfl
    | _ => exact Eqv.pure rfl
  | optional => ofWrapped exact attr_eqv _ (fieldOptional_eqv _)
  | importPath => ofWrapped exact attr_eqv _ (importPath_eqv _)
  | syntaxValue => ofWrapped exact attr_eqv _ (syntaxValue_eqv _)
  | reservedValues =>
    ofWrapped exact Eqv.bind (reservedValues_eqv _) fun _ _ h => attr_eqv _ (collectSteps_eqv h)

theorem nothing_eqv {α β : Type} {R : α → β → Prop} {m1 : M α} {m2 : M β} (h : Eqv R m1 m2) :
    Eqv AnsR (m1 >>= fun _ => Pure.pure Answer.nothing) (m2 >>= fun _ => Pure.pure Answer.nothing) :=
  Eqv.bind h fun _ _ _ => Eqv.pure rfl

theorem attrComment_eqv (n : Node) :
    Eqv (fun a b => AnsR (.attr a) (.attr b)) (Attr.comment.read n) (Attr.comment.read n.shorn) := by
  have h := Eqv.bind (comment_eqv n) (f := fun s => Pure.pure (AttrVal.lines s)) (g := fun s => Pure.pure (AttrVal.lines s))
    (S := fun a b => AnsR (.attr a) (.attr b)) fun _ _ _ => Eqv.pure rfl
  cases n with
  | «repeated» a t => cases t <;> exact h
  | _ => exact h

theorem plainAnswer_eqv (q : PlainQ) (n : Node) : Eqv AnsR (q.answer n) (q.answer n.shorn) := by
  cases q with
  | methodInput =>
    cases n with
    | wrapped a k p =>
      cases k with
      | method => exact Eqv.bind (methodInput_eqv _) fun _ _ h => Eqv.pure (by rw [h.1]; rfl)
      | _ => exact nothing_eqv (plainRun_eqv .methodInput _)
    | «repeated» a t => cases t <;> exact nothing_eqv (plainRun_eqv .methodInput _)
    | _ => exact nothing_eqv (plainRun_eqv .methodInput _)
  | methodOutput =>
    cases n with
    | wrapped a k p =>
      cases k with
      | method => exact Eqv.bind (methodOutput_eqv _) fun _ _ h => Eqv.pure (by rw [h.1]; rfl)
      | _ => exact nothing_eqv (plainRun_eqv .methodOutput _)
    | «repeated» a t => cases t <;> exact nothing_eqv (plainRun_eqv .methodOutput _)
    | _ => exact nothing_eqv (plainRun_eqv .methodOutput _)
  | index =>
    cases n with
    | wrapped a k p =>
      cases k with
      | file => exact Eqv.pure rfl
      | _ => exact ans_eqv _ (attrRead_eqv .index _ (by simp))
    | «repeated» a t => cases t <;> exact ans_eqv _ (attrRead_eqv .index _ (by simp))
    | _ => exact ans_eqv _ (attrRead_eqv .index _ (by simp))
  | optionIs nm =>
    cases n with
    | option a o c f => exact ans_eqv _ (optionIs_eqv f _)
    | «repeated» a t => cases t <;> exact nothing_eqv (plainRun_eqv (.optionIs nm) _)
    | _ => exact nothing_eqv (plainRun_eqv (.optionIs nm) _)
  | optionName =>
    cases n with
    | option a o c f => exact ans_eqv _ (optionName_eqv o c f)
    | «repeated» a t => cases t <;> exact nothing_eqv (plainRun_eqv .optionName _)
    | _ => exact nothing_eqv (plainRun_eqv .optionName _)
  | pos fuel => exact Eqv.bind (pos_eqv _ _) fun _ _ h => Eqv.pure (by simp only [AnsR, Answer.shorn]; rw [h])
  | typeIsDefined ref => exact ans_eqv _ (typeIsDefined_eqv _ _)
  | goPackage => exact ans_eqv _ (goPackage_eqv _)
  | goPackageOption => exact ans_eqv _ (goPackageOption_eqv _)
  | description => exact ans_eqv _ (attrRead_eqv .description _ (by simp))
  | comment => exact Eqv.bind (attrComment_eqv n) fun _ _ h => Eqv.pure h
  | typeName => exact ans_eqv _ (attrRead_eqv .typeName _ (by simp))
  | name => exact ans_eqv _ (attrRead_eqv .name _ (by simp))
  | package => exact ans_eqv _ (attrRead_eqv .package _ (by simp))
  | isExtension => exact ans_eqv _ (attrRead_eqv .isExtension _ (by simp))
  | number => exact ans_eqv _ (attrRead_eqv .number _ (by simp))
  | optional => exact ans_eqv _ (attrRead_eqv .optional _ (by simp))
  | importPath => exact ans_eqv _ (attrRead_eqv .importPath _ (by simp))
  | syntaxValue => exact ans_eqv _ (attrRead_eqv .syntaxValue _ (by simp))
  | reservedValues => exact ans_eqv _ (attrRead_eqv .reservedValues _ (by simp))
  | fieldType => onAll exact nothing_eqv (plainRun_eqv .fieldType _)
  | branchType => onAll exact nothing_eqv (plainRun_eqv .branchType _)
  | mapKey => onAll exact nothing_eqv (plainRun_eqv .mapKey _)
  | mapValue => onAll exact nothing_eqv (plainRun_eqv .mapValue _)
  | repeatedElem => onAll exact nothing_eqv (plainRun_eqv .repeatedElem _)
  | optionValue F => onAll exact nothing_eqv (plainRun_eqv (.optionValue F) _)
  | valueParts => onAll exact nothing_eqv (plainRun_eqv .valueParts _)
  | parent => onAll exact nothing_eqv (plainRun_eqv .parent _)
  | hierarchy fuel => onAll exact nothing_eqv (plainRun_eqv (.hierarchy fuel) _)
  | file => onAll exact nothing_eqv (plainRun_eqv .file _)

theorem queryAnswer_eqv (q : Query) (n : Node) : Eqv AnsR (q.answer n) (q.answer n.shorn) := by
  cases q with
  | iter q i => exact nothing_eqv (iterRun_eqv q n i)
  | named q name => exact nothing_eqv (namedRun_eqv q n name)
  | plain q => exact plainAnswer_eqv q n

theorem opAnswer_eqv {l1 l2 : List Node} (h : nds l1 l2) (op : Op) : Eqv AnsR (op.answer l1) ((opP op).answer l2) := by
  cases op with
  | proto W fuel path =>
    refine Eqv.bind (proto_eqv W fuel path) ?_
    intro a b hab
    cases a <;> cases b <;> simp only [ProtoR] at hab
    · subst hab; exact Eqv.pure rfl
    · exact Eqv.pure rfl
  | byName name => exact nothing_eqv (nodeByFullName_eqv name)
  | query i q =>
    rcases nds_get h i with ⟨e1, e2⟩ | ⟨n, e1, e2⟩
    · simp only [Op.answer, opP, e1, e2]; exact Eqv.pure rfl
    · simp only [Op.answer, opP, e1, e2]; exact queryAnswer_eqv q n

end Protoast.Layout
