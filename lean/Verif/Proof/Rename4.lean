import Verif.Proof.Rename3
/-
  Renaming of files, continued: calls and histories.
-/
namespace Protoast

variable {s : Ren}

theorem opt_of_eqv {m1 m2 : M (Option Node)} (h : Eqv s s.opt m1 m2) :
    Eqv s s.nds (m1 >>= fun x => Pure.pure x.toList) (m2 >>= fun x => Pure.pure x.toList) := by
  refine Eqv.bind h ?_
  rintro o1 _ ⟨rfl, hd⟩
  refine Eqv.pure ⟨?_, ?_⟩
  · cases o1 <;> rfl
  · intro n hn
    cases o1 with
    | none => cases hn
    | some m => simp at hn; subst hn; exact hd _ rfl

theorem iterRun_eqv (q : IterQ) {n : Node} (hd : Deep n) (i : Nat) :
    Eqv s s.opt (q.run n i) (q.run (s.node n) i) := by
  by_cases ho : q = .options
  · subst ho
    cases n with
    | «repeated» a t =>
      cases t
      all_goals exact Eqv.bind (options_eqv hd) fun _ _ h => Eqv.nthNode h i
    | _ => exact Eqv.bind (options_eqv hd) fun _ _ h => Eqv.nthNode h i
  · cases n with
    | wrapped a k p =>
      cases k <;> cases q <;> first
        | exact Eqv.pure Ren.opt_none
        | exact (ho rfl).elim
        | exact Eqv.nthNode (fileImports_eqv p) i
        | exact Eqv.nthNode (fileMessages_eqv p) i
        | exact Eqv.nthNode (fileEnums_eqv p) i
        | exact Eqv.nthNode (fileTypes_eqv p) i
        | exact Eqv.nthNode (fileServices_eqv p) i
        | exact Eqv.nthNode (messageFields_eqv p) i
        | exact Eqv.nthNode (messageMessages_eqv p) i
        | exact Eqv.nthNode (messageTypes_eqv p) i
        | exact Eqv.nthNode (enumValues_eqv p) i
        | exact Eqv.nthNode (enumEnums_eqv p) i
        | exact Eqv.nthNode (serviceMethods_eqv p) i
        | exact Eqv.nthNode (methodOptions_eqv p) i
        | exact Eqv.nthOpt (everything_eqv p _) i
    | oneof a p =>
      cases q <;> first
        | exact Eqv.pure Ren.opt_none
        | exact (ho rfl).elim
        | exact Eqv.nthNode (oneofBranches_eqv p) i
    | «repeated» a t => cases t <;> cases q <;> first | exact Eqv.pure Ren.opt_none | exact (ho rfl).elim
    | _ => cases q <;> first | exact Eqv.pure Ren.opt_none | exact (ho rfl).elim

theorem namedRun_eqv (q : NamedQ) {n : Node} (hd : Deep n) (name : Str) :
    Eqv s s.opt (q.run n name) (q.run (s.node n) name) := by
  by_cases ho : q = .optionNamed
  · subst ho
    cases n with
    | «repeated» a t => cases t <;> exact optionNamed_eqv hd name
    | _ => exact optionNamed_eqv hd name
  · cases n with
    | wrapped a k p =>
      cases k <;> cases q <;> first
        | exact Eqv.pure Ren.opt_none
        | exact (ho rfl).elim
        | exact fileType_eqv p name
        | exact messageType_eqv p name
        | exact Eqv.firstKid p _ _
    | oneof a p =>
      cases q <;> first
        | exact Eqv.pure Ren.opt_none
        | exact (ho rfl).elim
        | exact Eqv.firstKid p _ _
    | «repeated» a t => cases t <;> cases q <;> first | exact Eqv.pure Ren.opt_none | exact (ho rfl).elim
    | _ => cases q <;> first | exact Eqv.pure Ren.opt_none | exact (ho rfl).elim

theorem nds_nil : s.nds [] [] := ⟨rfl, fun n h => by cases h⟩

theorem nds_one {n1 n2 : Node} (h : s.nd n1 n2) : s.nds [n1] [n2] :=
  ⟨by rw [h.1]; rfl, fun n hn => by simp at hn; subst hn; exact h.2⟩

theorem drop_eqv {α β : Type} {R : α → β → Prop} {m1 : M α} {m2 : M β} (h : Eqv s R m1 m2) :
    Eqv s s.nds (m1 >>= fun _ => Pure.pure []) (m2 >>= fun _ => Pure.pure []) :=
  Eqv.bind h fun _ _ _ => Eqv.pure nds_nil

theorem index_drop_eqv (n : Node) :
    Eqv s s.nds (nodeIndex n >>= fun _ => Pure.pure []) (nodeIndex (s.node n) >>= fun _ => Pure.pure []) := by
  have h : ∀ (m : Node) r, ∃ t, nodeIndex m r = (.ok t, r) := by
    intro m r
    cases m with
    | wrapped a k p =>
      cases k <;> simp only [nodeIndex, M.bind_apply, M.get_apply] <;> first
        | exact ⟨_, rfl⟩
        | skip
      cases r.kind p with
      | none => exact ⟨_, rfl⟩
      | some kd => cases kd <;> exact ⟨_, rfl⟩
    | _ => exact ⟨_, rfl⟩
  intro r1 r2 hs
  obtain ⟨t1, h1⟩ := h n r1
  obtain ⟨t2, h2⟩ := h (s.node n) r2
  simp only [M.bind_apply, h1, h2]
  exact ⟨nds_nil, hs⟩

set_option hygiene false in
/-- A call that only wrappers of some kinds answer. -/
local macro "onWrapped" t:tacticSeq : tactic => `(tactic| (
  cases n with
  | wrapped a k p => cases k <;> first | exact Eqv.pure nds_nil | ($t)
  | «repeated» a t => cases t <;> exact Eqv.pure nds_nil
  | _ => exact Eqv.pure nds_nil))

set_option hygiene false in
/-- A call that every node answers. -/
local macro "onAll" t:tacticSeq : tactic => `(tactic| (
  cases n with
  | «repeated» a t => cases t <;> ($t)
  | _ => ($t)))

theorem plainRun_eqv (q : PlainQ) {n : Node} (hd : Deep n) : Eqv s s.nds (q.run n) (q.run (s.node n)) := by
  cases q with
  | fieldType => onWrapped exact opt_of_eqv (fieldType_eqv _ (deep_path hd (by simp)))
  | branchType => onWrapped exact opt_of_eqv (branchType_eqv (deep_path hd (by simp)))
  | methodInput =>
    onWrapped exact Eqv.bind (methodInput_eqv (deep_path hd (by simp))) fun _ _ h => Eqv.pure (nds_one h.2)
  | methodOutput =>
    onWrapped exact Eqv.bind (methodOutput_eqv (deep_path hd (by simp))) fun _ _ h => Eqv.pure (nds_one h.2)
  | mapKey =>
    cases n with
    | map a p => exact Eqv.bind (mapKey_eqv p) fun _ _ h => Eqv.pure (nds_one h.1)
    | «repeated» a t => cases t <;> exact Eqv.pure nds_nil
    | _ => exact Eqv.pure nds_nil
  | mapValue =>
    cases n with
    | map a p => exact Eqv.bind (mapValue_eqv p) fun _ _ h => Eqv.pure (nds_one h)
    | «repeated» a t => cases t <;> exact Eqv.pure nds_nil
    | _ => exact Eqv.pure nds_nil
  | repeatedElem =>
    cases n with
    | «repeated» a t =>
      cases t
      · exact Eqv.pure nds_nil
      · exact Eqv.pure (nds_one ⟨rfl, hd⟩)
    | _ => exact Eqv.pure nds_nil
  | optionValue F =>
    cases n with
    | option a o c f =>
      exact Eqv.bind (optionValue_eqv _ hd.2.2) fun _ _ h => Eqv.pure (nds_one ⟨by rw [h.1]; rfl, h.2⟩)
    | «repeated» a t => cases t <;> exact Eqv.pure nds_nil
    | _ => exact Eqv.pure nds_nil
  | valueParts =>
    cases n with
    | value v => exact Eqv.pure (parts_eqv hd)
    | mapItem k v => exact Eqv.pure (nds_one ⟨rfl, hd⟩)
    | «repeated» a t => cases t <;> exact Eqv.pure nds_nil
    | _ => exact Eqv.pure nds_nil
  | parent => onAll exact opt_of_eqv (nodeParent_eqv _)
  | hierarchy fuel => onAll exact nodeHierarchy_eqv _ _ _ ⟨rfl, fun m e => by cases e; exact hd⟩
  | file => onAll exact opt_of_eqv (nodeFile_eqv _)
  | pos fuel => onAll exact drop_eqv (pos_eqv _ hd)
  | index => onAll exact index_drop_eqv _
  | description => onAll exact drop_eqv (nodeDescription_eqv _)
  | comment => onAll exact drop_eqv (comment_eqv _)
  | typeName => onAll exact drop_eqv (typeName_eqv _ hd)
  | typeIsDefined ref => onAll exact drop_eqv (typeIsDefined_eqv _ _)
  | goPackage => onAll exact drop_eqv (goPackage_eqv _)
  | goPackageOption => onAll exact drop_eqv (goPackageOption_eqv _)
  | optionIs nm =>
    cases n with
    | option a o c f => exact drop_eqv (optionIs_eqv hd.2.2 _)
    | «repeated» a t => cases t <;> exact Eqv.pure nds_nil
    | _ => exact Eqv.pure nds_nil
  | optionName =>
    cases n with
    | option a o c f => exact drop_eqv (optionName_eqv hd.2.1)
    | «repeated» a t => cases t <;> exact Eqv.pure nds_nil
    | _ => exact Eqv.pure nds_nil
  | name =>
    cases n with
    | wrapped a k p =>
      cases k with
      | file => exact drop_eqv (fileName_eqv _)
      | message => exact drop_eqv (messageName_eqv _)
      | enum => exact drop_eqv (enumName_eqv _)
      | enumValue => exact drop_eqv (enumValueName_eqv _)
      | messageField => exact drop_eqv (fieldName_eqv _)
      | oneofBranch => exact drop_eqv (branchName_eqv _)
      | service => exact drop_eqv (serviceName_eqv _)
      | method => exact drop_eqv (methodName_eqv _)
      | _ => exact Eqv.pure nds_nil
    | «repeated» a t => cases t <;> exact Eqv.pure nds_nil
    | _ => exact Eqv.pure nds_nil
  | package =>
    cases n with
    | wrapped a k p =>
      cases k with
      | file => exact drop_eqv (filePackage_eqv _)
      | packageW => exact drop_eqv (packagePackage_eqv _)
      | _ => exact Eqv.pure nds_nil
    | «repeated» a t => cases t <;> exact Eqv.pure nds_nil
    | _ => exact Eqv.pure nds_nil
  | isExtension => onWrapped exact drop_eqv (messageIsExtension_eqv _)
  | number =>
    cases n with
    | wrapped a k p =>
      cases k with
      | messageField => exact drop_eqv (fieldValue_eqv _)
      | enumValue => exact drop_eqv (enumValueValue_eqv _)
      | oneofBranch => exact drop_eqv (branchValue_eqv _)
      | _ => exact Eqv.pure nds_nil
    | «repeated» a t => cases t <;> exact Eqv.pure nds_nil
    | _ => exact Eqv.pure nds_nil
  | optional => onWrapped exact drop_eqv (fieldOptional_eqv _)
  | importPath => onWrapped exact drop_eqv (importPath_eqv _)
  | syntaxValue => onWrapped exact drop_eqv (syntaxValue_eqv _)
  | reservedValues => onWrapped exact drop_eqv (reservedValues_eqv _)

theorem queryRun_eqv (q : Query) {n : Node} (hd : Deep n) : Eqv s s.nds (q.run n) (q.run (s.node n)) := by
  cases q with
  | iter q i => exact opt_of_eqv (iterRun_eqv q hd i)
  | named q name => exact opt_of_eqv (namedRun_eqv q hd name)
  | plain q => exact plainRun_eqv q hd

theorem nds_get {l1 l2 : List Node} (h : s.nds l1 l2) (i : Nat) :
    (l1[i]? = none ∧ l2[i]? = none) ∨ ∃ n, l1[i]? = some n ∧ l2[i]? = some (s.node n) ∧ Deep n := by
  obtain ⟨rfl, hd⟩ := h
  cases e : l1[i]? with
  | none => exact .inl ⟨rfl, by simp [e]⟩
  | some n => exact .inr ⟨n, rfl, by simp [e], hd n (List.mem_of_getElem? e)⟩

theorem opRun_eqv {l1 l2 : List Node} (h : s.nds l1 l2) (op : Op) : Eqv s s.nds (op.run l1) (op.run l2) := by
  cases op with
  | proto W fuel path =>
    refine Eqv.bind (proto_eqv W fuel path) ?_
    intro a b hab
    cases a <;> cases b <;> simp only [ProtoR] at hab
    · exact Eqv.pure nds_nil
    · exact Eqv.pure (nds_one hab)
  | byName name => exact opt_of_eqv (nodeByFullName_eqv name)
  | query i q =>
    rcases nds_get h i with ⟨e1, e2⟩ | ⟨n, e1, e2, hd⟩
    · simp only [Op.run, e1, e2]; exact Eqv.pure nds_nil
    · simp only [Op.run, e1, e2]; exact queryRun_eqv q hd

/-- Corresponding clients. -/
structure SimC (s : Ren) (c1 c2 : Client) : Prop where
  reg : Sim s c1.reg c2.reg
  pool : s.nds c1.pool c2.pool

theorem nds_append {a1 a2 b1 b2 : List Node} (h : s.nds a1 a2) (h' : s.nds b1 b2) : s.nds (a1 ++ b1) (a2 ++ b2) :=
  ⟨by rw [h.1, h'.1, List.map_append], fun n hn => (List.mem_append.mp hn).elim (h.2 n) (h'.2 n)⟩

theorem SimC.step {c1 c2} (h : SimC s c1 c2) (op : Op) : SimC s (c1.step op) (c2.step op) := by
  have h0 := opRun_eqv h.pool op _ _ h.reg
  unfold Client.step
  rcases h1 : op.run c1.pool c1.reg with ⟨res1, r1'⟩
  rcases h2 : op.run c2.pool c2.reg with ⟨res2, r2'⟩
  rw [h1, h2] at h0
  cases res1 <;> cases res2 <;> simp only [ResRel] at h0 <;> try exact h0.1.elim
  · exact ⟨h0.2, nds_append h.pool h0.1⟩
  · exact ⟨h0.2, h.pool⟩
  · exact ⟨h0.2, h.pool⟩

theorem SimC.exec : ∀ (ops : List Op) {c1 c2}, SimC s c1 c2 → SimC s (c1.exec ops) (c2.exec ops) := by
  intro ops
  induction ops with
  | nil => intro c1 c2 h; exact h
  | cons op ops ih => intro c1 c2 h; exact ih (h.step op)

/-! ### Answers -/

theorem ans_eqv {α : Type} {m1 m2 : M α} (f : α → Answer) (h : EqvEq s m1 m2) :
    EqvEq s (m1 >>= fun x => Pure.pure (f x)) (m2 >>= fun x => Pure.pure (f x)) :=
  Eqv.bind h fun _ _ e => Eqv.pure (by rw [e])

theorem attr_eqv {α : Type} {m1 m2 : M α} (f : α → AttrVal) (h : EqvEq s m1 m2) :
    EqvEq s (m1 >>= fun x => Pure.pure (f x)) (m2 >>= fun x => Pure.pure (f x)) :=
  Eqv.bind h fun _ _ e => Eqv.pure (by rw [e])

set_option hygiene false in
/-- An attribute that only wrappers of some kinds have. -/
local macro "ofWrapped" t:tacticSeq : tactic => `(tactic| (
  cases n with
  | wrapped a k p => cases k <;> first | exact Eqv.pure rfl | ($t)
  | «repeated» a t => cases t <;> exact Eqv.pure rfl
  | _ => exact Eqv.pure rfl))

theorem attrRead_eqv (q : Attr) {n : Node} (hd : Deep n) (hq : q = .index → ∀ a p, n ≠ .wrapped a .file p) :
    EqvEq s (q.read n) (q.read (s.node n)) := by
  cases q with
  | index => onAll exact attr_eqv _ (nodeIndex_eqv hd (hq rfl))
  | description => onAll exact attr_eqv _ (nodeDescription_eqv _)
  | comment => onAll exact attr_eqv _ (comment_eqv _)
  | typeName => onAll exact attr_eqv _ (typeName_eqv _ hd)
  | name =>
    cases n with
    | wrapped a k p =>
      cases k with
      | file => exact attr_eqv _ (fileName_eqv _)
      | message => exact attr_eqv _ (messageName_eqv _)
      | enum => exact attr_eqv _ (enumName_eqv _)
      | enumValue => exact attr_eqv _ (enumValueName_eqv _)
      | messageField => exact attr_eqv _ (fieldName_eqv _)
      | oneofBranch => exact attr_eqv _ (branchName_eqv _)
      | service => exact attr_eqv _ (serviceName_eqv _)
      | method => exact attr_eqv _ (methodName_eqv _)
      | _ => exact Eqv.pure rfl
    | «repeated» a t => cases t <;> exact Eqv.pure rfl
    | _ => exact Eqv.pure rfl
  | package =>
    cases n with
    | wrapped a k p =>
      cases k with
      | file => exact attr_eqv _ (filePackage_eqv _)
      | packageW => exact attr_eqv _ (packagePackage_eqv _)
      | _ => exact Eqv.pure rfl
    | «repeated» a t => cases t <;> exact Eqv.pure rfl
    | _ => exact Eqv.pure rfl
  | isExtension => ofWrapped exact attr_eqv _ (messageIsExtension_eqv _)
  | number =>
    cases n with
    | wrapped a k p =>
      cases k with
      | messageField => exact attr_eqv _ (fieldValue_eqv _)
      | enumValue => exact attr_eqv _ (enumValueValue_eqv _)
      | oneofBranch => exact attr_eqv _ (branchValue_eqv _)
      | _ => exact Eqv.pure rfl
    | «repeated» a t => cases t <;> exact Eqv.pure rfl
    | _ => exact Eqv.pure rfl
  | optional => ofWrapped exact attr_eqv _ (fieldOptional_eqv _)
  | importPath => ofWrapped exact attr_eqv _ (importPath_eqv _)
  | syntaxValue => ofWrapped exact attr_eqv _ (syntaxValue_eqv _)
  | reservedValues =>
    ofWrapped exact Eqv.bind (reservedValues_eqv _) fun _ _ h => attr_eqv _ (collectSteps_eqv h)

theorem nothing_eqv {α β : Type} {R : α → β → Prop} {m1 : M α} {m2 : M β} (h : Eqv s R m1 m2) :
    EqvEq s (m1 >>= fun _ => Pure.pure Answer.nothing) (m2 >>= fun _ => Pure.pure Answer.nothing) :=
  Eqv.bind h fun _ _ _ => Eqv.pure rfl

theorem plainAnswer_eqv (q : PlainQ) {n : Node} (hd : Deep n) : EqvEq s (q.answer n) (q.answer (s.node n)) := by
  cases q with
  | methodInput =>
    cases n with
    | wrapped a k p =>
      cases k with
      | method => exact Eqv.bind (methodInput_eqv (deep_path hd (by simp))) fun _ _ h => Eqv.pure (by rw [h.1])
      | _ => exact nothing_eqv (plainRun_eqv .methodInput hd)
    | «repeated» a t => cases t <;> exact nothing_eqv (plainRun_eqv .methodInput hd)
    | _ => exact nothing_eqv (plainRun_eqv .methodInput hd)
  | methodOutput =>
    cases n with
    | wrapped a k p =>
      cases k with
      | method => exact Eqv.bind (methodOutput_eqv (deep_path hd (by simp))) fun _ _ h => Eqv.pure (by rw [h.1])
      | _ => exact nothing_eqv (plainRun_eqv .methodOutput hd)
    | «repeated» a t => cases t <;> exact nothing_eqv (plainRun_eqv .methodOutput hd)
    | _ => exact nothing_eqv (plainRun_eqv .methodOutput hd)
  | index =>
    cases n with
    | wrapped a k p =>
      cases k with
      | file => exact Eqv.pure rfl
      | _ => exact ans_eqv _ (attrRead_eqv .index hd (fun _ _ _ e => by cases e))
    | «repeated» a t => cases t <;> exact ans_eqv _ (attrRead_eqv .index hd (fun _ _ _ e => by cases e))
    | _ => exact ans_eqv _ (attrRead_eqv .index hd (fun _ _ _ e => by cases e))
  | optionIs nm =>
    cases n with
    | option a o c f => exact ans_eqv _ (optionIs_eqv hd.2.2 _)
    | «repeated» a t => cases t <;> exact nothing_eqv (plainRun_eqv (.optionIs nm) hd)
    | _ => exact nothing_eqv (plainRun_eqv (.optionIs nm) hd)
  | optionName =>
    cases n with
    | option a o c f => exact ans_eqv _ (optionName_eqv hd.2.1)
    | «repeated» a t => cases t <;> exact nothing_eqv (plainRun_eqv .optionName hd)
    | _ => exact nothing_eqv (plainRun_eqv .optionName hd)
  | pos fuel => exact ans_eqv _ (pos_eqv _ hd)
  | typeIsDefined ref => exact ans_eqv _ (typeIsDefined_eqv _ _)
  | goPackage => exact ans_eqv _ (goPackage_eqv _)
  | goPackageOption => exact ans_eqv _ (goPackageOption_eqv _)
  | description => exact ans_eqv _ (attrRead_eqv .description hd (fun h => by cases h))
  | comment => exact ans_eqv _ (attrRead_eqv .comment hd (fun h => by cases h))
  | typeName => exact ans_eqv _ (attrRead_eqv .typeName hd (fun h => by cases h))
  | name => exact ans_eqv _ (attrRead_eqv .name hd (fun h => by cases h))
  | package => exact ans_eqv _ (attrRead_eqv .package hd (fun h => by cases h))
  | isExtension => exact ans_eqv _ (attrRead_eqv .isExtension hd (fun h => by cases h))
  | number => exact ans_eqv _ (attrRead_eqv .number hd (fun h => by cases h))
  | optional => exact ans_eqv _ (attrRead_eqv .optional hd (fun h => by cases h))
  | importPath => exact ans_eqv _ (attrRead_eqv .importPath hd (fun h => by cases h))
  | syntaxValue => exact ans_eqv _ (attrRead_eqv .syntaxValue hd (fun h => by cases h))
  | reservedValues => exact ans_eqv _ (attrRead_eqv .reservedValues hd (fun h => by cases h))
  | fieldType => onAll exact nothing_eqv (plainRun_eqv .fieldType hd)
  | branchType => onAll exact nothing_eqv (plainRun_eqv .branchType hd)
  | mapKey => onAll exact nothing_eqv (plainRun_eqv .mapKey hd)
  | mapValue => onAll exact nothing_eqv (plainRun_eqv .mapValue hd)
  | repeatedElem => onAll exact nothing_eqv (plainRun_eqv .repeatedElem hd)
  | optionValue F => onAll exact nothing_eqv (plainRun_eqv (.optionValue F) hd)
  | valueParts => onAll exact nothing_eqv (plainRun_eqv .valueParts hd)
  | parent => onAll exact nothing_eqv (plainRun_eqv .parent hd)
  | hierarchy fuel => onAll exact nothing_eqv (plainRun_eqv (.hierarchy fuel) hd)
  | file => onAll exact nothing_eqv (plainRun_eqv .file hd)

theorem queryAnswer_eqv (q : Query) {n : Node} (hd : Deep n) : EqvEq s (q.answer n) (q.answer (s.node n)) := by
  cases q with
  | iter q i => exact nothing_eqv (iterRun_eqv q hd i)
  | named q name => exact nothing_eqv (namedRun_eqv q hd name)
  | plain q => exact plainAnswer_eqv q hd

theorem opAnswer_eqv {l1 l2 : List Node} (h : s.nds l1 l2) (op : Op) : EqvEq s (op.answer l1) (op.answer l2) := by
  cases op with
  | proto W fuel path =>
    refine Eqv.bind (proto_eqv W fuel path) ?_
    intro a b hab
    cases a <;> cases b <;> simp only [ProtoR] at hab
    · subst hab; exact Eqv.pure rfl
    · exact Eqv.pure rfl
  | byName name => exact nothing_eqv (nodeByFullName_eqv name)
  | query i q =>
    rcases nds_get h i with ⟨e1, e2⟩ | ⟨n, e1, e2, hd⟩
    · simp only [Op.answer, e1, e2]; exact Eqv.pure rfl
    · simp only [Op.answer, e1, e2]; exact queryAnswer_eqv q hd

end Protoast
