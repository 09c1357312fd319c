import Verif.Proof.Again1
/-
  Repeating a computation, continued: values, types and the remaining calls.
-/
namespace Protoast.Again

/-! ### Field types -/

theorem Same.fieldType (a : Nat) (p : Ptr) : Same (MessageField.type a p) := by
  constructor; intro r x r1 e
  have hro : CacheExt r r1 := by
    have := RO.fieldType a p r
    rw [e] at this
    exact this
  refine ⟨hro, fun r' hr' => ?_⟩
  have hc : r1.ftcache a = some x := by
    unfold MessageField.type at e
    cases h : r.ftcache a with
    | some t => rw [h] at e; cases e; exact h
    | none =>
      rw [h] at e
      simp only at e
      rcases hb : fieldTypeBody p r with ⟨res, r2⟩
      rw [hb] at e
      cases res with
      | ok t => cases e; simp [upd]
      | panic q => cases e
      | timeout => cases e
  refine ⟨x, r', ?_, Unwritten.refl _, rfl⟩
  unfold MessageField.type
  rw [hr'.ftcache a x hc]

/-- For an element that is no repeated field, the lookup is the plain one. -/
theorem getTypeByName_plain {p : Ptr} {n : Str} {r : Reg} (h : r.isRepeatedField p = false) :
    getTypeByName p n r = lookupType p n r := by
  have hro := RO.lookupType p n r
  simp only [getTypeByName, M.bind_apply]
  rcases hl : lookupType p n r with ⟨res, r'⟩
  rw [hl] at hro
  cases res with
  | panic e => rfl
  | timeout => rfl
  | ok t =>
    have : r'.isRepeatedField p = false := by rw [(front hro).isRepeatedField]; exact h
    simp [M.get_apply, this]

/-- What `OneOfBranch.Type` amounts to. -/
theorem branchType_eq (p : Ptr) : OneOfBranch.type p = (M.get >>= fun r => match r.kind p with
    | some (.oneofField _ t _) => lookupType p t
    | _ => M.panic .illTyped) := by
  funext r
  unfold OneOfBranch.type
  simp only [M.bind_apply, M.get_apply]
  cases h : r.kind p with
  | none => rfl
  | some k => cases k with
    | oneofField a t b => exact getTypeByName_plain (by simp [Reg.isRepeatedField, h])
    | _ => rfl

theorem Same.branchType (p) : Same (OneOfBranch.type p) := by rw [branchType_eq]; same

theorem assertKind_upto (k : WKind) {x y : Option Node} (h : TypeUpto x y) :
    Rep Eq (Protoast.assertKind k x) (Protoast.assertKind k y) := by
  cases h with
  | refl => exact Same.assertKind _ _
  | «repeated» => exact Rep.panic

theorem Same.methodInput (p) : Same (Method.input p) := by
  unfold Method.input
  refine Same.read (by fronts) fun r => ?_
  split
  · refine Rep.bind (getTypeByName_rep _ _) fun x y h => ?_
    refine Rep.bind (assertKind_upto _ h) ?_
    rintro z _ rfl
    exact Rep.pure rfl
  · exact Rep.panic
theorem Same.methodOutput (p) : Same (Method.output p) := by
  unfold Method.output
  refine Same.read (by fronts) fun r => ?_
  split
  · refine Rep.bind (getTypeByName_rep _ _) fun x y h => ?_
    refine Rep.bind (assertKind_upto _ h) ?_
    rintro z _ rfl
    exact Rep.pure rfl
  · exact Rep.panic
theorem Same.mapKey (p) : Same (Map.key p) := by unfold Map.key; same
macro_rules | `(tactic| same_lemma) => `(tactic| with_reducible exact Same.mapKey _)
theorem Same.mapValue (p) : Same (Map.value p) := by unfold Map.value; same
macro_rules | `(tactic| same_lemma) => `(tactic| with_reducible exact Same.mapValue _)

/-! ### Option values -/

mutual
theorem Same.buildFromLiteral (F : FloatOps) (o : Option Ptr) (f : Ptr) (ig : Bool) :
    (l : Literal) → Same (Protoast.buildFromLiteral F o f ig l)
  | .mk pos source array om => by
    have ha := Same.buildArray F f array
    have hi := fun mp => Same.buildItems F mp om
    unfold Protoast.buildFromLiteral
    simp only
    refine Same.read (by fronts) fun r => ?_
    split
    · split
      · exact Same.bind ha fun _ => Same.pure _
      · split
        · split <;> same
        · split <;> same
        · split <;> same
        · split <;> same
        · same
        · same
        · refine Rep.bind (getTypeByName_rep _ _) fun x y h => ?_
          cases h with
          | «repeated» => exact Rep.panic
          | refl =>
            show Same _
            split
            · refine Same.bind (Same.firstKid _ _ _) fun _ => ?_
              same
            · exact Same.bind (hi _) fun _ => Same.pure _
            · exact Same.panic
    · exact Same.panic
theorem Same.buildArray (F : FloatOps) (f : Ptr) : (ls : List Literal) → Same (Protoast.buildArray F f ls)
  | [] => by unfold Protoast.buildArray; same
  | l :: ls => by
    have h1 := Same.buildFromLiteral F none f true l
    have h2 := Same.buildArray F f ls
    unfold Protoast.buildArray
    same
theorem Same.buildItems (F : FloatOps) (m : Ptr) :
    (ls : List (Str × Literal)) → Same (Protoast.buildItems F m ls)
  | [] => by unfold Protoast.buildItems; same
  | nl :: rest => by
    have h1 := Same.buildItem F m nl
    have h2 := Same.buildItems F m rest
    unfold Protoast.buildItems
    same
theorem Same.buildItem (F : FloatOps) (m : Ptr) : (nl : Str × Literal) → Same (Protoast.buildItem F m nl)
  | (name, lit) => by
    have h1 := fun fp => Same.buildFromLiteral F none fp false lit
    unfold Protoast.buildItem Message.field
    repeat' (first | exact h1 _ | same_lemma | same_rule | intro _ | split)
end
macro_rules | `(tactic| same_lemma) => `(tactic| with_reducible exact Same.buildFromLiteral _ _ _ _ _)

theorem Same.optionValue (F o f) : Same (Option.value F o f) := by unfold Option.value; same
macro_rules | `(tactic| same_lemma) => `(tactic| with_reducible exact Same.optionValue _ _ _)

/-! ### Meta queries -/

theorem Same.nodeIndex (n) : Same (Protoast.nodeIndex n) := by unfold Protoast.nodeIndex; same
macro_rules | `(tactic| same_lemma) => `(tactic| with_reducible exact Same.nodeIndex _)
theorem Same.comment (n) : Same (Protoast.comment n) := by unfold Protoast.comment; same
macro_rules | `(tactic| same_lemma) => `(tactic| with_reducible exact Same.comment _)

theorem Same.nodeDescription : (n : Node) → Same (Protoast.nodeDescription n)
  | .repeated _ (some t) => by
    have := Same.nodeDescription t
    unfold Protoast.nodeDescription; same
  | .repeated _ none => by unfold Protoast.nodeDescription; same
  | .wrapped _ _ _ | .option _ _ _ _ | .oneof _ _ | .map _ _ | .builtin _ | .value _
  | .mapItem _ _ => by unfold Protoast.nodeDescription; same
macro_rules | `(tactic| same_lemma) => `(tactic| with_reducible exact Same.nodeDescription _)

theorem Same.typeName : (n : Node) → Same (Protoast.typeName n)
  | .repeated _ (some t) => by
    have := Same.typeName t
    unfold Protoast.typeName; same
  | .repeated _ none => by unfold Protoast.typeName; same
  | .wrapped _ _ _ | .option _ _ _ _ | .oneof _ _ | .map _ _ | .builtin _ | .value _
  | .mapItem _ _ => by unfold Protoast.typeName; same
macro_rules | `(tactic| same_lemma) => `(tactic| with_reducible exact Same.typeName _)

theorem Same.nodeParent : (n : Node) → Same (Protoast.nodeParent n)
  | .repeated _ (some t) => by
    have := Same.nodeParent t
    unfold Protoast.nodeParent; same
  | .repeated _ none => by unfold Protoast.nodeParent; same
  | .wrapped _ _ _ | .option _ _ _ _ | .oneof _ _ | .map _ _ | .builtin _ | .value _
  | .mapItem _ _ => by unfold Protoast.nodeParent; same
macro_rules | `(tactic| same_lemma) => `(tactic| with_reducible exact Same.nodeParent _)

theorem Same.nodeHierarchy (n : Nat) : ∀ o, Same (Protoast.nodeHierarchy n o) := by
  induction n with
  | zero =>
    intro o
    cases o with
    | none => rw [Protoast.nodeHierarchy]; exact Same.pure _
    | some n => exact Rep.timeout
  | succ n ih =>
    intro o
    cases o
    · rw [Protoast.nodeHierarchy]; exact Same.pure _
    · rw [Protoast.nodeHierarchy]
      refine Same.bind (Same.nodeParent _) fun a => Same.bind (ih a) fun _ => Same.pure _
macro_rules | `(tactic| same_lemma) => `(tactic| with_reducible exact Same.nodeHierarchy _ _)

theorem Same.elemPos (p) : Same (Protoast.elemPos p) := by unfold Protoast.elemPos; same
macro_rules | `(tactic| same_lemma) => `(tactic| with_reducible exact Same.elemPos _)
theorem Same.filePos (p) : Same (Protoast.filePos p) := by unfold Protoast.filePos; same
macro_rules | `(tactic| same_lemma) => `(tactic| with_reducible exact Same.filePos _)

theorem Same.nodePos : (n : Node) → Same (Protoast.nodePos n)
  | .repeated _ (some t) => by
    have := Same.nodePos t
    unfold Protoast.nodePos; same
  | .repeated _ none => by unfold Protoast.nodePos; same
  | .wrapped _ k _ => by cases k <;> (unfold Protoast.nodePos; same)
  | .option _ _ _ _ | .oneof _ _ | .map _ _ | .builtin _ | .value _
  | .mapItem _ _ => by unfold Protoast.nodePos; same
macro_rules | `(tactic| same_lemma) => `(tactic| with_reducible exact Same.nodePos _)

theorem Same.nodeFile (n) : Same (Protoast.nodeFile n) := by unfold Protoast.nodeFile; same
macro_rules | `(tactic| same_lemma) => `(tactic| with_reducible exact Same.nodeFile _)
theorem Same.posBody (n) : Same (Protoast.posBody n) := by unfold Protoast.posBody; same
theorem Same.lastFile : (l : List Node) → Same (Protoast.lastFile l)
  | [] => Same.panic
  | [n] => by
    unfold Protoast.lastFile
    split
    · same
    · same
    · same
    · next h => simp at h
  | _ :: b :: rest => by
    rw [Protoast.lastFile]
    exact Same.lastFile (b :: rest)
macro_rules | `(tactic| same_lemma) => `(tactic| with_reducible exact Same.lastFile _)
theorem Same.fileName (p) : Same (File.name p) := by unfold File.name; same
macro_rules | `(tactic| same_lemma) => `(tactic| with_reducible exact Same.fileName _)
theorem Same.posDefer (a b c) : Same (Protoast.posDefer a b c) := by unfold Protoast.posDefer; same

theorem pos_bind {fuel : Nat} {n : Node} {r r1 : Reg} {x : Position} :
    Protoast.pos fuel n r = (.ok x, r1) ↔ (Protoast.posBody n >>= Protoast.posDefer fuel n) r = (.ok x, r1) := by
  unfold Protoast.pos
  simp only [M.bind_apply]
  rcases Protoast.posBody n r with ⟨res, r'⟩
  cases res with
  | ok a => rfl
  | panic p =>
    simp only
    rcases Protoast.posDefer fuel n {} r' with ⟨res, r''⟩
    cases res <;> simp
  | timeout => simp

theorem Same.pos (fuel n) : Same (Protoast.pos fuel n) := by
  have h := Same.bind (Same.posBody n) (Same.posDefer fuel n)
  constructor
  intro r x r1 e
  obtain ⟨h1, h2⟩ := h.run r x r1 (pos_bind.1 e)
  refine ⟨h1, fun r' hr' => ?_⟩
  obtain ⟨y, r2, h3, h4⟩ := h2 r' hr'
  exact ⟨y, r2, pos_bind.2 h3, h4⟩
macro_rules | `(tactic| same_lemma) => `(tactic| with_reducible exact Same.pos _ _)

theorem Same.typeIsDefined (n s) : Same (Protoast.typeIsDefined n s) := by unfold Protoast.typeIsDefined; same
macro_rules | `(tactic| same_lemma) => `(tactic| with_reducible exact Same.typeIsDefined _ _)
theorem Same.goPackageOption (n) : Same (Protoast.goPackageOption n) := by unfold Protoast.goPackageOption; same
macro_rules | `(tactic| same_lemma) => `(tactic| with_reducible exact Same.goPackageOption _)
theorem Same.optionName (a b c) : Same (Option.name a b c) := by unfold Option.name; same
macro_rules | `(tactic| same_lemma) => `(tactic| with_reducible exact Same.optionName _ _ _)
theorem Same.optionIs (f s) : Same (Option.is f s) := by unfold Option.is; same
macro_rules | `(tactic| same_lemma) => `(tactic| with_reducible exact Same.optionIs _ _)

theorem goPackageBody_rep (s) {x y : Option Node} (h : UptoO x y) :
    Rep Eq (Protoast.goPackageBody s x) (Protoast.goPackageBody s y) := by
  have hs : ∀ x, Same (Protoast.goPackageBody s x) := by intro x; unfold Protoast.goPackageBody; same
  cases h with
  | none => exact hs _
  | some h => cases h with
    | refl => exact hs _
    | option => exact hs _

theorem Same.goPackage (n) : Same (Protoast.goPackage n) := by
  unfold Protoast.goPackage
  refine Same.bind (Same.nodeFile n) fun f => ?_
  split
  · refine Same.bind (Rep.bind (everything_rep _ _) fun l1 l2 h => ?_) fun _ => ?_
    · exact Rep.runSteps (R := UptoO) (fun st x y e => goPackageBody_rep st e) h _
    · same
  · exact Same.pure _
macro_rules | `(tactic| same_lemma) => `(tactic| with_reducible exact Same.goPackage _)

/-! ### Calls -/

/-- Lists of handles. -/
abbrev Uptos : List Node → List Node → Prop := AllRel Upto

theorem Uptos.refl (l) : Uptos l l := by
  induction l with
  | nil => exact .nil
  | cons _ _ ih => exact .cons (.refl _) ih

theorem UptoO.toList {x y : Option Node} (h : UptoO x y) : Uptos x.toList y.toList := by
  cases h with
  | none => exact .nil
  | some h => exact .cons h .nil

theorem nth_upto {q : Seq Node} (h : Rep (Steps Eq) q q) (i : Nat) : Rep UptoO (q.nth i) (q.nth i) :=
  (Rep.nth h i).mono fun x y e => by
    cases e with
    | none => exact .none
    | some e => subst e; exact .some (.refl _)

theorem nth_upto' {q q' : Seq Node} (h : Rep (Steps Upto) q q') (i : Nat) : Rep UptoO (q.nth i) (q'.nth i) :=
  (Rep.nth h i).mono fun x y e => by
    cases e with
    | none => exact .none
    | some e => exact .some e

theorem nth_flat {q : Seq (Option Node)} (h : Rep (Steps UptoO) q q) (i : Nat) :
    Rep UptoO (q.nth i >>= fun x => Pure.pure (flatOpt x)) (q.nth i >>= fun x => Pure.pure (flatOpt x)) :=
  Rep.bind (Rep.nth h i) fun x y e => by
    cases e with
    | none => exact Rep.pure .none
    | some e => exact Rep.pure e

theorem iter_rep (q : IterQ) (n : Node) (i : Nat) : Rep UptoO (q.run n i) (q.run n i) := by
  unfold IterQ.run
  split
  · exact nth_upto (fileImports_rep _) i
  · exact nth_upto (fileMessages_rep _) i
  · exact nth_upto (fileEnums_rep _) i
  · exact nth_upto (fileTypes_rep _) i
  · exact nth_upto (fileServices_rep _) i
  · exact nth_flat (everything_rep _ _) i
  · exact nth_upto (messageFields_rep _) i
  · exact nth_upto (messageMessages_rep _) i
  · exact nth_upto (messageTypes_rep _) i
  · exact nth_flat (everything_rep _ _) i
  · exact nth_upto (enumValues_rep _) i
  · exact nth_upto (enumEnums_rep _) i
  · exact nth_flat (everything_rep _ _) i
  · exact nth_upto (oneofBranches_rep _) i
  · exact nth_upto (serviceMethods_rep _) i
  · exact nth_flat (everything_rep _ _) i
  · exact nth_upto' (methodOptions_rep _) i
  · exact Rep.bind (options_rep _) fun s1 s2 h => nth_upto' h i
  · exact Rep.pure .none

theorem Same.fileType (p n) : Same (File.type p n) := by unfold File.type; same
theorem Same.messageType (p n) : Same (Message.type p n) := by unfold Message.type; same

theorem named_rep (q : NamedQ) (n : Node) (s : Str) : Rep UptoO (q.run n s) (q.run n s) := by
  have h : ∀ {m : M (Option Node)}, Same m → Rep UptoO m m := Rep.ofSame UptoO.refl
  unfold NamedQ.run
  split
  · exact h (Same.firstKid _ _ _)
  · exact h (Same.firstKid _ _ _)
  · exact h (Same.fileType _ _)
  · exact h (Same.firstKid _ _ _)
  · exact h (Same.firstKid _ _ _)
  · exact h (Same.firstKid _ _ _)
  · exact h (Same.messageType _ _)
  · exact h (Same.firstKid _ _ _)
  · exact h (Same.firstKid _ _ _)
  · exact h (Same.firstKid _ _ _)
  · exact h (Same.firstKid _ _ _)
  · exact optionNamed_rep _ _
  · exact Rep.pure .none

macro_rules | `(tactic| same_lemma) => `(tactic| with_reducible exact Same.fieldType _ _)
macro_rules | `(tactic| same_lemma) => `(tactic| with_reducible exact Same.branchType _)
macro_rules | `(tactic| same_lemma) => `(tactic| with_reducible exact Same.methodInput _)
macro_rules | `(tactic| same_lemma) => `(tactic| with_reducible exact Same.methodOutput _)

/-- Unfold the small accessors. -/
macro "small" : tactic => `(tactic| (
  try unfold Message.name
  try unfold Enum.name
  try unfold EnumValue.name
  try unfold MessageField.name
  try unfold OneOfBranch.name
  try unfold Service.name
  try unfold Method.name
  try unfold File.package
  try unfold Package.package
  try unfold Message.isExtension
  try unfold MessageField.value
  try unfold EnumValue.value
  try unfold OneOfBranch.value
  try unfold MessageField.optional
  try unfold Import.path
  try unfold Syntax.value))

theorem reservedValues_rep (p) : Rep (Steps Eq) (Reserved.values p) (Reserved.values p) := by
  unfold Reserved.values
  refine Rep.read (by fronts) fun r => ?_
  split
  · exact Rep.pure ((AllRel.of_eq (fun _ => Same.pure _) _).append (AllRel.of_eq (fun _ => Same.pure _) _))
  · exact Rep.panic

theorem Same.plainRun (q : PlainQ) (n : Node) : Same (q.run n) := by
  unfold PlainQ.run
  split
  all_goals small
  all_goals try (same; done)
  exact Rep.bind (reservedValues_rep _) fun _ _ _ => Rep.pure rfl

theorem query_rep (q : Query) (n : Node) : Rep Uptos (q.run n) (q.run n) := by
  unfold Query.run
  split
  · exact Rep.bind (iter_rep _ _ _) fun x y h => Rep.pure h.toList
  · exact Rep.bind (named_rep _ _ _) fun x y h => Rep.pure h.toList
  · exact Rep.ofSame Uptos.refl (Same.plainRun _ _)

theorem Same.attr (a : Attr) (n : Node) : Same (a.read n) := by
  unfold Attr.read
  split
  all_goals small
  all_goals try (same; done)
  refine Rep.bind (reservedValues_rep _) fun l1 l2 h => ?_
  exact Rep.bind (Same.collectSteps h) fun x y e => by subst e; exact Rep.pure rfl
macro_rules | `(tactic| same_lemma) => `(tactic| with_reducible exact Same.attr _ _)
macro_rules | `(tactic| same_lemma) => `(tactic| with_reducible exact Same.plainRun _ _)

theorem Same.plainAnswer (q : PlainQ) (n : Node) : Same (q.answer n) := by
  unfold PlainQ.answer
  split <;> same

theorem Same.answer (q : Query) (n : Node) : Same (q.answer n) := by
  unfold Query.answer
  split
  · exact Rep.bind (iter_rep _ _ _) fun _ _ _ => Rep.pure rfl
  · exact Rep.bind (named_rep _ _ _) fun _ _ _ => Rep.pure rfl
  · exact Same.plainAnswer _ _

/-! ### The answer of a call and its effect -/

/-- Whether a computation returns, and the state it ends in. -/
def sig {α : Type} (x : Res α × Reg) : Res Unit × Reg :=
  (match x.1 with | .ok _ => .ok () | .panic e => .panic e | .timeout => .timeout, x.2)

theorem bind_pure_sig {α β : Type} (m : M α) (f : α → β) (r : Reg) :
    sig ((m >>= fun x => (Pure.pure (f x) : M β)) r) = sig (m r) := by
  simp only [M.bind_apply]
  rcases m r with ⟨res, r'⟩
  cases res <;> rfl

theorem bind_pure_state {α β : Type} (m : M α) (f : α → β) (r : Reg) :
    ((m >>= fun x => (Pure.pure (f x) : M β)) r).2 = (m r).2 := congrArg Prod.snd (bind_pure_sig m f r)

end Protoast.Again
