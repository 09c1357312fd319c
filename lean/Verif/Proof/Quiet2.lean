import Verif.Proof.Quiet1
import Verif.Spec.Answer
import Verif.Proof.Rename2
/-
  Registries that differ only in what was asked of them, continued: every API function does corresponding things.
-/
namespace Protoast.Quiet

section
variable {fl : Bool} {m : Match}

/-! ### Loops over children -/

/-- Corresponding steps. -/
def SeqR {α : Type} (fl : Bool) (R : Match → α → α → Prop) (m : Match) : List (M α) → List (M α) → Prop :=
  AllRel (Eqv fl m R)

theorem SeqR.le {α : Type} {R : Match → α → α → Prop} {m m' : Match} {l1 l2} (h : SeqR fl R m l1 l2) (hl : m.le m') :
    SeqR fl R m' l1 l2 := by
  induction h with
  | nil => exact .nil
  | cons h _ ih => exact .cons (h.le hl) ih

theorem Eqv.overKids {α : Type} {R : Match → α → α → Prop} (p : Ptr) {pick : Ptr → Kind → Option (M α)}
    (h : ∀ m', m.le m' → ∀ q k s, pick q k = some s → Eqv fl m' R s s) :
    Eqv fl m (SeqR fl R) (Protoast.overKids p pick) (Protoast.overKids p pick) := by
  refine Eqv.read (fun r1 r2 hf => by rw [hf.kids]) fun m1 hm1 r => Eqv.pure fun m2 hm2 => ?_
  generalize r.kids p = l
  induction l with
  | nil => exact AllRel.nil
  | cons qe l ih =>
    simp only [List.filterMap_cons]
    cases e : pick qe.1 qe.2.kind with
    | none => exact ih
    | some s => exact AllRel.cons (h m2 (Match.le_trans hm1 hm2) _ _ _ e) ih

/-- The element of an iteration, if there is one. -/
def NthR {α : Type} (R : Match → α → α → Prop) (m : Match) (o1 o2 : Option α) : Prop :=
  (o1 = none ∧ o2 = none) ∨ ∃ a b, o1 = some a ∧ o2 = some b ∧ R m a b

theorem Eqv.nth {α : Type} {R : Match → α → α → Prop} (hR : ∀ m m' a b, m.le m' → R m a b → R m' a b)
    {q1 q2 : Seq α} (h : Eqv fl m (SeqR fl R) q1 q2) (i : Nat) :
    Eqv fl m (NthR R) (q1.nth i) (q2.nth i) := by
  refine Eqv.bind h fun m1 hm1 l1 l2 hl => ?_
  rcases AllRel.get hl i with ⟨e1, e2⟩ | ⟨s1, s2, e1, e2, hm⟩
  · simp only [e1, e2]; exact Eqv.pure fun _ _ => (.inl ⟨rfl, rfl⟩)
  · simp only [e1, e2]
    exact Eqv.bind hm fun m2 _ a b hab => Eqv.pure fun m3 hm3 => .inr ⟨a, b, rfl, rfl, hR _ _ _ _ hm3 hab⟩

theorem Eqv.nthNode {q1 q2 : Seq Node} (h : Eqv fl m (SeqR fl NRel) q1 q2) (i : Nat) :
    Eqv fl m ORel (q1.nth i) (q2.nth i) :=
  (Eqv.nth (fun _ _ _ _ hl h => h.mono hl) h i).mono fun _ o1 o2 _ h => by
    rcases h with ⟨rfl, rfl⟩ | ⟨a, b, rfl, rfl, h⟩
    · exact .none
    · exact .some h

theorem Eqv.nthOpt {q1 q2 : Seq (Option Node)} (h : Eqv fl m (SeqR fl ORel) q1 q2) (i : Nat) :
    Eqv fl m ORel (q1.nth i >>= fun x => Pure.pure (flatOpt x)) (q2.nth i >>= fun x => Pure.pure (flatOpt x)) :=
  Eqv.bind (Eqv.nth (fun _ _ _ _ hl h => h.mono hl) h i) fun m1 _ o1 o2 h => by
    rcases h with ⟨rfl, rfl⟩ | ⟨a, b, rfl, rfl, h⟩
    · exact Eqv.pureNone
    · exact Eqv.pure fun m2 hm2 => h.mono hm2

/-- `firstKid` returns a node of the kind asked for. -/
theorem firstKid_eqv (p : Ptr) (k : WKind) (sel : Kind → Bool) :
    Eqv fl m (fun m' o1 o2 => (o1 = none ∧ o2 = none) ∨ ∃ a b q, o1 = some (.wrapped a k q) ∧
      o2 = some (.wrapped b k q) ∧ m' a b) (Protoast.firstKid p k sel) (Protoast.firstKid p k sel) := by
  refine Eqv.read (fun r1 r2 hf => by simp only [hf.kids]) fun m1 hm1 r => ?_
  split
  · refine Eqv.bind (Eqv.wrapAs k _) ?_
    rintro m2 _ _ _ ⟨a, b, q, rfl, rfl, h⟩
    exact Eqv.pure fun m3 hm3 => .inr ⟨a, b, q, rfl, rfl, hm3 _ _ h⟩
  · exact Eqv.pure fun _ _ => .inl ⟨rfl, rfl⟩

theorem Eqv.firstKid (p : Ptr) (k : WKind) (sel : Kind → Bool) :
    Eqv fl m ORel (Protoast.firstKid p k sel) (Protoast.firstKid p k sel) :=
  (firstKid_eqv p k sel).mono fun m' o1 o2 _ h => by
    rcases h with ⟨rfl, rfl⟩ | ⟨a, b, q, rfl, rfl, h⟩
    · exact .none
    · exact .some (.wrapped h)

/-- Solve the side goal of `Eqv.overKids` for iterators over declarations. -/
local macro "picks" : tactic => `(tactic| (
  intro m' _ q k s hs
  cases k <;> first
    | (cases hs; done)
    | (cases hs; exact wrapAs_nd _ q)
    | (cases hs; exact Eqv.wrapNamed q)
    | (rename_i n b
       cases b <;> first
        | (cases hs; done)
        | (cases hs; exact wrapAs_nd _ q)
        | (cases hs; exact Eqv.wrapNamed q))))

theorem fileImports_eqv (p : Ptr) : Eqv fl m (SeqR fl NRel) (File.imports p) (File.imports p) :=
  Eqv.overKids p (by picks)
theorem fileMessages_eqv (p : Ptr) : Eqv fl m (SeqR fl NRel) (File.messages p) (File.messages p) :=
  Eqv.overKids p (by picks)
theorem fileEnums_eqv (p : Ptr) : Eqv fl m (SeqR fl NRel) (File.enums p) (File.enums p) :=
  Eqv.overKids p (by picks)
theorem fileTypes_eqv (p : Ptr) : Eqv fl m (SeqR fl NRel) (File.types p) (File.types p) :=
  Eqv.overKids p (by picks)
theorem fileServices_eqv (p : Ptr) : Eqv fl m (SeqR fl NRel) (File.services p) (File.services p) :=
  Eqv.overKids p (by picks)
theorem messageFields_eqv (p : Ptr) : Eqv fl m (SeqR fl NRel) (Message.fields p) (Message.fields p) :=
  Eqv.overKids p (by picks)
theorem messageMessages_eqv (p : Ptr) : Eqv fl m (SeqR fl NRel) (Message.messages p) (Message.messages p) :=
  Eqv.overKids p (by picks)
theorem messageTypes_eqv (p : Ptr) : Eqv fl m (SeqR fl NRel) (Message.types p) (Message.types p) :=
  Eqv.overKids p (by picks)
theorem enumEnums_eqv (p : Ptr) : Eqv fl m (SeqR fl NRel) (Enum.enums p) (Enum.enums p) :=
  Eqv.overKids p (by picks)
theorem enumValues_eqv (p : Ptr) : Eqv fl m (SeqR fl NRel) (Enum.values p) (Enum.values p) :=
  Eqv.overKids p (by picks)
theorem oneofBranches_eqv (p : Ptr) : Eqv fl m (SeqR fl NRel) (OneOf.branches p) (OneOf.branches p) :=
  Eqv.overKids p (by picks)
theorem serviceMethods_eqv (p : Ptr) : Eqv fl m (SeqR fl NRel) (Service.methods p) (Service.methods p) :=
  Eqv.overKids p (by picks)

theorem fileType_eqv (p : Ptr) (name : Str) : Eqv fl m ORel (File.type p name) (File.type p name) := by
  refine Eqv.read (fun r1 r2 hf => by simp only [hf.kids]) fun m1 hm1 r => ?_
  split
  · split <;> exact Eqv.someOf (wrapAs_nd _ _)
  · exact Eqv.pureNone

theorem messageType_eqv (p : Ptr) (name : Str) : Eqv fl m ORel (Message.type p name) (Message.type p name) := by
  refine Eqv.read (fun r1 r2 hf => by simp only [hf.kids]) fun m1 hm1 r => ?_
  split
  · split <;> exact Eqv.someOf (wrapAs_nd _ _)
  · exact Eqv.pureNone

/-! ### Reads -/

/-- Equality of results. -/
abbrev EqR {α : Type} (_ : Match) (a b : α) : Prop := a = b

/-- Solve goals about functions that only read. -/
local macro "reads" : tactic => `(tactic| (
  refine Eqv.read (fun r1 r2 hf => by simp only [hf.kind, hf.heap, hf.children, hf.elem]) fun m1 hm1 r => ?_
  first
  | exact Eqv.pure fun _ _ => rfl
  | (split <;> first | exact Eqv.pure fun _ _ => rfl | exact Eqv.panic)))

theorem fileName_eqv (p : Ptr) : Eqv fl m EqR (File.name p) (File.name p) := by reads
theorem filePackage_eqv (p : Ptr) : Eqv fl m EqR (File.package p) (File.package p) := by reads
theorem messageName_eqv (p : Ptr) : Eqv fl m EqR (Message.name p) (Message.name p) := by reads
theorem messageIsExtension_eqv (p : Ptr) : Eqv fl m EqR (Message.isExtension p) (Message.isExtension p) := by reads
theorem fieldName_eqv (p : Ptr) : Eqv fl m EqR (MessageField.name p) (MessageField.name p) := by reads
theorem fieldValue_eqv (p : Ptr) : Eqv fl m EqR (MessageField.value p) (MessageField.value p) := by reads
theorem fieldOptional_eqv (p : Ptr) : Eqv fl m EqR (MessageField.optional p) (MessageField.optional p) := by reads
theorem enumName_eqv (p : Ptr) : Eqv fl m EqR (Enum.name p) (Enum.name p) := by reads
theorem enumValueName_eqv (p : Ptr) : Eqv fl m EqR (EnumValue.name p) (EnumValue.name p) := by reads
theorem enumValueValue_eqv (p : Ptr) : Eqv fl m EqR (EnumValue.value p) (EnumValue.value p) := by reads
theorem branchName_eqv (p : Ptr) : Eqv fl m EqR (OneOfBranch.name p) (OneOfBranch.name p) := by reads
theorem branchValue_eqv (p : Ptr) : Eqv fl m EqR (OneOfBranch.value p) (OneOfBranch.value p) := by reads
theorem serviceName_eqv (p : Ptr) : Eqv fl m EqR (Service.name p) (Service.name p) := by reads
theorem methodName_eqv (p : Ptr) : Eqv fl m EqR (Method.name p) (Method.name p) := by reads
theorem importPath_eqv (p : Ptr) : Eqv fl m EqR (Import.path p) (Import.path p) := by reads
theorem syntaxValue_eqv (p : Ptr) : Eqv fl m EqR (Syntax.value p) (Syntax.value p) := by reads
theorem packagePackage_eqv (p : Ptr) : Eqv fl m EqR (Package.package p) (Package.package p) := by reads
theorem elemPos_eqv (p : Ptr) : Eqv fl m EqR (elemPos p) (elemPos p) := by reads
theorem filePos_eqv (p : Ptr) : Eqv fl m EqR (filePos p) (filePos p) := by reads

theorem reservedValues_eqv (p : Ptr) : Eqv fl m (SeqR fl EqR) (Reserved.values p) (Reserved.values p) := by
  refine Eqv.read (fun r1 r2 hf => by simp only [hf.kind]) fun m1 hm1 r => ?_
  split
  · exact Eqv.pure fun m2 _ => (AllRel.of_eq (fun _ => Eqv.pure fun _ _ => rfl) _).append
      (AllRel.of_eq (fun _ => Eqv.pure fun _ _ => rfl) _)
  · exact Eqv.panic

theorem collectSteps_eqv {α : Type} {l1 l2 : List (M α)} (h : SeqR fl EqR m l1 l2) :
    Eqv fl m EqR (collectSteps l1) (collectSteps l2) := by
  induction h with
  | nil => exact Eqv.pure fun _ _ => rfl
  | cons h _ ih =>
    refine Eqv.bind h ?_
    rintro m1 hm1 a _ rfl
    refine Eqv.bind (ih.le hm1) ?_
    rintro m2 _ as _ rfl
    exact Eqv.pure fun _ _ => rfl

theorem runSteps_eqv {α σ : Type} {R : Match → α → α → Prop} {b1 b2 : σ → α → M (σ × Bool)}
    (hb : ∀ m st x y, R m x y → Eqv fl m EqR (b1 st x) (b2 st y)) {l1 l2 : List (M α)} (h : SeqR fl R m l1 l2) :
    ∀ st, Eqv fl m EqR (runSteps b1 l1 st) (runSteps b2 l2 st) := by
  induction h with
  | nil => intro st; exact Eqv.pure fun _ _ => rfl
  | cons h _ ih =>
    intro st
    refine Eqv.bind h fun m1 hm1 a b hab => ?_
    refine Eqv.bind (hb m1 st a b hab) ?_
    rintro m2 hm2 ⟨st', go⟩ _ rfl
    cases go
    · exact Eqv.pure fun _ _ => rfl
    · exact (ih st').le (Match.le_trans hm1 hm2)

/-! ### Types -/

theorem isType_rel {n1 n2 : Node} (h : NRel m n1 n2) : n1.isType = n2.isType := by
  cases h with
  | @wrapped a b k p _ => cases k <;> rfl
  | _ => rfl

theorem lookupType_eqv (p : Ptr) (name : Str) : Eqv fl m ORel (lookupType p name) (lookupType p name) := by
  unfold lookupType
  split
  · exact Eqv.pure fun _ _ => .some .builtin
  · refine Eqv.read (fun r1 r2 hf => by simp only [hf.defined, hf.scope, hf.names]) fun m1 hm1 r => ?_
    split
    · exact Eqv.pureNone
    · split
      · exact Eqv.pureNone
      · refine Eqv.bind (Eqv.wrapO _) ?_
        intro m2 _ o1 o2 h
        cases h with
        | none => exact Eqv.panic
        | some h =>
          simp only [isType_rel h]
          split
          · exact Eqv.pure fun m3 hm3 => .some (h.mono hm3)
          · exact Eqv.panic

theorem getTypeByName_eqv (p : Ptr) (name : Str) : Eqv fl m ORel (getTypeByName p name) (getTypeByName p name) := by
  refine Eqv.bind (lookupType_eqv p name) ?_
  intro m1 _ o1 o2 h
  refine Eqv.get fun m2 hm2 r1 r2 hs => ?_
  rw [hs.front.isRepeatedField]
  split
  · refine Eqv.bind Eqv.alloc ?_
    intro m3 hm3 a b hab
    refine Eqv.pure fun m4 hm4 => ?_
    cases h with
    | none => exact .some (.repeatedNil (hm4 _ _ hab))
    | some h => exact .some (.repeated (hm4 _ _ hab) (h.mono (Match.le_trans hm2 (Match.le_trans hm3 hm4))))
  · exact Eqv.pure fun m3 hm3 => h.mono (Match.le_trans hm2 hm3)

theorem nodeByFullName_eqv (name : Str) : Eqv fl m ORel (nodeByFullName name) (nodeByFullName name) := by
  refine Eqv.read (fun r1 r2 hf => by simp only [hf.names]) fun m1 hm1 r => ?_
  split <;> exact Eqv.wrapO _

theorem fieldTypeBody_eqv (p : Ptr) : Eqv fl m ORel (fieldTypeBody p) (fieldTypeBody p) := by
  refine Eqv.read (fun r1 r2 hf => by simp only [hf.kind]) fun m1 hm1 r => ?_
  split
  · exact getTypeByName_eqv p _
  · exact Eqv.bind Eqv.alloc fun m2 _ a b hab => Eqv.pure fun m3 hm3 => .some (.oneof (hm3 _ _ hab))
  · exact Eqv.bind Eqv.alloc fun m2 _ a b hab => Eqv.pure fun m3 hm3 => .some (.map (hm3 _ _ hab))
  · exact Eqv.panic

theorem branchType_eqv (p : Ptr) : Eqv fl m ORel (OneOfBranch.type p) (OneOfBranch.type p) := by
  refine Eqv.read (fun r1 r2 hf => by simp only [hf.kind]) fun m1 hm1 r => ?_
  split
  · exact getTypeByName_eqv p _
  · exact Eqv.panic

/-- A flag with a node. -/
def FlagR (m : Match) (x y : Bool × Node) : Prop := x.1 = y.1 ∧ NRel m x.2 y.2

theorem methodInput_eqv (p : Ptr) : Eqv fl m FlagR (Method.input p) (Method.input p) := by
  refine Eqv.read (fun r1 r2 hf => by simp only [hf.kind]) fun m1 hm1 r => ?_
  split
  · refine Eqv.bind (getTypeByName_eqv p _) fun _ _ _ _ h => ?_
    exact Eqv.bind (Eqv.assertKind _ h) fun _ _ _ _ h => Eqv.pure fun _ hm => ⟨rfl, h.nd.mono hm⟩
  · exact Eqv.panic

theorem methodOutput_eqv (p : Ptr) : Eqv fl m FlagR (Method.output p) (Method.output p) := by
  refine Eqv.read (fun r1 r2 hf => by simp only [hf.kind]) fun m1 hm1 r => ?_
  split
  · refine Eqv.bind (getTypeByName_eqv p _) fun _ _ _ _ h => ?_
    exact Eqv.bind (Eqv.assertKind _ h) fun _ _ _ _ h => Eqv.pure fun _ hm => ⟨rfl, h.nd.mono hm⟩
  · exact Eqv.panic

theorem mapKey_eqv (p : Ptr) : Eqv fl m (fun m' n1 n2 => NRel m' n1 n2 ∧ ∃ b, n1 = .builtin b) (Map.key p) (Map.key p) := by
  refine Eqv.read (fun r1 r2 hf => by simp only [hf.kind]) fun m1 hm1 r => ?_
  split
  · split
    · exact Eqv.pure fun _ _ => ⟨.builtin, _, rfl⟩
    · exact Eqv.panic
  · exact Eqv.panic

theorem mapValue_eqv (p : Ptr) : Eqv fl m NRel (Map.value p) (Map.value p) := by
  refine Eqv.read (fun r1 r2 hf => by simp only [hf.kind, hf.names]) fun m1 hm1 r => ?_
  split
  · split
    · exact Eqv.pure fun _ _ => .builtin
    · split
      · exact Eqv.panic
      · split
        · exact wrapAs_nd _ _
        · exact wrapAs_nd _ _
        · exact Eqv.panic
  · exact Eqv.panic

/-! ### Options -/

theorem optionClass_eqv (cls : Str) : Eqv fl m EqR (optionClass cls) (optionClass cls) := by
  refine Eqv.read (fun r1 r2 hf => by simp only [hf.kind, hf.names]) fun m1 hm1 r => ?_
  split
  · split
    · exact Eqv.pure fun _ _ => rfl
    · exact Eqv.panic
  · exact Eqv.panic

theorem newOption_eqv (scope : Str) (cls opt : Ptr) :
    Eqv fl m NRel (newOption scope cls opt) (newOption scope cls opt) := by
  refine Eqv.read (fun r1 r2 hf => by simp only [hf.kind, hf.names, hf.defined, builtinOptionField, hf.kids])
    fun m1 hm1 r => ?_
  split
  · split
    · split
      · split
        · exact Eqv.bind Eqv.alloc fun _ _ a b hab => Eqv.pure fun _ hm => .option (hm _ _ hab)
        · exact Eqv.panic
      · exact Eqv.panic
    · split
      · exact Eqv.bind Eqv.alloc fun _ _ a b hab => Eqv.pure fun _ hm => .option (hm _ _ hab)
      · exact Eqv.panic
  · exact Eqv.panic

theorem wrapOption_eqv (cls opt : Ptr) : Eqv fl m NRel (wrapOption opt cls) (wrapOption opt cls) :=
  Eqv.read (fun r1 r2 hf => by rw [hf.scope]) fun m1 hm1 r => newOption_eqv _ _ _

theorem everything_eqv (p : Ptr) (cls : Str) :
    Eqv fl m (SeqR fl ORel) (overKids p (everythingStep cls)) (overKids p (everythingStep cls)) := by
  refine Eqv.overKids p ?_
  intro m' hm q k s hs
  cases k <;> first
    | (cases hs; exact Eqv.wrapO _)
    | skip
  cases hs
  refine Eqv.bind (optionClass_eqv cls) ?_
  rintro m1 _ c _ rfl
  exact Eqv.someOf (wrapOption_eqv _ _)

theorem methodOptions_eqv (p : Ptr) : Eqv fl m (SeqR fl NRel) (Method.options p) (Method.options p) := by
  refine Eqv.overKids p ?_
  intro m' hm q k s hs
  cases k <;> first
    | (cases hs; done)
    | skip
  cases hs
  refine Eqv.bind (optionClass_eqv _) ?_
  rintro m1 _ c _ rfl
  exact wrapOption_eqv _ _

/-- Corresponding iterators. -/
def SR (fl : Bool) (m : Match) (s1 s2 : Seq Node) : Prop := Eqv fl m (SeqR fl NRel) s1 s2

theorem seqOptions_eqv (scope cls : Str) (p : Ptr) :
    Eqv fl m (SR fl) (seqOptions scope cls p) (seqOptions scope cls p) := by
  refine Eqv.bind (optionClass_eqv cls) ?_
  rintro m1 _ c _ rfl
  refine Eqv.pure fun m2 _ => ?_
  refine Eqv.overKids p ?_
  intro m' hm q k s hs
  cases k <;> first
    | (cases hs; done)
    | (cases hs; exact newOption_eqv _ _ _)

theorem namedOption_eqv (name scope cls : Str) (p : Ptr) :
    Eqv fl m ORel (namedOption name scope cls p) (namedOption name scope cls p) := by
  refine Eqv.bind (optionClass_eqv cls) ?_
  rintro m1 _ c _ rfl
  refine Eqv.read (fun r1 r2 hf => by simp only [hf.kids]) fun m1 hm1 r => ?_
  split
  · exact Eqv.someOf (newOption_eqv _ _ _)
  · exact Eqv.pureNone

theorem options_eqv {n1 n2 : Node} (h : NRel m n1 n2) : Eqv fl m (SR fl) (options n1) (options n2) := by
  cases h with
  | @wrapped a b k p _ =>
    refine Eqv.read (f := fun r => _) (fun r1 r2 hf => by simp only [hf.kind, hf.scope, hf.children]) fun m1 hm1 r => ?_
    cases k <;> simp only <;> first
      | exact Eqv.panic
      | exact seqOptions_eqv _ _ _
      | (split <;> first
          | exact Eqv.panic
          | exact seqOptions_eqv _ _ _)
  | oneof _ =>
    exact Eqv.read (f := fun r => _) (fun r1 r2 hf => by simp only [hf.scope]) fun m1 hm1 r => seqOptions_eqv _ _ _
  | _ => exact Eqv.panic

theorem optionNamed_eqv {n1 n2 : Node} (h : NRel m n1 n2) (name : Str) :
    Eqv fl m ORel (optionNamed n1 name) (optionNamed n2 name) := by
  cases h with
  | @wrapped a b k p _ =>
    refine Eqv.read (f := fun r => _) (fun r1 r2 hf => by simp only [hf.kind, hf.scope, hf.children]) fun m1 hm1 r => ?_
    cases k <;> simp only <;> first
      | exact Eqv.panic
      | exact namedOption_eqv _ _ _ _
      | (split <;> first
          | exact Eqv.panic
          | exact namedOption_eqv _ _ _ _)
  | oneof _ =>
    exact Eqv.read (f := fun r => _) (fun r1 r2 hf => by simp only [hf.scope]) fun m1 hm1 r => namedOption_eqv _ _ _ _
  | _ => exact Eqv.panic

theorem optionName_eqv (o c f : Ptr) : Eqv fl m EqR (Option.name o c f) (Option.name o c f) := by
  refine Eqv.read (fun r1 r2 hf => by simp only [hf.kind, hf.scope]) fun m1 hm1 r => ?_
  split
  · split <;> first | exact Eqv.pure fun _ _ => rfl | exact Eqv.panic
  · split <;> first | exact Eqv.pure fun _ _ => rfl | exact Eqv.panic

/-! ### Values -/

mutual
theorem build_eqv (F : FloatOps) (o : Option Ptr) (ign : Bool) : (l : Literal) → (field : Ptr) → (m : Match) →
    Eqv fl m VRel (buildFromLiteral F o field ign l) (buildFromLiteral F o field ign l)
  | .mk pos source array orderedMap, field, m => by
    unfold buildFromLiteral
    refine Eqv.read (fun r1 r2 hf => by simp only [hf.kind]) fun m1 hm1 r => ?_
    split
    · split
      · exact Eqv.bind (buildArray_eqv F array field m1) fun m2 hm2 _ _ h => Eqv.pure fun _ hm => .array (h.mono hm)
      · split
        · split
          · exact Eqv.pure fun _ _ => .bool
          · exact Eqv.panic
        · split
          · exact Eqv.pure fun _ _ => .int
          · exact Eqv.panic
        · split
          · exact Eqv.pure fun _ _ => .uint
          · exact Eqv.panic
        · split
          · exact Eqv.pure fun _ _ => .float
          · exact Eqv.panic
        · exact Eqv.pure fun _ _ => .string
        · exact Eqv.pure fun _ _ => .bytes
        · refine Eqv.bind (getTypeByName_eqv field _) ?_
          intro m2 hm2 o1 o2 h
          cases h with
          | none => exact Eqv.panic
          | some h =>
            cases h with
            | @wrapped a b k p _ =>
              cases k <;> first | exact Eqv.panic | skip
              · exact Eqv.bind (buildItems_eqv F orderedMap p m2) fun m3 hm3 _ _ h =>
                  Eqv.pure fun _ hm => .map (h.mono hm)
              · refine Eqv.bind (firstKid_eqv p .enumValue _) ?_
                rintro m3 hm3 o1 o2 (⟨rfl, rfl⟩ | ⟨a, b, q, rfl, rfl, hq⟩)
                · exact Eqv.panic
                · exact Eqv.pure fun _ hm => .enum (hm _ _ hq)
            | _ => exact Eqv.panic
    · exact Eqv.panic
theorem buildArray_eqv (F : FloatOps) : (ls : List Literal) → (field : Ptr) → (m : Match) →
    Eqv fl m VRels (buildArray F field ls) (buildArray F field ls)
  | [], field, m => Eqv.pure fun _ _ => .nil
  | l :: ls, field, m => by
    unfold buildArray
    refine Eqv.bind (build_eqv F none true l field m) fun m1 hm1 v w hv => ?_
    refine Eqv.bind (buildArray_eqv F ls field m1) fun m2 hm2 vs ws hvs => ?_
    exact Eqv.pure fun m3 hm3 => .cons (hv.mono (Match.le_trans hm2 hm3)) (hvs.mono hm3)
theorem buildItems_eqv (F : FloatOps) : (ls : List (Str × Literal)) → (msg : Ptr) → (m : Match) →
    Eqv fl m VItems (buildItems F msg ls) (buildItems F msg ls)
  | [], msg, m => Eqv.pure fun _ _ => .nil
  | l :: ls, msg, m => by
    unfold buildItems
    refine Eqv.bind (buildItem_eqv F l msg m) ?_
    rintro m1 hm1 ⟨k, v⟩ ⟨k', w⟩ ⟨rfl, hv⟩
    refine Eqv.bind (buildItems_eqv F ls msg m1) fun m2 hm2 vs ws hvs => ?_
    exact Eqv.pure fun m3 hm3 => .cons (hv.mono (Match.le_trans hm2 hm3)) (hvs.mono hm3)
theorem buildItem_eqv (F : FloatOps) : (nl : Str × Literal) → (msg : Ptr) → (m : Match) →
    Eqv fl m (fun m x y => x.1 = y.1 ∧ VRel m x.2 y.2) (buildItem F msg nl) (buildItem F msg nl)
  | (name, lit), msg, m => by
    unfold buildItem
    refine Eqv.bind (firstKid_eqv msg .messageField _) ?_
    rintro m1 hm1 o1 o2 (⟨rfl, rfl⟩ | ⟨a, b, q, rfl, rfl, hq⟩)
    · exact Eqv.panic
    · refine Eqv.read (fun r1 r2 hf => by simp only [hf.kind]) fun m2 hm2 r => ?_
      split
      · exact Eqv.bind (build_eqv F none false lit q m2) fun m3 hm3 v w hv => Eqv.pure fun _ hm => ⟨rfl, hv.mono hm⟩
      · exact Eqv.panic
end

theorem optionValue_eqv (F : FloatOps) (o f : Ptr) : Eqv fl m VRel (Option.value F o f) (Option.value F o f) := by
  refine Eqv.read (fun r1 r2 hf => by simp only [hf.kind]) fun m1 hm1 r => ?_
  split
  · exact build_eqv F (some o) false _ f m1
  · exact Eqv.panic

theorem opt_rel {v w : OptVal} (h : VRel m v w) : w.opt = v.opt := by cases h <;> rfl

theorem vals_parts : {vs ws : List OptVal} → VRels m vs ws → LRel m (vs.map .value) (ws.map .value)
  | _, _, .nil => .nil
  | _, _, .cons h hs => .cons (.value h) (vals_parts hs)

theorem items_parts : {vs ws : List (Str × OptVal)} → VItems m vs ws →
    LRel m (vs.map fun kv => .mapItem kv.1 kv.2) (ws.map fun kv => .mapItem kv.1 kv.2)
  | _, _, .nil => .nil
  | _, _, .cons h hs => .cons (.mapItem h) (items_parts hs)

theorem parts_rel {v w : OptVal} (h : VRel m v w) : LRel m v.parts w.parts := by
  cases h with
  | enum h => exact .cons (.wrapped h) .nil
  | array h => exact vals_parts h
  | map h => exact items_parts h
  | _ => exact .nil

mutual
theorem toStr_rel (F : FloatOps) {r1 r2 : Reg} (hf : Front r1 r2) : {v w : OptVal} → VRel m v w →
    w.toStr F r2 = v.toStr F r1
  | _, _, .bool => by simp only [OptVal.toStr]
  | _, _, .int => by simp only [OptVal.toStr]
  | _, _, .uint => by simp only [OptVal.toStr]
  | _, _, .float => by simp only [OptVal.toStr]
  | _, _, .string => by simp only [OptVal.toStr]
  | _, _, .bytes => by simp only [OptVal.toStr]
  | _, _, .enum _ => by simp only [OptVal.toStr, hf.kind]
  | _, _, .array h => by simp only [OptVal.toStr, toStrs_rel F hf h]
  | _, _, .map h => by simp only [OptVal.toStr, toStrItems_rel F hf h]
theorem toStrs_rel (F : FloatOps) {r1 r2 : Reg} (hf : Front r1 r2) : {v w : List OptVal} → VRels m v w →
    OptVal.toStrs F r2 w = OptVal.toStrs F r1 v
  | _, _, .nil => by simp only [OptVal.toStrs]
  | _, _, .cons h hs => by simp only [OptVal.toStrs, toStr_rel F hf h, toStrs_rel F hf hs]
theorem toStrItems_rel (F : FloatOps) {r1 r2 : Reg} (hf : Front r1 r2) : {v w : List (Str × OptVal)} → VItems m v w →
    OptVal.toStrItems F r2 w = OptVal.toStrItems F r1 v
  | _, _, .nil => by simp only [OptVal.toStrItems]
  | _, _, .cons h hs => by
    simp only [OptVal.toStrItems, OptVal.toStrItem, toStr_rel F hf h, toStrItems_rel F hf hs]
end

end

end Protoast.Quiet
