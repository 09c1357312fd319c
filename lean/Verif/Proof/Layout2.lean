import Verif.Proof.Layout1
/-
  Erasing the layout of files, continued: every API function does corresponding things.
-/
namespace Protoast.Layout

/-- Solve the side goal of `overKids_eqv` for iterators over declarations. -/
local macro "picks" : tactic => `(tactic| (
  intro q k
  cases k <;> first
    | exact .inl ⟨rfl, rfl⟩
    | exact .inr ⟨_, _, rfl, rfl, wrapAs_nd _ q⟩
    | exact .inr ⟨_, _, rfl, rfl, wrapNamed_eqv q⟩
    | (rename_i n b
       cases b <;> first
        | exact .inl ⟨rfl, rfl⟩
        | exact .inr ⟨_, _, rfl, rfl, wrapAs_nd _ q⟩
        | exact .inr ⟨_, _, rfl, rfl, wrapNamed_eqv q⟩)))

theorem fileImports_eqv (p : Ptr) : Eqv (AllRel (Eqv nd)) (File.imports p) (File.imports p) :=
  overKids_eqv p (by picks)
theorem fileMessages_eqv (p : Ptr) : Eqv (AllRel (Eqv nd)) (File.messages p) (File.messages p) :=
  overKids_eqv p (by picks)
theorem fileEnums_eqv (p : Ptr) : Eqv (AllRel (Eqv nd)) (File.enums p) (File.enums p) :=
  overKids_eqv p (by picks)
theorem fileTypes_eqv (p : Ptr) : Eqv (AllRel (Eqv nd)) (File.types p) (File.types p) :=
  overKids_eqv p (by picks)
theorem fileServices_eqv (p : Ptr) : Eqv (AllRel (Eqv nd)) (File.services p) (File.services p) :=
  overKids_eqv p (by picks)
theorem messageFields_eqv (p : Ptr) : Eqv (AllRel (Eqv nd)) (Message.fields p) (Message.fields p) :=
  overKids_eqv p (by picks)
theorem messageMessages_eqv (p : Ptr) : Eqv (AllRel (Eqv nd)) (Message.messages p) (Message.messages p) :=
  overKids_eqv p (by picks)
theorem messageTypes_eqv (p : Ptr) : Eqv (AllRel (Eqv nd)) (Message.types p) (Message.types p) :=
  overKids_eqv p (by picks)
theorem enumEnums_eqv (p : Ptr) : Eqv (AllRel (Eqv nd)) (Enum.enums p) (Enum.enums p) :=
  overKids_eqv p (by picks)
theorem enumValues_eqv (p : Ptr) : Eqv (AllRel (Eqv nd)) (Enum.values p) (Enum.values p) :=
  overKids_eqv p (by picks)
theorem oneofBranches_eqv (p : Ptr) : Eqv (AllRel (Eqv nd)) (OneOf.branches p) (OneOf.branches p) :=
  overKids_eqv p (by picks)
theorem serviceMethods_eqv (p : Ptr) : Eqv (AllRel (Eqv nd)) (Service.methods p) (Service.methods p) :=
  overKids_eqv p (by picks)

/-- A predicate on children that looks at the kind only, and not at option constants. -/
local macro "blind" : tactic => `(tactic| (
  intro q e
  cases e with | mk _ _ k _ => cases k <;> rfl))

theorem fileType_eqv (p : Ptr) (name : Str) : Eqv opt (File.type p name) (File.type p name) := by
  refine Eqv.get fun r1 r2 hs => ?_
  rw [hs.find p _ (by blind)]
  generalize (r1.kids p).find? _ = o
  cases o with
  | none => exact Eqv.pure opt_none
  | some qe =>
    simp only [Option.map_some, elem_kind]
    cases qe.2.kind <;> exact Eqv.someOf (wrapAs_nd _ qe.1)

theorem messageType_eqv (p : Ptr) (name : Str) : Eqv opt (Message.type p name) (Message.type p name) := by
  refine Eqv.get fun r1 r2 hs => ?_
  rw [hs.find p _ (by blind)]
  generalize (r1.kids p).find? _ = o
  cases o with
  | none => exact Eqv.pure opt_none
  | some qe =>
    simp only [Option.map_some, elem_kind]
    cases qe.2.kind <;> exact Eqv.someOf (wrapAs_nd _ qe.1)

/-! ### Reads -/

/-- Solve goals about functions that look at the kind of one element. -/
local macro "reads" p:term : tactic => `(tactic| (
  refine Eqv.get fun r1 r2 hs => ?_
  simp only [hs.kind]
  cases r1.kind $p with
  | none => exact Eqv.panic
  | some k => cases k <;> first | exact Eqv.pure rfl | exact Eqv.panic))

theorem fileName_eqv (p : Ptr) : EqvEq (File.name p) (File.name p) := by
  refine Eqv.get fun r1 r2 hs => ?_
  simp only [hs.heap]
  cases r1.heap[p.file]? with
  | none => exact Eqv.panic
  | some f => exact Eqv.pure rfl

theorem firstPackage_plain : ∀ es : List Elem, firstPackage (es.map Elem.shorn) = firstPackage es
  | [] => rfl
  | .mk _ _ k cs :: es => by
    have ih := firstPackage_plain es
    cases k <;> simp_all [firstPackage, Elem.shorn, Kind.shorn]

theorem Sim.firstPackage {r1 r2} (hs : Sim r1 r2) (p : Ptr) :
    Protoast.firstPackage ((r2.children p).getD []) = Protoast.firstPackage ((r1.children p).getD []) := by
  rw [hs.children]
  cases r1.children p with
  | none => rfl
  | some es => exact firstPackage_plain es

theorem filePackage_eqv (p : Ptr) : EqvEq (File.package p) (File.package p) := by
  refine Eqv.get fun r1 r2 hs => ?_
  rw [hs.firstPackage]
  exact Eqv.pure rfl
theorem messageName_eqv (p : Ptr) : EqvEq (Message.name p) (Message.name p) := by reads p
theorem messageIsExtension_eqv (p : Ptr) : EqvEq (Message.isExtension p) (Message.isExtension p) := by reads p
theorem fieldName_eqv (p : Ptr) : EqvEq (MessageField.name p) (MessageField.name p) := by reads p
theorem fieldValue_eqv (p : Ptr) : EqvEq (MessageField.value p) (MessageField.value p) := by reads p
theorem fieldOptional_eqv (p : Ptr) : EqvEq (MessageField.optional p) (MessageField.optional p) := by reads p
theorem enumName_eqv (p : Ptr) : EqvEq (Enum.name p) (Enum.name p) := by reads p
theorem enumValueName_eqv (p : Ptr) : EqvEq (EnumValue.name p) (EnumValue.name p) := by reads p
theorem enumValueValue_eqv (p : Ptr) : EqvEq (EnumValue.value p) (EnumValue.value p) := by reads p
theorem branchName_eqv (p : Ptr) : EqvEq (OneOfBranch.name p) (OneOfBranch.name p) := by reads p
theorem branchValue_eqv (p : Ptr) : EqvEq (OneOfBranch.value p) (OneOfBranch.value p) := by reads p
theorem serviceName_eqv (p : Ptr) : EqvEq (Service.name p) (Service.name p) := by reads p
theorem methodName_eqv (p : Ptr) : EqvEq (Method.name p) (Method.name p) := by reads p
theorem importPath_eqv (p : Ptr) : EqvEq (Import.path p) (Import.path p) := by reads p
theorem syntaxValue_eqv (p : Ptr) : EqvEq (Syntax.value p) (Syntax.value p) := by reads p
theorem packagePackage_eqv (p : Ptr) : EqvEq (Package.package p) (Package.package p) := by reads p

theorem AllRel.of_eq {α β : Type} {R : α → β → Prop} {γ : Type} {f : γ → α} {g : γ → β} (h : ∀ c, R (f c) (g c)) :
    ∀ l : List γ, AllRel R (l.map f) (l.map g)
  | [] => .nil
  | c :: l => .cons (h c) (AllRel.of_eq h l)

theorem AllRel.append {α β : Type} {R : α → β → Prop} {a1 b1 a2 b2} (h1 : AllRel R a1 b1) (h2 : AllRel R a2 b2) :
    AllRel R (a1 ++ a2) (b1 ++ b2) := by
  induction h1 with
  | nil => exact h2
  | cons h _ ih => exact .cons h ih

theorem reservedValues_eqv (p : Ptr) :
    Eqv (AllRel (Eqv (fun a b => a = b))) (Reserved.values p) (Reserved.values p) := by
  refine Eqv.get fun r1 r2 hs => ?_
  simp only [hs.kind]
  cases r1.kind p with
  | none => exact Eqv.panic
  | some k =>
    cases k <;> first
      | exact Eqv.panic
      | exact Eqv.pure ((AllRel.of_eq (fun _ => Eqv.pure rfl) _).append (AllRel.of_eq (fun _ => Eqv.pure rfl) _))

theorem collectSteps_eqv {α : Type} {l1 l2 : List (M α)} (h : AllRel EqvEq l1 l2) :
    EqvEq (collectSteps l1) (collectSteps l2) := by
  induction h with
  | nil => exact Eqv.pure rfl
  | cons h _ ih =>
    refine Eqv.bind h ?_
    rintro a _ rfl
    refine Eqv.bind ih ?_
    rintro as _ rfl
    exact Eqv.pure rfl

theorem runSteps_eqv {α σ : Type} {R : α → α → Prop} {b1 b2 : σ → α → M (σ × Bool)}
    (hb : ∀ st x y, R x y → EqvEq (b1 st x) (b2 st y)) {l1 l2 : List (M α)} (h : AllRel (Eqv R) l1 l2) :
    ∀ st, EqvEq (runSteps b1 l1 st) (runSteps b2 l2 st) := by
  induction h with
  | nil => intro st; exact Eqv.pure rfl
  | cons h _ ih =>
    intro st
    refine Eqv.bind h fun a b hab => ?_
    refine Eqv.bind (hb st a b hab) ?_
    rintro ⟨st', go⟩ _ rfl
    cases go
    · exact Eqv.pure rfl
    · exact ih st'

/-! ### Types -/

theorem isType_plain (n : Node) : n.shorn.isType = n.isType := by
  cases n with
  | wrapped a k p => cases k <;> rfl
  | «repeated» a t => cases t <;> rfl
  | _ => rfl

theorem lookupType_eqv (p : Ptr) (name : Str) : Eqv opt (lookupType p name) (lookupType p name) := by
  unfold lookupType
  split
  · exact Eqv.pure rfl
  · refine Eqv.get fun r1 r2 hs => ?_
    rw [hs.defined, hs.scope]
    split
    · exact Eqv.pure opt_none
    · rename_i resolved _
      rw [hs.names]
      cases r1.registry resolved with
      | none => exact Eqv.pure opt_none
      | some obj =>
        refine Eqv.bind (wrap_eqv (.at obj)) ?_
        rintro o1 _ rfl
        cases o1 with
        | none => exact Eqv.panic
        | some n =>
          simp only [Option.map_some, isType_plain]
          split
          · exact Eqv.pure rfl
          · exact Eqv.panic

theorem plain_repeated (a : Nat) (t : Option Node) :
    (Node.repeated a t).shorn = .repeated a (t.map Node.shorn) := by cases t <;> rfl

theorem getTypeByName_eqv (p : Ptr) (name : Str) : Eqv opt (getTypeByName p name) (getTypeByName p name) := by
  refine Eqv.bind (lookupType_eqv p name) ?_
  rintro o1 _ rfl
  refine Eqv.get fun r1 r2 hs => ?_
  rw [hs.isRepeatedField]
  split
  · refine Eqv.bind Eqv.alloc ?_
    rintro a _ rfl
    exact Eqv.pure (by simp [opt, plain_repeated])
  · exact Eqv.pure rfl

theorem nodeByFullName_eqv (name : Str) : Eqv opt (nodeByFullName name) (nodeByFullName name) := by
  refine Eqv.get fun r1 r2 hs => ?_
  rw [hs.names]
  cases r1.registry name with
  | none => exact wrap_eqv .nil
  | some p => exact wrap_eqv (.at p)

theorem fieldTypeBody_eqv (p : Ptr) : Eqv opt (fieldTypeBody p) (fieldTypeBody p) := by
  refine Eqv.get fun r1 r2 hs => ?_
  simp only [hs.kind]
  cases r1.kind p with
  | none => exact Eqv.panic
  | some k =>
    cases k <;> first
      | exact Eqv.panic
      | exact getTypeByName_eqv p _
      | (refine Eqv.bind Eqv.alloc ?_
         rintro a _ rfl
         exact Eqv.pure rfl)

theorem fieldType_eqv (a : Nat) (p : Ptr) : Eqv opt (MessageField.type a p) (MessageField.type a p) := by
  rintro r1 _ rfl
  unfold MessageField.type
  cases hc : r1.ftcache a with
  | some t =>
    have h2 : (regP r1).ftcache a = some (t.map Node.shorn) := by simp [regP, hc]
    simp only [h2]
    exact ⟨rfl, rfl⟩
  | none =>
    have h2 : (regP r1).ftcache a = none := by simp [regP, hc]
    simp only [h2]
    have h0 := fieldTypeBody_eqv p r1 _ rfl
    rcases h1 : fieldTypeBody p r1 with ⟨res1, r1'⟩
    rcases h2 : fieldTypeBody p (regP r1) with ⟨res2, r2'⟩
    rw [h1, h2] at h0
    obtain ⟨h0, rfl⟩ := h0
    cases res1 <;> cases res2 <;> simp only [ResRel] at h0 <;> try exact h0.elim
    · obtain rfl := h0
      rename_i x
      exact ⟨rfl, by have := upd_map r1'.ftcache a x; simp only [Sim, regP, this]⟩
    · obtain rfl := h0
      refine ⟨rfl, ?_⟩
      have := upd_map r1'.ftcache a none
      simp only [Option.map_none] at this
      simp only [Sim, regP, this]
    · exact ⟨trivial, rfl⟩

theorem branchType_eqv (p : Ptr) : Eqv opt (OneOfBranch.type p) (OneOfBranch.type p) := by
  refine Eqv.get fun r1 r2 hs => ?_
  simp only [hs.kind]
  cases r1.kind p with
  | none => exact Eqv.panic
  | some k => cases k <;> first | exact Eqv.panic | exact getTypeByName_eqv p _

/-- A flag with a node. -/
def FlagR (x y : Bool × Node) : Prop := x.1 = y.1 ∧ nd x.2 y.2

theorem methodInput_eqv (p : Ptr) : Eqv FlagR (Method.input p) (Method.input p) := by
  refine Eqv.get fun r1 r2 hs => ?_
  simp only [hs.kind]
  cases r1.kind p with
  | none => exact Eqv.panic
  | some k =>
    cases k <;> first
      | exact Eqv.panic
      | (refine Eqv.bind (getTypeByName_eqv p _) fun _ _ h => ?_
         exact Eqv.bind (assertKind_eqv _ h) fun _ _ h => Eqv.pure ⟨rfl, h.nd⟩)

theorem methodOutput_eqv (p : Ptr) : Eqv FlagR (Method.output p) (Method.output p) := by
  refine Eqv.get fun r1 r2 hs => ?_
  simp only [hs.kind]
  cases r1.kind p with
  | none => exact Eqv.panic
  | some k =>
    cases k <;> first
      | exact Eqv.panic
      | (refine Eqv.bind (getTypeByName_eqv p _) fun _ _ h => ?_
         exact Eqv.bind (assertKind_eqv _ h) fun _ _ h => Eqv.pure ⟨rfl, h.nd⟩)

theorem mapKey_eqv (p : Ptr) : Eqv (fun n1 n2 => nd n1 n2 ∧ ∃ b, n1 = .builtin b) (Map.key p) (Map.key p) := by
  refine Eqv.get fun r1 r2 hs => ?_
  simp only [hs.kind]
  cases r1.kind p with
  | none => exact Eqv.panic
  | some k =>
    cases k <;> first | exact Eqv.panic | skip
    simp only [Option.map_some, Kind.shorn]
    split
    · exact Eqv.pure ⟨rfl, _, rfl⟩
    · exact Eqv.panic

theorem mapValue_eqv (p : Ptr) : Eqv nd (Map.value p) (Map.value p) := by
  refine Eqv.get fun r1 r2 hs => ?_
  simp only [hs.kind]
  cases r1.kind p with
  | none => exact Eqv.panic
  | some k =>
    cases k <;> first | exact Eqv.panic | skip
    simp only [Option.map_some, Kind.shorn, hs.names]
    split
    · exact Eqv.pure rfl
    · generalize r1.registry _ = oq
      cases oq with
      | none => exact Eqv.panic
      | some q =>
        simp only
        cases r1.kind q with
        | none => exact Eqv.panic
        | some k => cases k <;> first | exact Eqv.panic | exact wrapAs_nd _ q

/-! ### Options -/

theorem optionClass_eqv (cls : Str) : EqvEq (optionClass cls) (optionClass cls) := by
  refine Eqv.get fun r1 r2 hs => ?_
  rw [hs.names]
  cases h : r1.registry cls with
  | none => exact Eqv.panic
  | some p =>
    simp only [hs.kind]
    cases r1.kind p with
    | none => exact Eqv.panic
    | some k => cases k <;> first | exact Eqv.panic | exact Eqv.pure rfl

theorem Sim.builtinOptionField {r1 r2 : Reg} (hs : Sim r1 r2) (cls : Ptr) (name : Str) :
    Protoast.builtinOptionField r2 cls name = Protoast.builtinOptionField r1 cls name := by
  unfold Protoast.builtinOptionField
  rw [hs.find cls _ (by blind)]
  generalize (r1.kids cls).find? _ = o
  cases o <;> rfl

theorem newOption_eqv (scope : Str) (cls opt : Ptr) : Eqv nd (newOption scope cls opt) (newOption scope cls opt) := by
  refine Eqv.get fun r1 r2 hs => ?_
  simp only [hs.kind, hs.defined]
  cases r1.kind opt with
  | none => exact Eqv.panic
  | some k =>
    cases k <;> first | exact Eqv.panic | skip
    simp only [Option.map_some, Kind.shorn, hs.names, hs.builtinOptionField]
    split
    · rename_i resolved _
      cases h : r1.registry resolved with
      | none => exact Eqv.panic
      | some f =>
        simp only
        cases r1.kind f with
        | none => exact Eqv.panic
        | some k =>
          cases k <;> first
            | exact Eqv.panic
            | (refine Eqv.bind Eqv.alloc ?_
               rintro a _ rfl
               exact Eqv.pure rfl)
    · generalize Protoast.builtinOptionField r1 cls _ = o
      cases o with
      | none => exact Eqv.panic
      | some f =>
        refine Eqv.bind Eqv.alloc ?_
        rintro a _ rfl
        exact Eqv.pure rfl

theorem wrapOption_eqv (cls opt : Ptr) : Eqv nd (wrapOption opt cls) (wrapOption opt cls) := by
  refine Eqv.get fun r1 r2 hs => ?_
  rw [hs.scope]
  exact newOption_eqv _ cls opt

theorem everything_eqv (p : Ptr) (cls : Str) :
    Eqv (AllRel (Eqv opt)) (overKids p (everythingStep cls)) (overKids p (everythingStep cls)) := by
  refine overKids_eqv p ?_
  intro q k
  cases k <;> first
    | exact .inr ⟨_, _, rfl, rfl, wrap_eqv (.at q)⟩
    | skip
  refine .inr ⟨_, _, rfl, rfl, ?_⟩
  refine Eqv.bind (optionClass_eqv cls) ?_
  rintro c _ rfl
  exact Eqv.someOf (wrapOption_eqv c q)

theorem methodOptions_eqv (p : Ptr) : Eqv (AllRel (Eqv nd)) (Method.options p) (Method.options p) := by
  refine overKids_eqv p ?_
  intro q k
  cases k <;> first
    | exact .inl ⟨rfl, rfl⟩
    | skip
  refine .inr ⟨_, _, rfl, rfl, ?_⟩
  refine Eqv.bind (optionClass_eqv _) ?_
  rintro c _ rfl
  exact wrapOption_eqv c q

theorem seqOptions_eqv (scope cls : Str) (p : Ptr) :
    Eqv (Eqv (AllRel (Eqv nd))) (seqOptions scope cls p) (seqOptions scope cls p) := by
  refine Eqv.bind (optionClass_eqv cls) ?_
  rintro c _ rfl
  refine Eqv.pure ?_
  refine overKids_eqv p ?_
  intro q k
  cases k <;> first
    | exact .inl ⟨rfl, rfl⟩
    | exact .inr ⟨_, _, rfl, rfl, newOption_eqv scope c q⟩

theorem namedOption_eqv (name scope cls : Str) (p : Ptr) :
    Eqv opt (namedOption name scope cls p) (namedOption name scope cls p) := by
  refine Eqv.bind (optionClass_eqv cls) ?_
  rintro c _ rfl
  refine Eqv.get fun r1 r2 hs => ?_
  rw [hs.find p _ (by blind)]
  generalize (r1.kids p).find? _ = o
  cases o with
  | none => exact Eqv.pure opt_none
  | some qe => exact Eqv.someOf (newOption_eqv scope c qe.1)

theorem options_eqv (n : Node) : Eqv (Eqv (AllRel (Eqv nd))) (options n) (options n.shorn) := by
  cases n with
  | wrapped a k p =>
    refine Eqv.get fun r1 r2 hs => ?_
    rw [hs.scope, hs.firstPackage, hs.kind]
    cases k <;> simp only <;> first
      | exact Eqv.panic
      | exact seqOptions_eqv _ _ _
      | skip
    cases r1.kind p with
    | none => exact Eqv.panic
    | some k => cases k <;> first | exact Eqv.panic | exact seqOptions_eqv _ _ _
  | oneof a p =>
    refine Eqv.get fun r1 r2 hs => ?_
    rw [hs.scope]; exact seqOptions_eqv _ _ _
  | «repeated» a t => cases t <;> exact Eqv.panic
  | _ => exact Eqv.panic

theorem optionNamed_eqv (n : Node) (name : Str) : Eqv opt (optionNamed n name) (optionNamed n.shorn name) := by
  cases n with
  | wrapped a k p =>
    refine Eqv.get fun r1 r2 hs => ?_
    rw [hs.scope, hs.firstPackage, hs.kind]
    cases k <;> simp only <;> first
      | exact Eqv.panic
      | exact namedOption_eqv _ _ _ _
      | skip
    cases r1.kind p with
    | none => exact Eqv.panic
    | some k => cases k <;> first | exact Eqv.panic | exact namedOption_eqv _ _ _ _
  | oneof a p =>
    refine Eqv.get fun r1 r2 hs => ?_
    rw [hs.scope]; exact namedOption_eqv _ _ _ _
  | «repeated» a t => cases t <;> exact Eqv.panic
  | _ => exact Eqv.panic

theorem optionName_eqv (o c f : Ptr) : EqvEq (Option.name o c f) (Option.name o c f) := by
  refine Eqv.get fun r1 r2 hs => ?_
  simp only [hs.kind, hs.scope]
  split
  · cases r1.kind f with
    | none => exact Eqv.panic
    | some k => cases k <;> first | exact Eqv.panic | exact Eqv.pure rfl
  · cases r1.kind o with
    | none => exact Eqv.panic
    | some k => cases k <;> first | exact Eqv.panic | exact Eqv.pure rfl

/-! ### Values -/

/-- A selection by name does not see the layout. -/
local macro "blindly" : tactic => `(tactic| (intro k; cases k <;> rfl))

theorem enumValue_eqv (p : Ptr) (name : Str) : Eqv opt (Enum.value p name) (Enum.value p name) :=
  firstKid_eqv p _ (by blindly)

mutual
theorem build_eqv (F : FloatOps) (o : Option Ptr) (ign : Bool) : (l : Literal) → (field : Ptr) →
    Eqv vl (buildFromLiteral F o field ign l) (buildFromLiteral F o field ign l.shorn)
  | .mk pos source array orderedMap, field => by
    unfold Literal.shorn buildFromLiteral
    refine Eqv.get fun r1 r2 hs => ?_
    simp only [hs.kind]
    cases r1.kind field with
    | none => exact Eqv.panic
    | some k =>
    cases k <;> first | exact Eqv.panic | skip
    simp only [Option.map_some, Kind.shorn]
    split
    · refine Eqv.bind (buildArray_eqv F array field) ?_
      rintro vs _ rfl
      exact Eqv.pure (by simp [vl, OptVal.shorn])
    · split
      · split
        · exact Eqv.pure (by simp [vl, OptVal.shorn, Literal.shorn])
        · exact Eqv.panic
      · split
        · exact Eqv.pure (by simp [vl, OptVal.shorn, Literal.shorn])
        · exact Eqv.panic
      · split
        · exact Eqv.pure (by simp [vl, OptVal.shorn, Literal.shorn])
        · exact Eqv.panic
      · split
        · exact Eqv.pure (by simp [vl, OptVal.shorn, Literal.shorn])
        · exact Eqv.panic
      · exact Eqv.pure (by simp [vl, OptVal.shorn, Literal.shorn])
      · exact Eqv.pure (by simp [vl, OptVal.shorn, Literal.shorn])
      · refine Eqv.bind (getTypeByName_eqv field _) ?_
        rintro o1 _ rfl
        cases o1 with
        | none => exact Eqv.panic
        | some n =>
          cases n with
          | wrapped a k p =>
            cases k <;> first | exact Eqv.panic | skip
            · refine Eqv.bind (buildItems_eqv F orderedMap p) ?_
              rintro items _ rfl
              exact Eqv.pure (by simp [vl, OptVal.shorn, Literal.shorn])
            · refine Eqv.bind (firstKid_kind p .enumValue (by blindly)) ?_
              rintro o1 o2 ⟨e, h⟩
              subst e
              cases o2 with
              | none => exact Eqv.panic
              | some n =>
                obtain ⟨a, q, rfl⟩ := h n rfl
                exact Eqv.pure (by simp [vl, OptVal.shorn, Literal.shorn])
          | «repeated» a t => cases t <;> exact Eqv.panic
          | _ => exact Eqv.panic
theorem buildArray_eqv (F : FloatOps) : (ls : List Literal) → (field : Ptr) →
    Eqv (fun a b => b = OptVal.plains a) (buildArray F field ls) (buildArray F field (Literal.plains ls))
  | [], field => by unfold Literal.plains buildArray; exact Eqv.pure (by simp [OptVal.plains])
  | l :: ls, field => by
    unfold Literal.plains buildArray
    refine Eqv.bind (build_eqv F none true l field) ?_
    rintro v _ rfl
    refine Eqv.bind (buildArray_eqv F ls field) ?_
    rintro vs _ rfl
    exact Eqv.pure (by simp [OptVal.plains])
theorem buildItems_eqv (F : FloatOps) : (ls : List (Str × Literal)) → (msg : Ptr) →
    Eqv (fun a b => b = OptVal.plainItems a) (buildItems F msg ls) (buildItems F msg (Literal.plainItems ls))
  | [], msg => by unfold Literal.plainItems buildItems; exact Eqv.pure (by simp [OptVal.plainItems])
  | l :: ls, msg => by
    unfold Literal.plainItems buildItems
    refine Eqv.bind (buildItem_eqv F l msg) ?_
    rintro v _ rfl
    refine Eqv.bind (buildItems_eqv F ls msg) ?_
    rintro vs _ rfl
    exact Eqv.pure (by simp [OptVal.plainItems])
theorem buildItem_eqv (F : FloatOps) : (nl : Str × Literal) → (msg : Ptr) →
    Eqv (fun a b => b = OptVal.plainItem a) (buildItem F msg nl) (buildItem F msg (Literal.plainItem nl))
  | (name, lit), msg => by
    unfold Literal.plainItem buildItem
    refine Eqv.bind (firstKid_kind msg .messageField (by blindly)) ?_
    rintro o1 o2 ⟨e, h⟩
    subst e
    cases o2 with
    | none => exact Eqv.panic
    | some n =>
      obtain ⟨a, q, rfl⟩ := h n rfl
      refine Eqv.get fun r1 r2 hs => ?_
      simp only [hs.kind]
      cases r1.kind q with
      | none => exact Eqv.panic
      | some k =>
        cases k <;> first | exact Eqv.panic | skip
        refine Eqv.bind (build_eqv F none false lit q) ?_
        rintro v _ rfl
        exact Eqv.pure (by simp [OptVal.plainItem])
end

theorem optionValue_eqv (F : FloatOps) (o f : Ptr) : Eqv vl (Option.value F o f) (Option.value F o f) := by
  refine Eqv.get fun r1 r2 hs => ?_
  simp only [hs.kind]
  cases r1.kind o with
  | none => exact Eqv.panic
  | some k => cases k <;> first | exact Eqv.panic | exact build_eqv F (some o) false _ f

theorem val_opt (v : OptVal) : v.shorn.opt = v.opt := by cases v <;> simp [OptVal.shorn, OptVal.opt]

theorem vals_eq (vs : List OptVal) : OptVal.plains vs = vs.map OptVal.shorn := by
  induction vs with
  | nil => simp [OptVal.plains]
  | cons v vs ih => simp [OptVal.plains, ih]

theorem items_eq (vs : List (Str × OptVal)) : OptVal.plainItems vs = vs.map (fun kv => (kv.1, kv.2.shorn)) := by
  induction vs with
  | nil => simp [OptVal.plainItems]
  | cons v vs ih => rcases v with ⟨k, v⟩; simp [OptVal.plainItems, OptVal.plainItem, ih]

theorem parts_eqv (v : OptVal) : nds v.parts v.shorn.parts := by
  cases v with
  | enum o l a p => simp [nds, OptVal.parts, OptVal.shorn, Node.shorn]
  | array o vs => simp [nds, OptVal.parts, OptVal.shorn, vals_eq, Node.shorn]
  | map o l items => simp [nds, OptVal.parts, OptVal.shorn, items_eq, Node.shorn]
  | _ => simp [nds, OptVal.parts, OptVal.shorn]

mutual
theorem toStr_eqv (F : FloatOps) {r1 r2 : Reg} (hs : Sim r1 r2) : (v : OptVal) → v.shorn.toStr F r2 = v.toStr F r1
  | .bool _ _ _ => by simp [OptVal.shorn, OptVal.toStr]
  | .int _ _ _ => by simp [OptVal.shorn, OptVal.toStr]
  | .uint _ _ _ => by simp [OptVal.shorn, OptVal.toStr]
  | .float _ _ _ => by simp [OptVal.shorn, OptVal.toStr]
  | .string _ _ _ => by simp [OptVal.shorn, OptVal.toStr]
  | .bytes _ _ _ => by simp [OptVal.shorn, OptVal.toStr]
  | .enum _ _ _ p => by
    simp only [OptVal.shorn, OptVal.toStr, hs.kind]
    congr 1
    · congr 1
      cases r1.kind ⟨p.file, p.path.tail⟩ with
      | none => rfl
      | some k => cases k <;> rfl
    · cases r1.kind p with
      | none => rfl
      | some k => cases k <;> rfl
  | .array _ vs => by simp only [OptVal.shorn, OptVal.toStr, toStrs_eqv F hs vs]
  | .map _ _ items => by simp only [OptVal.shorn, OptVal.toStr, toStrItems_eqv F hs items]
theorem toStrs_eqv (F : FloatOps) {r1 r2 : Reg} (hs : Sim r1 r2) :
    (vs : List OptVal) → OptVal.toStrs F r2 (OptVal.plains vs) = OptVal.toStrs F r1 vs
  | [] => by simp [OptVal.plains, OptVal.toStrs]
  | v :: vs => by simp only [OptVal.plains, OptVal.toStrs, toStr_eqv F hs v, toStrs_eqv F hs vs]
theorem toStrItems_eqv (F : FloatOps) {r1 r2 : Reg} (hs : Sim r1 r2) :
    (vs : List (Str × OptVal)) → OptVal.toStrItems F r2 (OptVal.plainItems vs) = OptVal.toStrItems F r1 vs
  | [] => by simp [OptVal.plainItems, OptVal.toStrItems]
  | kv :: vs => by
    simp only [OptVal.plainItems, OptVal.toStrItems, toStrItem_eqv F hs kv, toStrItems_eqv F hs vs]
theorem toStrItem_eqv (F : FloatOps) {r1 r2 : Reg} (hs : Sim r1 r2) :
    (kv : Str × OptVal) → OptVal.toStrItem F r2 (OptVal.plainItem kv) = OptVal.toStrItem F r1 kv
  | (k, v) => by simp only [OptVal.plainItem, OptVal.toStrItem, toStr_eqv F hs v]
end

end Protoast.Layout
