import Verif.Proof.Rename
/-
  Renaming of files, continued: every API function does corresponding things in corresponding registries.
-/
namespace Protoast

variable {s : Ren}

theorem wrapAs_nd (k : WKind) (q : Ptr) : Eqv s s.nd (wrapAs k q) (wrapAs k (s.ptr q)) :=
  (Eqv.wrapAs k q).mono fun _ _ h => h.nd

/-- Solve the side goal of `Eqv.overKids` for iterators over declarations. -/
local macro "picks" : tactic => `(tactic| (
  intro q k hq
  cases k <;> first
    | exact .inl ⟨rfl, rfl⟩
    | exact .inr ⟨_, _, rfl, rfl, wrapAs_nd _ q⟩
    | exact .inr ⟨_, _, rfl, rfl, Eqv.wrapNamed q⟩
    | (rename_i n b
       cases b <;> first
        | exact .inl ⟨rfl, rfl⟩
        | exact .inr ⟨_, _, rfl, rfl, wrapAs_nd _ q⟩
        | exact .inr ⟨_, _, rfl, rfl, Eqv.wrapNamed q⟩)))

theorem fileImports_eqv (p : Ptr) : Eqv s (AllRel (Eqv s s.nd)) (File.imports p) (File.imports (s.ptr p)) :=
  Eqv.overKids p (by picks)
theorem fileMessages_eqv (p : Ptr) : Eqv s (AllRel (Eqv s s.nd)) (File.messages p) (File.messages (s.ptr p)) :=
  Eqv.overKids p (by picks)
theorem fileEnums_eqv (p : Ptr) : Eqv s (AllRel (Eqv s s.nd)) (File.enums p) (File.enums (s.ptr p)) :=
  Eqv.overKids p (by picks)
theorem fileTypes_eqv (p : Ptr) : Eqv s (AllRel (Eqv s s.nd)) (File.types p) (File.types (s.ptr p)) :=
  Eqv.overKids p (by picks)
theorem fileServices_eqv (p : Ptr) : Eqv s (AllRel (Eqv s s.nd)) (File.services p) (File.services (s.ptr p)) :=
  Eqv.overKids p (by picks)
theorem messageFields_eqv (p : Ptr) : Eqv s (AllRel (Eqv s s.nd)) (Message.fields p) (Message.fields (s.ptr p)) :=
  Eqv.overKids p (by picks)
theorem messageMessages_eqv (p : Ptr) :
    Eqv s (AllRel (Eqv s s.nd)) (Message.messages p) (Message.messages (s.ptr p)) :=
  Eqv.overKids p (by picks)
theorem messageTypes_eqv (p : Ptr) : Eqv s (AllRel (Eqv s s.nd)) (Message.types p) (Message.types (s.ptr p)) :=
  Eqv.overKids p (by picks)
theorem enumEnums_eqv (p : Ptr) : Eqv s (AllRel (Eqv s s.nd)) (Enum.enums p) (Enum.enums (s.ptr p)) :=
  Eqv.overKids p (by picks)
theorem enumValues_eqv (p : Ptr) : Eqv s (AllRel (Eqv s s.nd)) (Enum.values p) (Enum.values (s.ptr p)) :=
  Eqv.overKids p (by picks)
theorem oneofBranches_eqv (p : Ptr) : Eqv s (AllRel (Eqv s s.nd)) (OneOf.branches p) (OneOf.branches (s.ptr p)) :=
  Eqv.overKids p (by picks)
theorem serviceMethods_eqv (p : Ptr) : Eqv s (AllRel (Eqv s s.nd)) (Service.methods p) (Service.methods (s.ptr p)) :=
  Eqv.overKids p (by picks)

theorem fileType_eqv (p : Ptr) (name : Str) : Eqv s s.opt (File.type p name) (File.type (s.ptr p) name) := by
  refine Eqv.get fun r1 r2 hs => ?_
  rw [hs.find p _ (by intro q e; rfl)]
  split
  · rename_i q e h
    simp only [h, Option.map_some]
    cases e.kind <;> exact Eqv.someOf (wrapAs_nd _ q)
  · rename_i h
    simp only [h, Option.map_none]
    exact Eqv.pure Ren.opt_none

theorem messageType_eqv (p : Ptr) (name : Str) : Eqv s s.opt (Message.type p name) (Message.type (s.ptr p) name) := by
  refine Eqv.get fun r1 r2 hs => ?_
  rw [hs.find p _ (by intro q e; rfl)]
  split
  · rename_i q e h
    simp only [h, Option.map_some]
    cases e.kind <;> exact Eqv.someOf (wrapAs_nd _ q)
  · rename_i h
    simp only [h, Option.map_none]
    exact Eqv.pure Ren.opt_none

/-! ### Reads -/

/-- Equality of results. -/
abbrev EqvEq {α : Type} (s : Ren) (m1 m2 : M α) : Prop := Eqv s (fun a b => a = b) m1 m2

/-- Solve goals about functions that look at the kind of one element. -/
local macro "reads" : tactic => `(tactic| (
  refine Eqv.get fun r1 r2 hs => ?_
  simp only [hs.kind]
  split <;> first | exact Eqv.pure rfl | exact Eqv.panic))

theorem fileName_eqv (p : Ptr) : EqvEq s (File.name p) (File.name (s.ptr p)) := by
  refine Eqv.get fun r1 r2 hs => ?_
  simp only [Ren.ptr, hs.heap]
  cases r1.heap[p.file]? with
  | none => exact Eqv.panic
  | some f => exact Eqv.pure rfl
theorem filePackage_eqv (p : Ptr) : EqvEq s (File.package p) (File.package (s.ptr p)) := by
  refine Eqv.get fun r1 r2 hs => ?_
  rw [hs.children]
  exact Eqv.pure rfl
theorem messageName_eqv (p : Ptr) : EqvEq s (Message.name p) (Message.name (s.ptr p)) := by reads
theorem messageIsExtension_eqv (p : Ptr) : EqvEq s (Message.isExtension p) (Message.isExtension (s.ptr p)) := by reads
theorem fieldName_eqv (p : Ptr) : EqvEq s (MessageField.name p) (MessageField.name (s.ptr p)) := by reads
theorem fieldValue_eqv (p : Ptr) : EqvEq s (MessageField.value p) (MessageField.value (s.ptr p)) := by reads
theorem fieldOptional_eqv (p : Ptr) : EqvEq s (MessageField.optional p) (MessageField.optional (s.ptr p)) := by reads
theorem enumName_eqv (p : Ptr) : EqvEq s (Enum.name p) (Enum.name (s.ptr p)) := by reads
theorem enumValueName_eqv (p : Ptr) : EqvEq s (EnumValue.name p) (EnumValue.name (s.ptr p)) := by reads
theorem enumValueValue_eqv (p : Ptr) : EqvEq s (EnumValue.value p) (EnumValue.value (s.ptr p)) := by reads
theorem branchName_eqv (p : Ptr) : EqvEq s (OneOfBranch.name p) (OneOfBranch.name (s.ptr p)) := by reads
theorem branchValue_eqv (p : Ptr) : EqvEq s (OneOfBranch.value p) (OneOfBranch.value (s.ptr p)) := by reads
theorem serviceName_eqv (p : Ptr) : EqvEq s (Service.name p) (Service.name (s.ptr p)) := by reads
theorem methodName_eqv (p : Ptr) : EqvEq s (Method.name p) (Method.name (s.ptr p)) := by reads
theorem importPath_eqv (p : Ptr) : EqvEq s (Import.path p) (Import.path (s.ptr p)) := by reads
theorem syntaxValue_eqv (p : Ptr) : EqvEq s (Syntax.value p) (Syntax.value (s.ptr p)) := by reads
theorem packagePackage_eqv (p : Ptr) : EqvEq s (Package.package p) (Package.package (s.ptr p)) := by reads

theorem AllRel.of_eq {α β : Type} {R : α → β → Prop} {γ : Type} {f : γ → α} {g : γ → β} (h : ∀ c, R (f c) (g c)) :
    ∀ l : List γ, AllRel R (l.map f) (l.map g)
  | [] => .nil
  | c :: l => .cons (h c) (AllRel.of_eq h l)

theorem AllRel.append {α β : Type} {R : α → β → Prop} {a1 b1 a2 b2} (h1 : AllRel R a1 b1) (h2 : AllRel R a2 b2) :
    AllRel R (a1 ++ a2) (b1 ++ b2) := by
  induction h1 with
  | nil => exact h2
  | cons h _ ih => exact .cons h ih

theorem reservedValues_eqv (p : Ptr) :
    Eqv s (AllRel (Eqv s (fun a b => a = b))) (Reserved.values p) (Reserved.values (s.ptr p)) := by
  refine Eqv.get fun r1 r2 hs => ?_
  simp only [hs.kind]
  split
  · exact Eqv.pure ((AllRel.of_eq (fun _ => Eqv.pure rfl) _).append (AllRel.of_eq (fun _ => Eqv.pure rfl) _))
  · exact Eqv.panic

theorem collectSteps_eqv {α : Type} {l1 l2 : List (M α)} (h : AllRel (EqvEq s) l1 l2) :
    EqvEq s (collectSteps l1) (collectSteps l2) := by
  induction h with
  | nil => exact Eqv.pure rfl
  | cons h _ ih =>
    refine Eqv.bind h ?_
    rintro a _ rfl
    refine Eqv.bind ih ?_
    rintro as _ rfl
    exact Eqv.pure rfl

theorem runSteps_eqv {α σ : Type} {R : α → α → Prop} {b1 b2 : σ → α → M (σ × Bool)}
    (hb : ∀ st x y, R x y → EqvEq s (b1 st x) (b2 st y)) {l1 l2 : List (M α)} (h : AllRel (Eqv s R) l1 l2) :
    ∀ st, EqvEq s (runSteps b1 l1 st) (runSteps b2 l2 st) := by
  induction h with
  | nil => intro st; exact Eqv.pure rfl
  | cons h _ ih =>
    intro st
    refine Eqv.bind h fun a b hab => ?_
    refine Eqv.bind (hb st a b hab) ?_
    rintro ⟨st', go⟩ _ rfl
    cases go
    · exact Eqv.pure rfl
    · exact ih st'

/-! ### Types -/

/-- The result of a type lookup. -/
theorem isType_ren (n : Node) : (s.node n).isType = n.isType := by
  cases n with
  | wrapped a k p => cases k <;> rfl
  | «repeated» a t => cases t <;> rfl
  | _ => rfl

theorem lookupType_eqv {p : Ptr} (hp : p.path ≠ []) (name : Str) :
    Eqv s s.opt (lookupType p name) (lookupType (s.ptr p) name) := by
  unfold lookupType
  split
  · exact Eqv.pure ⟨rfl, fun _ h => by cases h; trivial⟩
  · refine Eqv.get fun r1 r2 hs => ?_
    rw [hs.defined, hs.scope hp]
    split
    · exact Eqv.pure Ren.opt_none
    · rename_i resolved _
      rw [hs.names]
      cases r1.registry resolved with
      | none => exact Eqv.pure Ren.opt_none
      | some obj =>
        refine Eqv.bind (Eqv.wrap (.at obj)) ?_
        intro o1 o2 h
        obtain ⟨rfl, hd⟩ := h.opt
        cases o1 with
        | none => exact Eqv.panic
        | some n =>
          simp only [Option.map_some, isType_ren]
          split
          · exact Eqv.pure ⟨rfl, hd⟩
          · exact Eqv.panic

theorem node_repeated (a : Nat) (t : Option Node) :
    s.node (.repeated a t) = .repeated (s.addr a) (t.map s.node) := by cases t <;> rfl

theorem getTypeByName_eqv {p : Ptr} (hp : p.path ≠ []) (name : Str) :
    Eqv s s.opt (getTypeByName p name) (getTypeByName (s.ptr p) name) := by
  refine Eqv.bind (lookupType_eqv hp name) ?_
  intro o1 o2 h
  refine Eqv.get fun r1 r2 hs => ?_
  rw [hs.isRepeatedField]
  split
  · refine Eqv.bind Eqv.alloc ?_
    rintro a _ rfl
    refine Eqv.pure ⟨?_, ?_⟩
    · rw [h.1]; simp [node_repeated]
    · intro n e
      cases e
      cases o1 with
      | none => trivial
      | some t => exact h.2 t rfl
  · exact Eqv.pure h

theorem nodeByFullName_eqv (name : Str) : Eqv s s.opt (nodeByFullName name) (nodeByFullName name) := by
  refine Eqv.get fun r1 r2 hs => ?_
  rw [hs.names]
  cases r1.registry name with
  | none => exact (Eqv.wrap .nil).mono fun _ _ h => h.opt
  | some p => exact (Eqv.wrap (.at p)).mono fun _ _ h => h.opt

theorem fieldTypeBody_eqv {p : Ptr} (hp : p.path ≠ []) :
    Eqv s s.opt (fieldTypeBody p) (fieldTypeBody (s.ptr p)) := by
  refine Eqv.get fun r1 r2 hs => ?_
  simp only [hs.kind]
  split
  · exact getTypeByName_eqv hp _
  · refine Eqv.bind Eqv.alloc ?_
    rintro a _ rfl
    exact Eqv.pure ⟨rfl, fun _ e => by cases e; exact hp⟩
  · refine Eqv.bind Eqv.alloc ?_
    rintro a _ rfl
    exact Eqv.pure ⟨rfl, fun _ e => by cases e; exact hp⟩
  · exact Eqv.panic

theorem fieldType_eqv (a : Nat) {p : Ptr} (hp : p.path ≠ []) :
    Eqv s s.opt (MessageField.type a p) (MessageField.type (s.addr a) (s.ptr p)) := by
  intro r1 r2 hs
  unfold MessageField.type
  rw [hs.ftcache a]
  cases hc : r1.ftcache a with
  | some t => exact ⟨⟨rfl, fun n e => by subst e; exact hs.ftdeep _ _ hc⟩, hs⟩
  | none =>
    simp only [Option.map_none]
    have h0 := fieldTypeBody_eqv (s := s) hp r1 r2 hs
    rcases h1 : fieldTypeBody p r1 with ⟨res1, r1'⟩
    rcases h2 : fieldTypeBody (s.ptr p) r2 with ⟨res2, r2'⟩
    rw [h1, h2] at h0
    have hupd : ∀ {r1' r2' : Reg}, Sim s r1' r2' → ∀ (x : Option Node) b,
        upd r2'.ftcache (s.addr a) (x.map s.node) (s.addr b) =
        (upd r1'.ftcache a x b).map (Option.map s.node) := by
      intro r1' r2' hs x b
      by_cases hb : b = a
      · subst hb; simp [upd]
      · have : s.addr b ≠ s.addr a := fun e => hb (s.ainj _ _ e)
        simp [upd, hb, this, hs.ftcache]
    have hdeep : ∀ {r1' r2' : Reg}, Sim s r1' r2' → ∀ (x : Option Node), (∀ n, x = some n → Deep n) →
        ∀ b n, upd r1'.ftcache a x b = some (some n) → Deep n := by
      intro r1' r2' hs x hx b n h
      simp only [upd] at h
      split at h
      · cases h; exact hx n rfl
      · exact hs.ftdeep _ _ h
    cases res1 <;> cases res2 <;> simp only [ResRel] at h0 <;> try exact h0.1.elim
    · refine ⟨h0.1, ?_⟩
      rw [h0.1.1]
      exact { h0.2 with ftcache := hupd h0.2 _, ftdeep := hdeep h0.2 _ h0.1.2 }
    · refine ⟨h0.1, ?_⟩
      exact { h0.2 with ftcache := hupd h0.2 none, ftdeep := hdeep h0.2 none (fun _ e => by cases e) }
    · exact h0

theorem branchType_eqv {p : Ptr} (hp : p.path ≠ []) : Eqv s s.opt (OneOfBranch.type p) (OneOfBranch.type (s.ptr p)) := by
  refine Eqv.get fun r1 r2 hs => ?_
  simp only [hs.kind]
  split
  · exact getTypeByName_eqv hp _
  · exact Eqv.panic

/-- A flag with a node. -/
def FlagR (s : Ren) (x y : Bool × Node) : Prop := x.1 = y.1 ∧ s.nd x.2 y.2

theorem methodInput_eqv {p : Ptr} (hp : p.path ≠ []) : Eqv s (FlagR s) (Method.input p) (Method.input (s.ptr p)) := by
  refine Eqv.get fun r1 r2 hs => ?_
  simp only [hs.kind]
  split
  · refine Eqv.bind (getTypeByName_eqv hp _) fun _ _ h => ?_
    exact Eqv.bind (Eqv.assertKind _ h) fun _ _ h => Eqv.pure ⟨rfl, h.nd⟩
  · exact Eqv.panic

theorem methodOutput_eqv {p : Ptr} (hp : p.path ≠ []) : Eqv s (FlagR s) (Method.output p) (Method.output (s.ptr p)) := by
  refine Eqv.get fun r1 r2 hs => ?_
  simp only [hs.kind]
  split
  · refine Eqv.bind (getTypeByName_eqv hp _) fun _ _ h => ?_
    exact Eqv.bind (Eqv.assertKind _ h) fun _ _ h => Eqv.pure ⟨rfl, h.nd⟩
  · exact Eqv.panic

theorem mapKey_eqv (p : Ptr) : Eqv s (fun n1 n2 => s.nd n1 n2 ∧ ∃ b, n1 = .builtin b) (Map.key p) (Map.key (s.ptr p)) := by
  refine Eqv.get fun r1 r2 hs => ?_
  simp only [hs.kind]
  split
  · split
    · exact Eqv.pure ⟨⟨rfl, trivial⟩, _, rfl⟩
    · exact Eqv.panic
  · exact Eqv.panic

theorem mapValue_eqv (p : Ptr) : Eqv s s.nd (Map.value p) (Map.value (s.ptr p)) := by
  refine Eqv.get fun r1 r2 hs => ?_
  simp only [hs.kind]
  split
  · split
    · exact Eqv.pure ⟨rfl, trivial⟩
    · rw [hs.names]
      generalize r1.registry _ = oq
      cases oq with
      | none => exact Eqv.panic
      | some q =>
        simp only [Option.map_some, hs.kind]
        split
        · exact wrapAs_nd _ q
        · exact wrapAs_nd _ q
        · exact Eqv.panic
  · exact Eqv.panic

/-! ### Options -/

/-- A pointer that is not a file. -/
def PtrR (s : Ren) (p q : Ptr) : Prop := q = s.ptr p ∧ p.path ≠ []

theorem optionClass_eqv (cls : Str) : Eqv s (PtrR s) (optionClass cls) (optionClass cls) := by
  refine Eqv.get fun r1 r2 hs => ?_
  rw [hs.names]
  cases h : r1.registry cls with
  | none => exact Eqv.panic
  | some p =>
    simp only [Option.map_some, hs.kind]
    split
    · exact Eqv.pure ⟨rfl, hs.deep _ _ h⟩
    · exact Eqv.panic

theorem newOption_eqv (scope : Str) {cls opt : Ptr} (hc : cls.path ≠ []) (ho : opt.path ≠ []) :
    Eqv s s.nd (newOption scope cls opt) (newOption scope (s.ptr cls) (s.ptr opt)) := by
  refine Eqv.get fun r1 r2 hs => ?_
  simp only [hs.kind, hs.defined]
  split
  · split
    · rename_i resolved _
      rw [hs.names]
      cases h : r1.registry resolved with
      | none => exact Eqv.panic
      | some f =>
        simp only [Option.map_some, hs.kind]
        split
        · refine Eqv.bind Eqv.alloc ?_
          rintro a _ rfl
          exact Eqv.pure ⟨rfl, ho, hc, hs.deep _ _ h⟩
        · exact Eqv.panic
    · rename_i oname _ _ _ _
      unfold builtinOptionField
      rw [hs.find cls _ (by intro q e; rfl)]
      split
      · rename_i f hf
        simp only [Option.map_eq_some_iff] at hf
        obtain ⟨⟨q, e⟩, hf, rfl⟩ := hf
        simp only [hf, Option.map_some]
        refine Eqv.bind Eqv.alloc ?_
        rintro a _ rfl
        exact Eqv.pure ⟨rfl, ho, hc, find_deep hf⟩
      · rename_i hf
        simp only [Option.map_eq_none_iff] at hf
        simp only [hf, Option.map_none]
        exact Eqv.panic
  · exact Eqv.panic

theorem wrapOption_eqv {cls opt : Ptr} (hc : cls.path ≠ []) (ho : opt.path ≠ []) :
    Eqv s s.nd (wrapOption opt cls) (wrapOption (s.ptr opt) (s.ptr cls)) := by
  refine Eqv.get fun r1 r2 hs => ?_
  rw [hs.scope ho]
  exact newOption_eqv _ hc ho

theorem everything_eqv (p : Ptr) (cls : Str) :
    Eqv s (AllRel (Eqv s s.opt)) (overKids p (everythingStep cls)) (overKids (s.ptr p) (everythingStep cls)) := by
  refine Eqv.overKids p ?_
  intro q k hq
  cases k <;> first
    | exact .inr ⟨_, _, rfl, rfl, (Eqv.wrap (.at q)).mono fun _ _ h => h.opt⟩
    | skip
  refine .inr ⟨_, _, rfl, rfl, ?_⟩
  refine Eqv.bind (optionClass_eqv cls) ?_
  rintro c _ ⟨rfl, hc⟩
  exact Eqv.someOf (wrapOption_eqv hc hq)

theorem methodOptions_eqv (p : Ptr) : Eqv s (AllRel (Eqv s s.nd)) (Method.options p) (Method.options (s.ptr p)) := by
  refine Eqv.overKids p ?_
  intro q k hq
  cases k <;> first
    | exact .inl ⟨rfl, rfl⟩
    | skip
  refine .inr ⟨_, _, rfl, rfl, ?_⟩
  refine Eqv.bind (optionClass_eqv _) ?_
  rintro c _ ⟨rfl, hc⟩
  exact wrapOption_eqv hc hq

theorem seqOptions_eqv (scope cls : Str) (p : Ptr) :
    Eqv s (Eqv s (AllRel (Eqv s s.nd))) (seqOptions scope cls p) (seqOptions scope cls (s.ptr p)) := by
  refine Eqv.bind (optionClass_eqv cls) ?_
  rintro c _ ⟨rfl, hc⟩
  refine Eqv.pure ?_
  -- the two computations use their own class pointer
  refine Eqv.get fun r1 r2 hs => Eqv.pure ?_
  rw [hs.kids]
  have hk : ∀ q e, (q, e) ∈ r1.kids p → q.path ≠ [] := fun q e => kidsFrom_deep _ _ q e
  generalize r1.kids p = l at hk
  induction l with
  | nil => exact AllRel.nil
  | cons qe l ih =>
    have ih := ih fun q e hq => hk q e (List.mem_cons_of_mem _ hq)
    have hq := hk qe.1 qe.2 (List.mem_cons_self ..)
    rcases qe with ⟨q, e⟩
    simp only [List.map_cons, List.filterMap_cons]
    cases e.kind <;> simp only <;> first | exact ih | skip
    exact AllRel.cons (newOption_eqv scope hc hq) ih

theorem namedOption_eqv (name scope cls : Str) (p : Ptr) :
    Eqv s s.opt (namedOption name scope cls p) (namedOption name scope cls (s.ptr p)) := by
  refine Eqv.bind (optionClass_eqv cls) ?_
  rintro c _ ⟨rfl, hc⟩
  refine Eqv.get fun r1 r2 hs => ?_
  rw [hs.find p _ (by intro q e; rfl)]
  split
  · rename_i q e h
    simp only [h, Option.map_some]
    exact Eqv.someOf (newOption_eqv scope hc (find_deep h))
  · rename_i h
    simp only [h, Option.map_none]
    exact Eqv.pure Ren.opt_none

theorem deep_path {a k p} (h : Deep (.wrapped a k p)) (hk : k ≠ .file) : p.path ≠ [] := fun e => hk (h.mpr e)

theorem options_eqv {n : Node} (hd : Deep n) :
    Eqv s (Eqv s (AllRel (Eqv s s.nd))) (options n) (options (s.node n)) := by
  cases n with
  | wrapped a k p =>
    refine Eqv.get fun r1 r2 hs => ?_
    cases k <;> simp only <;> first
      | exact Eqv.panic
      | (rw [hs.children]; exact seqOptions_eqv _ _ _)
      | (rw [hs.scope (deep_path hd (by simp))]; exact seqOptions_eqv _ _ _)
      | (simp only [hs.kind]
         split <;> first
          | exact Eqv.panic
          | (rw [hs.scope (deep_path hd (by simp))]; exact seqOptions_eqv _ _ _))
  | oneof a p =>
    refine Eqv.get fun r1 r2 hs => ?_
    rw [hs.scope hd]; exact seqOptions_eqv _ _ _
  | «repeated» a t => cases t <;> exact Eqv.panic
  | _ => exact Eqv.panic

theorem optionNamed_eqv {n : Node} (hd : Deep n) (name : Str) :
    Eqv s s.opt (optionNamed n name) (optionNamed (s.node n) name) := by
  cases n with
  | wrapped a k p =>
    refine Eqv.get fun r1 r2 hs => ?_
    cases k <;> simp only <;> first
      | exact Eqv.panic
      | (rw [hs.children]; exact namedOption_eqv _ _ _ _)
      | (rw [hs.scope (deep_path hd (by simp))]; exact namedOption_eqv _ _ _ _)
      | (simp only [hs.kind]
         split <;> first
          | exact Eqv.panic
          | (rw [hs.scope (deep_path hd (by simp))]; exact namedOption_eqv _ _ _ _))
  | oneof a p =>
    refine Eqv.get fun r1 r2 hs => ?_
    rw [hs.scope hd]; exact namedOption_eqv _ _ _ _
  | «repeated» a t => cases t <;> exact Eqv.panic
  | _ => exact Eqv.panic

theorem optionName_eqv {o c f : Ptr} (hc : c.path ≠ []) :
    EqvEq s (Option.name o c f) (Option.name (s.ptr o) (s.ptr c) (s.ptr f)) := by
  refine Eqv.get fun r1 r2 hs => ?_
  have hpar : (s.ptr f).parent = .at (s.ptr c) ↔ f.parent = .at c := by
    rw [Ren.parent]
    constructor
    · intro h; exact Ren.vis_inj (s := s) (w := .at c) h
    · intro h; rw [h]; rfl
  by_cases h : f.parent = .at c
  · rw [if_pos h, if_pos (hpar.mpr h)]
    simp only [hs.kind, hs.scope hc]
    split <;> first | exact Eqv.pure rfl | exact Eqv.panic
  · rw [if_neg h, if_neg (fun h' => h (hpar.mp h'))]
    simp only [hs.kind]
    split <;> first | exact Eqv.pure rfl | exact Eqv.panic

/-! ### Values -/

/-- Lists of values. -/
def Ren.vls (s : Ren) (l1 l2 : List OptVal) : Prop := l2 = s.vals l1 ∧ DeepVals l1
/-- Items of map values. -/
def Ren.its (s : Ren) (l1 l2 : List (Str × OptVal)) : Prop := l2 = s.items l1 ∧ DeepItems l1
/-- An item of a map value. -/
def Ren.it (s : Ren) (x y : Str × OptVal) : Prop := y = s.item x ∧ DeepItem x

theorem enumValue_eqv (p : Ptr) (name : Str) : Eqv s s.opt (Enum.value p name) (Enum.value (s.ptr p) name) :=
  Eqv.firstKid p _ _

/-- `firstKid` returns a node of the kind asked for. -/
theorem firstKid_eqv (p : Ptr) (k : WKind) (sel : Kind → Bool) :
    Eqv s (fun o1 o2 => (o1 = none ∧ o2 = none) ∨ ∃ a q, o1 = some (.wrapped a k q) ∧
      o2 = some (.wrapped (s.addr a) k (s.ptr q)) ∧ (k = .file ↔ q.path = []))
      (Protoast.firstKid p k sel) (Protoast.firstKid (s.ptr p) k sel) := by
  refine Eqv.get fun r1 r2 hs => ?_
  rcases Ren.find_kids hs p sel with ⟨e1, e2⟩ | ⟨q, e, e1, e2, -⟩
  · simp only [e1, e2]; exact Eqv.pure (.inl ⟨rfl, rfl⟩)
  · simp only [e1, e2]
    refine Eqv.bind (Eqv.wrapAs k q) ?_
    rintro n1 n2 ⟨⟨rfl, hd⟩, a, q', rfl⟩
    exact Eqv.pure (.inr ⟨a, q', rfl, rfl, hd⟩)

mutual
theorem build_eqv (F : FloatOps) (o : Option Ptr) (ign : Bool) :
    (l : Literal) → (field : Ptr) → field.path ≠ [] →
    Eqv s s.vl (buildFromLiteral F o field ign l) (buildFromLiteral F (o.map s.ptr) (s.ptr field) ign l)
  | .mk pos source array orderedMap, field, hf => by
    unfold buildFromLiteral
    refine Eqv.get fun r1 r2 hs => ?_
    simp only [hs.kind]
    split
    · split
      · refine Eqv.bind (buildArray_eqv F array field hf) ?_
        rintro vs _ ⟨rfl, hd⟩
        exact Eqv.pure ⟨rfl, hd⟩
      · split
        · split
          · exact Eqv.pure ⟨rfl, trivial⟩
          · exact Eqv.panic
        · split
          · exact Eqv.pure ⟨rfl, trivial⟩
          · exact Eqv.panic
        · split
          · exact Eqv.pure ⟨rfl, trivial⟩
          · exact Eqv.panic
        · split
          · exact Eqv.pure ⟨rfl, trivial⟩
          · exact Eqv.panic
        · exact Eqv.pure ⟨rfl, trivial⟩
        · exact Eqv.pure ⟨rfl, trivial⟩
        · refine Eqv.bind (getTypeByName_eqv hf _) ?_
          rintro o1 _ ⟨rfl, hd⟩
          cases o1 with
          | none => exact Eqv.panic
          | some n =>
            have hd := hd n rfl
            cases n with
            | wrapped a k p =>
              cases k <;> first | exact Eqv.panic | skip
              · refine Eqv.bind (buildItems_eqv F orderedMap p) ?_
                rintro items _ ⟨rfl, hd⟩
                exact Eqv.pure ⟨rfl, hd⟩
              · refine Eqv.bind (firstKid_eqv p .enumValue _) ?_
                rintro o1 o2 (⟨rfl, rfl⟩ | ⟨a, q, rfl, rfl, hq⟩)
                · exact Eqv.panic
                · refine Eqv.pure ⟨rfl, ?_⟩
                  intro e
                  exact absurd (hq.mpr e) (by simp)
            | «repeated» a t => cases t <;> exact Eqv.panic
            | _ => exact Eqv.panic
    · exact Eqv.panic
theorem buildArray_eqv (F : FloatOps) : (ls : List Literal) → (field : Ptr) → field.path ≠ [] →
    Eqv s s.vls (buildArray F field ls) (buildArray F (s.ptr field) ls)
  | [], field, hf => Eqv.pure ⟨rfl, trivial⟩
  | l :: ls, field, hf => by
    unfold buildArray
    refine Eqv.bind (build_eqv F none true l field hf) ?_
    rintro v _ ⟨rfl, hv⟩
    refine Eqv.bind (buildArray_eqv F ls field hf) ?_
    rintro vs _ ⟨rfl, hvs⟩
    exact Eqv.pure ⟨rfl, hv, hvs⟩
theorem buildItems_eqv (F : FloatOps) : (ls : List (Str × Literal)) → (msg : Ptr) →
    Eqv s s.its (buildItems F msg ls) (buildItems F (s.ptr msg) ls)
  | [], msg => Eqv.pure ⟨rfl, trivial⟩
  | l :: ls, msg => by
    unfold buildItems
    refine Eqv.bind (buildItem_eqv F l msg) ?_
    rintro v _ ⟨rfl, hv⟩
    refine Eqv.bind (buildItems_eqv F ls msg) ?_
    rintro vs _ ⟨rfl, hvs⟩
    exact Eqv.pure ⟨rfl, hv, hvs⟩
theorem buildItem_eqv (F : FloatOps) : (nl : Str × Literal) → (msg : Ptr) →
    Eqv s s.it (buildItem F msg nl) (buildItem F (s.ptr msg) nl)
  | (name, lit), msg => by
    unfold buildItem
    refine Eqv.bind (firstKid_eqv msg .messageField _) ?_
    rintro o1 o2 (⟨rfl, rfl⟩ | ⟨a, q, rfl, rfl, hq⟩)
    · exact Eqv.panic
    · refine Eqv.get fun r1 r2 hs => ?_
      simp only [hs.kind]
      split
      · refine Eqv.bind (build_eqv F none false lit q (fun e => absurd (hq.mpr e) (by simp))) ?_
        rintro v _ ⟨rfl, hv⟩
        exact Eqv.pure ⟨rfl, hv⟩
      · exact Eqv.panic
end

theorem optionValue_eqv (F : FloatOps) {o f : Ptr} (hf : f.path ≠ []) :
    Eqv s s.vl (Option.value F o f) (Option.value F (s.ptr o) (s.ptr f)) := by
  refine Eqv.get fun r1 r2 hs => ?_
  simp only [hs.kind]
  split
  · exact build_eqv F (some o) false _ f hf
  · exact Eqv.panic

theorem val_opt (v : OptVal) : (s.val v).opt = v.opt.map s.ptr := by cases v <;> simp [Ren.val, OptVal.opt]

theorem vals_eq (vs : List OptVal) : s.vals vs = vs.map s.val := by
  induction vs with
  | nil => simp [Ren.vals]
  | cons v vs ih => simp [Ren.vals, ih]

theorem items_eq (vs : List (Str × OptVal)) : s.items vs = vs.map (fun kv => (kv.1, s.val kv.2)) := by
  induction vs with
  | nil => simp [Ren.items]
  | cons v vs ih => rcases v with ⟨k, v⟩; simp [Ren.items, Ren.item, ih]

theorem deepVals_mem {vs : List OptVal} (h : DeepVals vs) : ∀ v ∈ vs, DeepVal v := by
  induction vs with
  | nil => intro v hv; cases hv
  | cons w vs ih =>
    intro v hv
    cases hv with
    | head => exact h.1
    | tail _ hv => exact ih h.2 v hv

theorem deepItems_mem {vs : List (Str × OptVal)} (h : DeepItems vs) : ∀ kv ∈ vs, DeepVal kv.2 := by
  induction vs with
  | nil => intro v hv; cases hv
  | cons w vs ih =>
    intro v hv
    cases hv with
    | head => rcases w with ⟨k, v⟩; exact h.1
    | tail _ hv => exact ih h.2 v hv

theorem parts_eqv {v : OptVal} (h : DeepVal v) : s.nds v.parts (s.val v).parts := by
  cases v with
  | enum o l a p =>
    refine ⟨rfl, ?_⟩
    intro n hn
    simp only [OptVal.parts, List.mem_singleton] at hn
    subst hn
    simp only [DeepVal] at h
    simp [Deep, h]
  | array o vs =>
    refine ⟨?_, ?_⟩
    · simp [OptVal.parts, Ren.val, vals_eq, Ren.node]
    · intro n hn
      simp only [OptVal.parts, List.mem_map] at hn
      obtain ⟨v, hv, rfl⟩ := hn
      exact deepVals_mem (by simpa only [DeepVal] using h) v hv
  | map o l items =>
    refine ⟨?_, ?_⟩
    · simp [OptVal.parts, Ren.val, items_eq, Ren.node]
    · intro n hn
      simp only [OptVal.parts, List.mem_map] at hn
      obtain ⟨kv, hv, rfl⟩ := hn
      exact deepItems_mem (by simpa only [DeepVal] using h) kv hv
  | _ => exact ⟨by simp [OptVal.parts, Ren.val], fun n hn => by simp [OptVal.parts] at hn⟩

mutual
theorem toStr_eqv (F : FloatOps) {r1 r2 : Reg} (hs : Sim s r1 r2) : (v : OptVal) → (s.val v).toStr F r2 = v.toStr F r1
  | .bool _ _ _ => by simp [Ren.val, OptVal.toStr]
  | .int _ _ _ => by simp [Ren.val, OptVal.toStr]
  | .uint _ _ _ => by simp [Ren.val, OptVal.toStr]
  | .float _ _ _ => by simp [Ren.val, OptVal.toStr]
  | .string _ _ _ => by simp [Ren.val, OptVal.toStr]
  | .bytes _ _ _ => by simp [Ren.val, OptVal.toStr]
  | .enum _ _ _ p => by
    have h1 := hs.kind p
    have h2 := hs.kind ⟨p.file, p.path.tail⟩
    simp only [Ren.ptr] at h1 h2
    simp only [Ren.val, OptVal.toStr, Ren.ptr, h1, h2]
  | .array _ vs => by simp only [Ren.val, OptVal.toStr, toStrs_eqv F hs vs]
  | .map _ _ items => by simp only [Ren.val, OptVal.toStr, toStrItems_eqv F hs items]
theorem toStrs_eqv (F : FloatOps) {r1 r2 : Reg} (hs : Sim s r1 r2) :
    (vs : List OptVal) → OptVal.toStrs F r2 (s.vals vs) = OptVal.toStrs F r1 vs
  | [] => by simp [Ren.vals, OptVal.toStrs]
  | v :: vs => by simp only [Ren.vals, OptVal.toStrs, toStr_eqv F hs v, toStrs_eqv F hs vs]
theorem toStrItems_eqv (F : FloatOps) {r1 r2 : Reg} (hs : Sim s r1 r2) :
    (vs : List (Str × OptVal)) → OptVal.toStrItems F r2 (s.items vs) = OptVal.toStrItems F r1 vs
  | [] => by simp [Ren.items, OptVal.toStrItems]
  | kv :: vs => by
    simp only [Ren.items, OptVal.toStrItems, toStrItem_eqv F hs kv, toStrItems_eqv F hs vs]
theorem toStrItem_eqv (F : FloatOps) {r1 r2 : Reg} (hs : Sim s r1 r2) :
    (kv : Str × OptVal) → OptVal.toStrItem F r2 (s.item kv) = OptVal.toStrItem F r1 kv
  | (k, v) => by simp only [Ren.item, OptVal.toStrItem, toStr_eqv F hs v]
end

end Protoast
