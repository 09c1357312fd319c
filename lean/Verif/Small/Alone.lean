import Verif.Small.Calls
/-
  A program that runs alone does what the model says.
-/
namespace Protoast.Small
open Protoast

variable {α β : Type}

/-- The programs of the two languages agree. -/
abbrev Is (p : P α) (m : M α) : Prop := p.alone = m

theorem alone_handle (ok : α → P β) (failed : Panic → P β) (p : P α) (r : Reg) :
    (p.handle ok failed).alone r = match p.alone r with
      | (.ok x, r') => (ok x).alone r'
      | (.panic e, r') => (failed e).alone r'
      | (.timeout, r') => (.timeout, r') := by
  induction p generalizing r with
  | ret x => rfl
  | panic e => rfl
  | timeout => rfl
  | read k ih => exact ih r r
  | alloc k ih => exact ih _ _
  | parse f k ih => exact ih _ _
  | write w k ih => exact ih _

theorem Is.bind {p : P α} {m : M α} {f : α → P β} {g : α → M β} (h : Is p m) (k : ∀ x, Is (f x) (g x)) :
    Is (p >>= f) (m >>= g) := by
  funext r
  show (p.handle f .panic).alone r = _
  rw [alone_handle, h]
  simp only [M.bind_apply]
  rcases m r with ⟨res, r'⟩
  cases res with
  | ok x => exact congrFun (k x) r'
  | panic e => rfl
  | timeout => rfl

theorem Is.pure (x : α) : Is (Pure.pure x) (Pure.pure x) := rfl
theorem Is.panic (e : Panic) : Is (P.panic e : P α) (M.panic e) := rfl
theorem Is.timeout : Is (P.timeout : P α) (fun r => (.timeout, r)) := rfl
theorem Is.get : Is P.get M.get := rfl
theorem Is.new : Is P.new M.alloc := rfl

/-- Extensible list of lemmas. -/
syntax "is_lemma" : tactic
macro_rules | `(tactic| is_lemma) => `(tactic| fail)
macro_rules | `(tactic| is_lemma) => `(tactic| with_reducible exact Is.pure _)
macro_rules | `(tactic| is_lemma) => `(tactic| with_reducible exact Is.panic _)
macro_rules | `(tactic| is_lemma) => `(tactic| with_reducible exact Is.timeout)
macro_rules | `(tactic| is_lemma) => `(tactic| with_reducible exact Is.get)
macro_rules | `(tactic| is_lemma) => `(tactic| with_reducible exact Is.new)

/-- Prove that a program is the model's function, by the same structure. -/
syntax "same_code" : tactic
macro_rules
  | `(tactic| same_code) => `(tactic| repeat' (first | is_lemma | assumption | with_reducible apply Is.bind | intro _ | (split <;> first | (rename_i heq; simp only [heq]) | dsimp only | skip) | (exfalso; simp_all; done)))

theorem Is.wrap (v) : Is (wrap v) (Protoast.wrap v) := by
  funext r
  unfold Small.wrap Protoast.wrap
  show P.alone _ r = _
  cases h : r.cache v with
  | some n => simp [h, P.get, Bind.bind, P.bind, P.handle, P.alone, Pure.pure, M.pure]
  | none =>
    cases ht : r.wrapTarget v with
    | some kp => simp [h, ht, P.get, Bind.bind, P.bind, P.handle, P.alone, Pure.pure, M.pure, Write.apply]
    | none => simp [h, ht, P.get, Bind.bind, P.bind, P.handle, P.alone, Pure.pure, M.panic, Write.apply]
macro_rules | `(tactic| is_lemma) => `(tactic| with_reducible exact Is.wrap _)

theorem Is.assertKind (k o) : Is (Small.assertKind k o) (Protoast.assertKind k o) := by
  unfold Small.assertKind Protoast.assertKind; same_code
macro_rules | `(tactic| is_lemma) => `(tactic| with_reducible exact Is.assertKind _ _)
theorem Is.wrapAs (k p) : Is (Small.wrapAs k p) (Protoast.wrapAs k p) := by
  unfold Small.wrapAs Protoast.wrapAs; same_code
macro_rules | `(tactic| is_lemma) => `(tactic| with_reducible exact Is.wrapAs _ _)
theorem Is.lookupType (p n) : Is (Small.lookupType p n) (Protoast.lookupType p n) := by
  unfold Small.lookupType Protoast.lookupType; same_code
macro_rules | `(tactic| is_lemma) => `(tactic| with_reducible exact Is.lookupType _ _)
theorem Is.getTypeByName (p n) : Is (Small.getTypeByName p n) (Protoast.getTypeByName p n) := by
  unfold Small.getTypeByName Protoast.getTypeByName; same_code
macro_rules | `(tactic| is_lemma) => `(tactic| with_reducible exact Is.getTypeByName _ _)
theorem Is.nodeByFullName (n) : Is (Small.nodeByFullName n) (Protoast.nodeByFullName n) := by
  unfold Small.nodeByFullName Protoast.nodeByFullName; same_code
macro_rules | `(tactic| is_lemma) => `(tactic| with_reducible exact Is.nodeByFullName _)
theorem Is.firstKid (p k s) : Is (Small.firstKid p k s) (Protoast.firstKid p k s) := by
  unfold Small.firstKid Protoast.firstKid; same_code
macro_rules | `(tactic| is_lemma) => `(tactic| with_reducible exact Is.firstKid _ _ _)
theorem Is.wrapNamed (p) : Is (Small.wrapNamed p) (Protoast.wrapNamed p) := by
  unfold Small.wrapNamed Protoast.wrapNamed; same_code
macro_rules | `(tactic| is_lemma) => `(tactic| with_reducible exact Is.wrapNamed _)
theorem Is.File_name (p) : Is (Small.File.name p) (Protoast.File.name p) := by
  unfold Small.File.name Protoast.File.name; same_code
macro_rules | `(tactic| is_lemma) => `(tactic| with_reducible exact Is.File_name _)
theorem Is.File_package (p) : Is (Small.File.package p) (Protoast.File.package p) := by
  unfold Small.File.package Protoast.File.package; same_code
macro_rules | `(tactic| is_lemma) => `(tactic| with_reducible exact Is.File_package _)
theorem Is.File_type (p n) : Is (Small.File.type p n) (Protoast.File.type p n) := by
  unfold Small.File.type Protoast.File.type
  refine Is.bind Is.get fun r => ?_
  have key : ∀ o : Option (Ptr × Elem), Is
      (match o with
        | some (q, e) =>
          match e.kind with
          | .message _ _ => do let n ← Small.wrapAs .message q; Pure.pure (some n)
          | _ => do let n ← Small.wrapAs .enum q; Pure.pure (some n)
        | none => Pure.pure none)
      (match o with
        | some (q, e) =>
          match e.kind with
          | .message _ _ => do let n ← Protoast.wrapAs .message q; Pure.pure (some n)
          | _ => do let n ← Protoast.wrapAs .enum q; Pure.pure (some n)
        | none => Pure.pure none) := by
    intro o
    rcases o with _ | ⟨q, e⟩
    · exact Is.pure _
    · dsimp only
      cases e.kind <;> exact Is.bind (Is.wrapAs _ _) fun _ => Is.pure _
  exact key _
macro_rules | `(tactic| is_lemma) => `(tactic| with_reducible exact Is.File_type _ _)
theorem Is.Message_name (p) : Is (Small.Message.name p) (Protoast.Message.name p) := by
  unfold Small.Message.name Protoast.Message.name; same_code
macro_rules | `(tactic| is_lemma) => `(tactic| with_reducible exact Is.Message_name _)
theorem Is.Message_isExtension (p) : Is (Small.Message.isExtension p) (Protoast.Message.isExtension p) := by
  unfold Small.Message.isExtension Protoast.Message.isExtension; same_code
macro_rules | `(tactic| is_lemma) => `(tactic| with_reducible exact Is.Message_isExtension _)
theorem Is.Message_type (p n) : Is (Small.Message.type p n) (Protoast.Message.type p n) := by
  unfold Small.Message.type Protoast.Message.type
  refine Is.bind Is.get fun r => ?_
  have key : ∀ o : Option (Ptr × Elem), Is
      (match o with
        | some (q, e) =>
          match e.kind with
          | .message _ _ => do let n ← Small.wrapAs .message q; Pure.pure (some n)
          | _ => do let n ← Small.wrapAs .enum q; Pure.pure (some n)
        | none => Pure.pure none)
      (match o with
        | some (q, e) =>
          match e.kind with
          | .message _ _ => do let n ← Protoast.wrapAs .message q; Pure.pure (some n)
          | _ => do let n ← Protoast.wrapAs .enum q; Pure.pure (some n)
        | none => Pure.pure none) := by
    intro o
    rcases o with _ | ⟨q, e⟩
    · exact Is.pure _
    · dsimp only
      cases e.kind <;> exact Is.bind (Is.wrapAs _ _) fun _ => Is.pure _
  exact key _
macro_rules | `(tactic| is_lemma) => `(tactic| with_reducible exact Is.Message_type _ _)
theorem Is.MessageField_name (p) : Is (Small.MessageField.name p) (Protoast.MessageField.name p) := by
  unfold Small.MessageField.name Protoast.MessageField.name; same_code
macro_rules | `(tactic| is_lemma) => `(tactic| with_reducible exact Is.MessageField_name _)
theorem Is.fieldTypeBody (p) : Is (Small.fieldTypeBody p) (Protoast.fieldTypeBody p) := by
  unfold Small.fieldTypeBody Protoast.fieldTypeBody; same_code
macro_rules | `(tactic| is_lemma) => `(tactic| with_reducible exact Is.fieldTypeBody _)
theorem Is.MessageField_value (p) : Is (Small.MessageField.value p) (Protoast.MessageField.value p) := by
  unfold Small.MessageField.value Protoast.MessageField.value; same_code
macro_rules | `(tactic| is_lemma) => `(tactic| with_reducible exact Is.MessageField_value _)
theorem Is.MessageField_optional (p) : Is (Small.MessageField.optional p) (Protoast.MessageField.optional p) := by
  unfold Small.MessageField.optional Protoast.MessageField.optional; same_code
macro_rules | `(tactic| is_lemma) => `(tactic| with_reducible exact Is.MessageField_optional _)
theorem Is.Enum_name (p) : Is (Small.Enum.name p) (Protoast.Enum.name p) := by
  unfold Small.Enum.name Protoast.Enum.name; same_code
macro_rules | `(tactic| is_lemma) => `(tactic| with_reducible exact Is.Enum_name _)
theorem Is.EnumValue_name (p) : Is (Small.EnumValue.name p) (Protoast.EnumValue.name p) := by
  unfold Small.EnumValue.name Protoast.EnumValue.name; same_code
macro_rules | `(tactic| is_lemma) => `(tactic| with_reducible exact Is.EnumValue_name _)
theorem Is.EnumValue_value (p) : Is (Small.EnumValue.value p) (Protoast.EnumValue.value p) := by
  unfold Small.EnumValue.value Protoast.EnumValue.value; same_code
macro_rules | `(tactic| is_lemma) => `(tactic| with_reducible exact Is.EnumValue_value _)
theorem Is.OneOfBranch_name (p) : Is (Small.OneOfBranch.name p) (Protoast.OneOfBranch.name p) := by
  unfold Small.OneOfBranch.name Protoast.OneOfBranch.name; same_code
macro_rules | `(tactic| is_lemma) => `(tactic| with_reducible exact Is.OneOfBranch_name _)
theorem Is.OneOfBranch_type (p) : Is (Small.OneOfBranch.type p) (Protoast.OneOfBranch.type p) := by
  unfold Small.OneOfBranch.type Protoast.OneOfBranch.type; same_code
macro_rules | `(tactic| is_lemma) => `(tactic| with_reducible exact Is.OneOfBranch_type _)
theorem Is.OneOfBranch_value (p) : Is (Small.OneOfBranch.value p) (Protoast.OneOfBranch.value p) := by
  unfold Small.OneOfBranch.value Protoast.OneOfBranch.value; same_code
macro_rules | `(tactic| is_lemma) => `(tactic| with_reducible exact Is.OneOfBranch_value _)
theorem Is.Service_name (p) : Is (Small.Service.name p) (Protoast.Service.name p) := by
  unfold Small.Service.name Protoast.Service.name; same_code
macro_rules | `(tactic| is_lemma) => `(tactic| with_reducible exact Is.Service_name _)
theorem Is.Method_name (p) : Is (Small.Method.name p) (Protoast.Method.name p) := by
  unfold Small.Method.name Protoast.Method.name; same_code
macro_rules | `(tactic| is_lemma) => `(tactic| with_reducible exact Is.Method_name _)
theorem Is.Method_input (p) : Is (Small.Method.input p) (Protoast.Method.input p) := by
  unfold Small.Method.input Protoast.Method.input; same_code
macro_rules | `(tactic| is_lemma) => `(tactic| with_reducible exact Is.Method_input _)
theorem Is.Method_output (p) : Is (Small.Method.output p) (Protoast.Method.output p) := by
  unfold Small.Method.output Protoast.Method.output; same_code
macro_rules | `(tactic| is_lemma) => `(tactic| with_reducible exact Is.Method_output _)
theorem Is.Map_key (p) : Is (Small.Map.key p) (Protoast.Map.key p) := by
  unfold Small.Map.key Protoast.Map.key; same_code
macro_rules | `(tactic| is_lemma) => `(tactic| with_reducible exact Is.Map_key _)
theorem Is.Map_value (p) : Is (Small.Map.value p) (Protoast.Map.value p) := by
  unfold Small.Map.value Protoast.Map.value; same_code
macro_rules | `(tactic| is_lemma) => `(tactic| with_reducible exact Is.Map_value _)
theorem Is.Import_path (p) : Is (Small.Import.path p) (Protoast.Import.path p) := by
  unfold Small.Import.path Protoast.Import.path; same_code
macro_rules | `(tactic| is_lemma) => `(tactic| with_reducible exact Is.Import_path _)
theorem Is.Syntax_value (p) : Is (Small.Syntax.value p) (Protoast.Syntax.value p) := by
  unfold Small.Syntax.value Protoast.Syntax.value; same_code
macro_rules | `(tactic| is_lemma) => `(tactic| with_reducible exact Is.Syntax_value _)
theorem Is.Package_package (p) : Is (Small.Package.package p) (Protoast.Package.package p) := by
  unfold Small.Package.package Protoast.Package.package; same_code
macro_rules | `(tactic| is_lemma) => `(tactic| with_reducible exact Is.Package_package _)
theorem Is.optionClass (n) : Is (Small.optionClass n) (Protoast.optionClass n) := by
  unfold Small.optionClass Protoast.optionClass; same_code
macro_rules | `(tactic| is_lemma) => `(tactic| with_reducible exact Is.optionClass _)
theorem Is.newOption (s c o) : Is (Small.newOption s c o) (Protoast.newOption s c o) := by
  unfold Small.newOption Protoast.newOption; same_code
macro_rules | `(tactic| is_lemma) => `(tactic| with_reducible exact Is.newOption _ _ _)
theorem Is.wrapOption (o c) : Is (Small.wrapOption o c) (Protoast.wrapOption o c) := by
  unfold Small.wrapOption Protoast.wrapOption; same_code
macro_rules | `(tactic| is_lemma) => `(tactic| with_reducible exact Is.wrapOption _ _)
theorem Is.namedOption (n s c p) : Is (Small.namedOption n s c p) (Protoast.namedOption n s c p) := by
  unfold Small.namedOption Protoast.namedOption
  refine Is.bind (Is.optionClass _) fun cls => Is.bind Is.get fun r => ?_
  have key : ∀ o : Option (Ptr × Elem), Is
      (match o with
        | some (q, _) => do let o ← Small.newOption s cls q; Pure.pure (some o)
        | none => Pure.pure none)
      (match o with
        | some (q, _) => do let o ← Protoast.newOption s cls q; Pure.pure (some o)
        | none => Pure.pure none) := by
    intro o
    rcases o with _ | ⟨q, e⟩
    · exact Is.pure _
    · exact Is.bind (Is.newOption _ _ _) fun _ => Is.pure _
  exact key _
macro_rules | `(tactic| is_lemma) => `(tactic| with_reducible exact Is.namedOption _ _ _ _)
theorem Is.optionNamed (n s) : Is (Small.optionNamed n s) (Protoast.optionNamed n s) := by
  unfold Small.optionNamed Protoast.optionNamed; same_code
macro_rules | `(tactic| is_lemma) => `(tactic| with_reducible exact Is.optionNamed _ _)
theorem Is.Option_name (o c f) : Is (Small.Option.name o c f) (Protoast.Option.name o c f) := by
  unfold Small.Option.name Protoast.Option.name; same_code
macro_rules | `(tactic| is_lemma) => `(tactic| with_reducible exact Is.Option_name _ _ _)
theorem Is.nodeIndex (n) : Is (Small.nodeIndex n) (Protoast.nodeIndex n) := by
  unfold Small.nodeIndex Protoast.nodeIndex; same_code
macro_rules | `(tactic| is_lemma) => `(tactic| with_reducible exact Is.nodeIndex _)
theorem Is.comment (n) : Is (Small.comment n) (Protoast.comment n) := by
  unfold Small.comment Protoast.comment; same_code
macro_rules | `(tactic| is_lemma) => `(tactic| with_reducible exact Is.comment _)
theorem Is.elemPos (p) : Is (Small.elemPos p) (Protoast.elemPos p) := by
  unfold Small.elemPos Protoast.elemPos; same_code
macro_rules | `(tactic| is_lemma) => `(tactic| with_reducible exact Is.elemPos _)
theorem Is.filePos (p) : Is (Small.filePos p) (Protoast.filePos p) := by
  unfold Small.filePos Protoast.filePos; same_code
macro_rules | `(tactic| is_lemma) => `(tactic| with_reducible exact Is.filePos _)


/-! ### Load -/

theorem Is.protoFile (W path) : Is (Small.protoFile W path) (Protoast.protoFile W path) := by
  funext r
  unfold Small.protoFile Protoast.protoFile
  show P.alone _ r = _
  cases h : r.protos path with
  | some i => simp [h, P.get, Bind.bind, P.bind, P.handle, P.alone, Pure.pure, M.pure]
  | none =>
    cases hl : locate path W.resolvers with
    | error e => simp [h, hl, P.get, Bind.bind, P.bind, P.handle, P.alone, Pure.pure, M.pure]
    | ok nm =>
      by_cases hn : nm = []
      · simp [h, hl, hn, P.get, Bind.bind, P.bind, P.handle, P.alone, Pure.pure, M.pure]
      · cases hw : W.load nm path with
        | error e => simp [h, hl, hn, hw, P.get, Bind.bind, P.bind, P.handle, P.alone, Pure.pure, M.pure]
        | ok elems => simp [h, hl, hn, hw, P.get, Bind.bind, P.bind, P.handle, P.alone, Pure.pure, M.pure, Write.apply]
macro_rules | `(tactic| is_lemma) => `(tactic| with_reducible exact Is.protoFile _ _)
theorem Is.setName (n p) : Is (Small.setName n p) (Protoast.setName n p) := rfl
macro_rules | `(tactic| is_lemma) => `(tactic| with_reducible exact Is.setName _ _)
theorem Is.setScope (v s) : Is (Small.setScope v s) (Protoast.setScope v s) := rfl
macro_rules | `(tactic| is_lemma) => `(tactic| with_reducible exact Is.setScope _ _)

mutual
theorem Is.visit {imp : Str → P Unit} {imp' : Str → M Unit} (h : ∀ f, Is (imp f) (imp' f)) (key : Vis) :
    (e : Elem) → ∀ p s, Is (Small.visit imp key e p s) (Protoast.visit imp' key e p s)
  | .mk _ _ k cs => by
    intro p s
    have ih := Is.visitAll h key cs
    cases k
    case message name ext =>
      cases ext <;> (simp only [Small.visit, Protoast.visit]; repeat' (first | is_lemma | exact ih _ _ _ | apply Is.bind | intro _ | split))
      all_goals (first | exact ih _ _ _ | simp_all)
    case importK f =>
      simp only [Small.visit, Protoast.visit]
      exact Is.bind (h f) fun _ => Is.pure _
    all_goals (
      simp only [Small.visit, Protoast.visit]
      repeat' (first | is_lemma | exact ih _ _ _ | apply Is.bind | intro _))
theorem Is.visitAll {imp : Str → P Unit} {imp' : Str → M Unit} (h : ∀ f, Is (imp f) (imp' f)) (key : Vis) :
    (es : List Elem) → ∀ p n s, Is (Small.visitAll imp key es p n s) (Protoast.visitAll imp' key es p n s)
  | [] => fun p n s => by simp only [Small.visitAll, Protoast.visitAll]; exact Is.pure _
  | e :: es => fun p n s => by
    simp only [Small.visitAll, Protoast.visitAll]
    exact Is.bind (Is.visit h key e _ _) fun _ => Is.visitAll h key es _ _ _
end

theorem Is.acceptFile {imp : Str → P Unit} {imp' : Str → M Unit} (h : ∀ f, Is (imp f) (imp' f)) (key i) :
    Is (Small.acceptFile imp key i) (Protoast.acceptFile imp' key i) :=
  Is.bind Is.get fun _ => Is.bind (Is.visitAll h key _ _ _ _) fun _ => Is.pure _

theorem Is.visitImport (W : World) : ∀ n path, Is (Small.visitImport W n path) (Protoast.visitImport W n path) := by
  intro n
  induction n with
  | zero => exact fun _ => Is.timeout
  | succ n ih =>
    intro path
    unfold Small.visitImport Protoast.visitImport
    refine Is.bind Is.get fun r => ?_
    cases r.protos path with
    | some i => exact Is.pure _
    | none =>
      refine Is.bind (Is.protoFile _ _) fun x => ?_
      cases x with
      | error e => exact Is.panic _
      | ok i => exact Is.acceptFile ih _ _

theorem Is.demarkFile (W fuel path) : Is (Small.demarkFile W fuel path) (Protoast.demarkFile W fuel path) := by
  refine Is.bind (Is.protoFile _ _) fun x => ?_
  cases x with
  | error e => exact Is.pure _
  | ok i => exact Is.bind (Is.acceptFile (Is.visitImport W fuel) _ _) fun _ => Is.pure _

theorem Is.newFile (i) : Is (Small.newFile i) (Protoast.newFile i) := rfl

theorem Is.proto (W fuel path) : Is (Small.proto W fuel path) (Protoast.proto W fuel path) := by
  refine Is.bind Is.get fun r => ?_
  cases r.protos path with
  | some i => exact Is.bind (Is.newFile i) fun _ => Is.pure _
  | none =>
    refine Is.bind (Is.demarkFile _ _ _) fun x => ?_
    cases x with
    | error e => exact Is.pure _
    | ok u =>
      refine Is.bind Is.get fun r => ?_
      cases r.protos path with
      | some i => exact Is.bind (Is.newFile i) fun _ => Is.pure _
      | none => exact Is.pure _

end Protoast.Small
