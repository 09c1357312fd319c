import Verif.Small.Alone
import Verif.Proof.Rename2
/-
  A program that runs alone does what the model says, continued: iterators, values, and whole calls.
-/
namespace Protoast.Small
open Protoast

variable {α β γ δ : Type}

theorem Is.MessageField_type (a p) : Is (Small.MessageField.type a p) (Protoast.MessageField.type a p) := by
  funext r
  unfold Small.MessageField.type Protoast.MessageField.type
  show P.alone (P.handle _ _ _) r = _
  rw [alone_handle]
  show P.alone (match r.ftcache a with | some t => _ | none => _) r = _
  cases r.ftcache a with
  | some t => rfl
  | none =>
    simp only [P.deferred, alone_handle]
    rw [Is.fieldTypeBody]
    rcases Protoast.fieldTypeBody p r with ⟨res, r'⟩
    cases res <;> rfl
macro_rules | `(tactic| is_lemma) => `(tactic| with_reducible exact Is.MessageField_type _ _)

/-! ### Iterators -/

/-- The outcomes are related. -/
inductive ResRel (R : α → β → Prop) : Res α → Res β → Prop where
  | ok {x y} : R x y → ResRel R (.ok x) (.ok y)
  | panic {e} : ResRel R (.panic e) (.panic e)
  | timeout : ResRel R .timeout .timeout

/-- The programs agree, up to a relation of their results. -/
def IsR (R : α → β → Prop) (p : P α) (m : M β) : Prop :=
  ∀ r, ResRel R (p.alone r).1 (m r).1 ∧ (p.alone r).2 = (m r).2

theorem IsR.ofIs {p : P α} {m : M α} (h : Is p m) : IsR Eq p m := by
  intro r
  have h : p.alone = m := h
  rw [h]
  refine ⟨?_, rfl⟩
  cases (m r).1
  · exact .ok rfl
  · exact .panic
  · exact .timeout

theorem IsR.toIs {p : P α} {m : M α} (h : IsR Eq p m) : Is p m := by
  funext r
  obtain ⟨h1, h2⟩ := h r
  refine Prod.ext ?_ h2
  generalize (p.alone r).1 = a at h1
  generalize (m r).1 = b at h1
  cases h1 with
  | ok e => rw [e]
  | panic => rfl
  | timeout => rfl

theorem IsR.bind {R : α → β → Prop} {S : γ → δ → Prop} {p : P α} {m : M β} {f : α → P γ} {g : β → M δ} (h : IsR R p m)
    (k : ∀ x y, R x y → IsR S (f x) (g y)) : IsR S (p >>= f) (m >>= g) := by
  intro r
  show ResRel S ((p.handle f .panic).alone r).1 _ ∧ ((p.handle f .panic).alone r).2 = _
  rw [alone_handle]
  simp only [M.bind_apply]
  obtain ⟨h1, h2⟩ := h r
  rcases hp : p.alone r with ⟨res, r'⟩
  rcases hm : m r with ⟨res', r''⟩
  rw [hp, hm] at h1 h2
  simp only at h1 h2
  subst h2
  cases h1 with
  | ok e => exact k _ _ e r'
  | panic => exact ⟨.panic, rfl⟩
  | timeout => exact ⟨.timeout, rfl⟩

theorem IsR.pure {R : α → β → Prop} {x y} (h : R x y) : IsR R (Pure.pure x) (Pure.pure y) := fun _ => ⟨.ok h, rfl⟩
theorem IsR.panic {R : α → β → Prop} (e : Panic) : IsR R (P.panic e) (M.panic e) := fun _ => ⟨.panic, rfl⟩

/-- The steps of an iterator agree. -/
abbrev StepsIs : List (P α) → List (M α) → Prop := AllRel Is

theorem IsR.overKids (p : Ptr) {pick : Ptr → Kind → Option (P α)} {pick' : Ptr → Kind → Option (M α)}
    (h : ∀ q k, (pick q k = none ∧ pick' q k = none) ∨ ∃ s s', pick q k = some s ∧ pick' q k = some s' ∧ Is s s') :
    IsR StepsIs (Small.overKids p pick) (Protoast.overKids p pick') := by
  refine IsR.bind (IsR.ofIs Is.get) ?_
  rintro r _ rfl
  refine IsR.pure ?_
  generalize r.kids p = l
  induction l with
  | nil => exact .nil
  | cons qe l ih =>
    simp only [List.filterMap_cons]
    rcases h qe.1 qe.2.kind with ⟨e1, e2⟩ | ⟨s, s', e1, e2, hs⟩
    · rw [e1, e2]; exact ih
    · rw [e1, e2]; exact .cons hs ih

theorem Is.nth {q : Small.Seq α} {q' : Protoast.Seq α} (h : IsR StepsIs q q') (i : Nat) :
    Is (q.nth i) (q'.nth i) := by
  refine IsR.toIs (IsR.bind h fun l1 l2 hl => ?_)
  rcases AllRel.get hl i with ⟨e1, e2⟩ | ⟨s1, s2, e1, e2, hm⟩
  · simp only [e1, e2]; exact IsR.pure rfl
  · simp only [e1, e2]
    exact IsR.ofIs (Is.bind hm fun _ => Is.pure _)

theorem Is.runSteps {σ : Type} {b : σ → α → P (σ × Bool)} {b' : σ → α → M (σ × Bool)}
    (hb : ∀ st x, Is (b st x) (b' st x)) {l1 : List (P α)} {l2 : List (M α)} (h : StepsIs l1 l2) :
    ∀ st, Is (Small.runSteps b l1 st) (Protoast.runSteps b' l2 st) := by
  induction h with
  | nil => intro st; exact Is.pure _
  | cons h _ ih =>
    intro st
    refine Is.bind h fun x => Is.bind (hb st x) ?_
    rintro ⟨st', go⟩
    cases go
    · exact Is.pure _
    · exact ih st'

theorem Is.collectSteps {l1 : List (P α)} {l2 : List (M α)} (h : StepsIs l1 l2) :
    Is (Small.collectSteps l1) (Protoast.collectSteps l2) := by
  induction h with
  | nil => exact Is.pure _
  | cons h _ ih => exact Is.bind h fun _ => Is.bind ih fun _ => Is.pure _

/-- Solve the side goal of `IsR.overKids`. -/
local macro "picks" : tactic => `(tactic| (
  intro q k
  cases k with
  | message n e => cases e <;> first | exact .inl ⟨rfl, rfl⟩ | exact .inr ⟨_, _, rfl, rfl, by same_code⟩
  | _ => first | exact .inl ⟨rfl, rfl⟩ | exact .inr ⟨_, _, rfl, rfl, by same_code⟩))

theorem File_imports_is (p) : IsR StepsIs (File.imports p) (Protoast.File.imports p) := IsR.overKids p (by picks)
theorem File_messages_is (p) : IsR StepsIs (File.messages p) (Protoast.File.messages p) := IsR.overKids p (by picks)
theorem File_enums_is (p) : IsR StepsIs (File.enums p) (Protoast.File.enums p) := IsR.overKids p (by picks)
theorem File_types_is (p) : IsR StepsIs (File.types p) (Protoast.File.types p) := IsR.overKids p (by picks)
theorem File_services_is (p) : IsR StepsIs (File.services p) (Protoast.File.services p) := IsR.overKids p (by picks)
theorem Message_fields_is (p) : IsR StepsIs (Message.fields p) (Protoast.Message.fields p) := IsR.overKids p (by picks)
theorem Message_messages_is (p) : IsR StepsIs (Message.messages p) (Protoast.Message.messages p) := IsR.overKids p (by picks)
theorem Message_types_is (p) : IsR StepsIs (Message.types p) (Protoast.Message.types p) := IsR.overKids p (by picks)
theorem Enum_values_is (p) : IsR StepsIs (Enum.values p) (Protoast.Enum.values p) := IsR.overKids p (by picks)
theorem Enum_enums_is (p) : IsR StepsIs (Enum.enums p) (Protoast.Enum.enums p) := IsR.overKids p (by picks)
theorem OneOf_branches_is (p) : IsR StepsIs (OneOf.branches p) (Protoast.OneOf.branches p) := IsR.overKids p (by picks)
theorem Service_methods_is (p) : IsR StepsIs (Service.methods p) (Protoast.Service.methods p) := IsR.overKids p (by picks)
theorem everything_is (c p) : IsR StepsIs (Small.overKids p (Small.everythingStep c)) (Protoast.overKids p (Protoast.everythingStep c)) :=
  IsR.overKids p (by picks)
theorem Method_options_is (p) : IsR StepsIs (Method.options p) (Protoast.Method.options p) := IsR.overKids p (by picks)

theorem seqOptions_is (s c p) : IsR (IsR StepsIs) (seqOptions s c p) (Protoast.seqOptions s c p) := by
  refine IsR.bind (IsR.ofIs (Is.optionClass _)) ?_
  rintro cls _ rfl
  exact IsR.pure (IsR.overKids p (by picks))

theorem options_is (n) : IsR (IsR StepsIs) (options n) (Protoast.options n) := by
  unfold options Protoast.options
  split
  · refine IsR.bind (IsR.ofIs Is.get) ?_
    rintro r _ rfl
    rename_i k p
    cases k
    case messageField =>
      cases hk : r.kind p with
      | none => exact IsR.panic _
      | some kd => cases kd <;> first | exact seqOptions_is _ _ _ | exact IsR.panic _
    all_goals first | exact seqOptions_is _ _ _ | exact IsR.panic _
  · refine IsR.bind (IsR.ofIs Is.get) ?_
    rintro r _ rfl
    exact seqOptions_is _ _ _
  · split
    · exfalso; simp_all; done
    · exfalso; simp_all; done
    · exact IsR.panic _

theorem Reserved_values_is (p) : IsR StepsIs (Reserved.values p) (Protoast.Reserved.values p) := by
  unfold Reserved.values Protoast.Reserved.values
  refine IsR.bind (IsR.ofIs Is.get) ?_
  rintro r _ rfl
  split <;> rename_i heq <;> simp only [heq]
  · exact IsR.pure ((AllRel.of_eq (fun _ => Is.pure _) _).append (AllRel.of_eq (fun _ => Is.pure _) _))
  · exact IsR.panic _

/-! ### Lookups -/

theorem Is.File_message (p n) : Is (Small.File.message p n) (Protoast.File.message p n) := Is.firstKid _ _ _
theorem Is.File_enum (p n) : Is (Small.File.enum p n) (Protoast.File.enum p n) := Is.firstKid _ _ _
theorem Is.File_service (p n) : Is (Small.File.service p n) (Protoast.File.service p n) := Is.firstKid _ _ _
theorem Is.Message_field (p n) : Is (Small.Message.field p n) (Protoast.Message.field p n) := Is.firstKid _ _ _
theorem Is.Message_message (p n) : Is (Small.Message.message p n) (Protoast.Message.message p n) := Is.firstKid _ _ _
theorem Is.Enum_value (p n) : Is (Small.Enum.value p n) (Protoast.Enum.value p n) := Is.firstKid _ _ _
theorem Is.Enum_enum (p n) : Is (Small.Enum.enum p n) (Protoast.Enum.enum p n) := Is.firstKid _ _ _
theorem Is.OneOf_branch (p n) : Is (Small.OneOf.branch p n) (Protoast.OneOf.branch p n) := Is.firstKid _ _ _
theorem Is.Service_method (p n) : Is (Small.Service.method p n) (Protoast.Service.method p n) := Is.firstKid _ _ _
macro_rules | `(tactic| is_lemma) => `(tactic| with_reducible exact Is.Message_field _ _)
macro_rules | `(tactic| is_lemma) => `(tactic| with_reducible exact Is.Enum_value _ _)

/-! ### Option values -/

mutual
theorem Is.buildFromLiteral (F : FloatOps) (o : Option Ptr) (f : Ptr) (ig : Bool) :
    (l : Literal) → Is (Small.buildFromLiteral F o f ig l) (Protoast.buildFromLiteral F o f ig l)
  | .mk pos source array om => by
    have ha := Is.buildArray F f array
    have hi := fun mp => Is.buildItems F mp om
    unfold Small.buildFromLiteral Protoast.buildFromLiteral
    refine Is.bind Is.get fun r => ?_
    cases hk : r.kind f with
    | none => exact Is.panic _
    | some k =>
      cases k
      case normalField n t s rep opt =>
        dsimp only
        split
        · exact Is.bind ha fun _ => Is.pure _
        · cases scalarClass t <;> dsimp only
          · cases parseBool source <;> first | exact Is.pure _ | exact Is.panic _
          · cases atoi source <;> first | exact Is.pure _ | exact Is.panic _
          · cases parseUint source <;> first | exact Is.pure _ | exact Is.panic _
          · cases F.parse source <;> first | exact Is.pure _ | exact Is.panic _
          · exact Is.pure _
          · exact Is.pure _
          · refine Is.bind (Is.getTypeByName _ _) fun x => ?_
            rcases x with _ | x
            · exact Is.panic _
            · cases x
              case wrapped a k p =>
                cases k
                case enum =>
                  refine Is.bind (Is.Enum_value _ _) fun y => ?_
                  rcases y with _ | y
                  · exact Is.panic _
                  · cases y <;> first | exact Is.panic _ | exact Is.pure _
                case message => exact Is.bind (hi _) fun _ => Is.pure _
                all_goals exact Is.panic _
              all_goals exact Is.panic _
      all_goals exact Is.panic _
theorem Is.buildArray (F : FloatOps) (f : Ptr) : (ls : List Literal) →
    Is (Small.buildArray F f ls) (Protoast.buildArray F f ls)
  | [] => by unfold Small.buildArray Protoast.buildArray; exact Is.pure _
  | l :: ls => by
    have h1 := Is.buildFromLiteral F none f true l
    have h2 := Is.buildArray F f ls
    unfold Small.buildArray Protoast.buildArray
    exact Is.bind h1 fun _ => Is.bind h2 fun _ => Is.pure _
theorem Is.buildItems (F : FloatOps) (m : Ptr) : (ls : List (Str × Literal)) →
    Is (Small.buildItems F m ls) (Protoast.buildItems F m ls)
  | [] => by unfold Small.buildItems Protoast.buildItems; exact Is.pure _
  | nl :: rest => by
    have h1 := Is.buildItem F m nl
    have h2 := Is.buildItems F m rest
    unfold Small.buildItems Protoast.buildItems
    exact Is.bind h1 fun _ => Is.bind h2 fun _ => Is.pure _
theorem Is.buildItem (F : FloatOps) (m : Ptr) : (nl : Str × Literal) →
    Is (Small.buildItem F m nl) (Protoast.buildItem F m nl)
  | (name, lit) => by
    have h1 := fun fp => Is.buildFromLiteral F none fp false lit
    unfold Small.buildItem Protoast.buildItem
    refine Is.bind (Is.Message_field _ _) fun y => ?_
    rcases y with _ | y
    · exact Is.panic _
    · cases y
      case wrapped a k fp =>
        refine Is.bind Is.get fun r => ?_
        rcases r.kind fp with _ | k
        · exact Is.panic _
        · cases k
          case normalField => exact Is.bind (h1 _) fun _ => Is.pure _
          all_goals exact Is.panic _
      all_goals exact Is.panic _
end
macro_rules | `(tactic| is_lemma) => `(tactic| with_reducible exact Is.buildFromLiteral _ _ _ _ _)

theorem Is.Option_value (F o f) : Is (Small.Option.value F o f) (Protoast.Option.value F o f) := by
  unfold Small.Option.value Protoast.Option.value; same_code
macro_rules | `(tactic| is_lemma) => `(tactic| with_reducible exact Is.Option_value _ _ _)

/-! ### Meta queries -/

theorem Is.nodeDescription : (n : Node) → Is (Small.nodeDescription n) (Protoast.nodeDescription n)
  | .repeated _ (some t) => by
    have := Is.nodeDescription t
    unfold Small.nodeDescription Protoast.nodeDescription; same_code
  | .wrapped _ k _ => by cases k <;> (unfold Small.nodeDescription Protoast.nodeDescription; same_code)
  | .repeated _ none | .option _ _ _ _ | .oneof _ _ | .map _ _ | .builtin _ | .value _
  | .mapItem _ _ => by unfold Small.nodeDescription Protoast.nodeDescription; same_code
macro_rules | `(tactic| is_lemma) => `(tactic| with_reducible exact Is.nodeDescription _)

theorem Is.typeName : (n : Node) → Is (Small.typeName n) (Protoast.typeName n)
  | .repeated _ (some t) => by
    have := Is.typeName t
    unfold Small.typeName Protoast.typeName; same_code
  | .wrapped _ k _ => by cases k <;> (unfold Small.typeName Protoast.typeName; same_code)
  | .repeated _ none | .option _ _ _ _ | .oneof _ _ | .map _ _ | .builtin _ | .value _
  | .mapItem _ _ => by unfold Small.typeName Protoast.typeName; same_code
macro_rules | `(tactic| is_lemma) => `(tactic| with_reducible exact Is.typeName _)

theorem Is.nodeParent : (n : Node) → Is (Small.nodeParent n) (Protoast.nodeParent n)
  | .repeated _ (some t) => by
    have := Is.nodeParent t
    unfold Small.nodeParent Protoast.nodeParent; same_code
  | .wrapped _ k _ => by cases k <;> (unfold Small.nodeParent Protoast.nodeParent; same_code)
  | .repeated _ none | .option _ _ _ _ | .oneof _ _ | .map _ _ | .builtin _ | .value _
  | .mapItem _ _ => by unfold Small.nodeParent Protoast.nodeParent; same_code
macro_rules | `(tactic| is_lemma) => `(tactic| with_reducible exact Is.nodeParent _)

theorem Is.nodeHierarchy (n : Nat) : ∀ o, Is (Small.nodeHierarchy n o) (Protoast.nodeHierarchy n o) := by
  induction n with
  | zero =>
    intro o
    cases o with
    | none => rw [Small.nodeHierarchy, Protoast.nodeHierarchy]; exact Is.pure _
    | some n => exact Is.timeout
  | succ n ih =>
    intro o
    cases o
    · rw [Small.nodeHierarchy, Protoast.nodeHierarchy]; exact Is.pure _
    · rw [Small.nodeHierarchy, Protoast.nodeHierarchy]
      exact Is.bind (Is.nodeParent _) fun a => Is.bind (ih a) fun _ => Is.pure _
macro_rules | `(tactic| is_lemma) => `(tactic| with_reducible exact Is.nodeHierarchy _ _)

theorem Is.nodePos : (n : Node) → Is (Small.nodePos n) (Protoast.nodePos n)
  | .repeated _ (some t) => by
    have := Is.nodePos t
    unfold Small.nodePos Protoast.nodePos; same_code
  | .wrapped _ k _ => by cases k <;> (unfold Small.nodePos Protoast.nodePos; same_code)
  | .repeated _ none | .option _ _ _ _ | .oneof _ _ | .map _ _ | .builtin _ | .value _
  | .mapItem _ _ => by unfold Small.nodePos Protoast.nodePos; same_code
macro_rules | `(tactic| is_lemma) => `(tactic| with_reducible exact Is.nodePos _)

theorem Is.nodeFile (n) : Is (Small.nodeFile n) (Protoast.nodeFile n) := by
  unfold Small.nodeFile Protoast.nodeFile; same_code
macro_rules | `(tactic| is_lemma) => `(tactic| with_reducible exact Is.nodeFile _)
theorem Is.posBody (n) : Is (Small.posBody n) (Protoast.posBody n) := by
  cases n
  case wrapped a k p => cases k <;> (unfold Small.posBody Protoast.posBody; same_code)
  case value v => cases v <;> (unfold Small.posBody Protoast.posBody; same_code)
  all_goals (unfold Small.posBody Protoast.posBody; same_code)
theorem Is.lastFile : (l : List Node) → Is (Small.lastFile l) (Protoast.lastFile l)
  | [] => Is.panic _
  | [n] => by
    cases n
    case wrapped a k p => cases k <;> first | exact Is.pure _ | exact Is.panic _
    all_goals exact Is.panic _
  | _ :: b :: rest => by
    rw [Small.lastFile, Protoast.lastFile]
    exact Is.lastFile (b :: rest)
macro_rules | `(tactic| is_lemma) => `(tactic| with_reducible exact Is.lastFile _)
theorem Is.posDefer (a b c) : Is (Small.posDefer a b c) (Protoast.posDefer a b c) := by
  unfold Small.posDefer Protoast.posDefer; same_code
theorem Is.pos (fuel n) : Is (Small.pos fuel n) (Protoast.pos fuel n) := by
  funext r
  unfold Small.pos Protoast.pos
  rw [alone_handle, Is.posBody]
  rcases Protoast.posBody n r with ⟨res, r'⟩
  cases res with
  | ok x => exact congrFun (Is.posDefer _ _ _) _
  | panic e =>
    have : Is (do let _ ← Small.posDefer fuel n {}; P.panic e : P Position)
      (do let _ ← Protoast.posDefer fuel n {}; M.panic e) := Is.bind (Is.posDefer _ _ _) fun _ => Is.panic _
    refine (congrFun this r').trans ?_
    simp only [M.bind_apply]
    rcases Protoast.posDefer fuel n {} r' with ⟨res, r''⟩
    cases res <;> rfl
  | timeout => rfl
macro_rules | `(tactic| is_lemma) => `(tactic| with_reducible exact Is.pos _ _)
theorem Is.typeIsDefined (n s) : Is (Small.typeIsDefined n s) (Protoast.typeIsDefined n s) := by
  unfold Small.typeIsDefined Protoast.typeIsDefined; same_code
macro_rules | `(tactic| is_lemma) => `(tactic| with_reducible exact Is.typeIsDefined _ _)
theorem Is.goPackageOption (n) : Is (Small.goPackageOption n) (Protoast.goPackageOption n) := by
  unfold Small.goPackageOption Protoast.goPackageOption; same_code
macro_rules | `(tactic| is_lemma) => `(tactic| with_reducible exact Is.goPackageOption _)
theorem Is.Option_is (f s) : Is (Small.Option.is f s) (Protoast.Option.is f s) := by
  unfold Small.Option.is Protoast.Option.is; same_code
macro_rules | `(tactic| is_lemma) => `(tactic| with_reducible exact Is.Option_is _ _)
theorem Is.goPackageBody (s x) : Is (Small.goPackageBody s x) (Protoast.goPackageBody s x) := by
  unfold Small.goPackageBody Protoast.goPackageBody; same_code
theorem Is.goPackage (n) : Is (Small.goPackage n) (Protoast.goPackage n) := by
  unfold Small.goPackage Protoast.goPackage
  refine Is.bind (Is.nodeFile n) fun f => ?_
  rcases f with _ | f
  · exact Is.pure _
  · cases f
    case wrapped a k p =>
      cases k
      case file =>
        refine Is.bind (IsR.toIs (IsR.bind (everything_is _ _) fun l1 l2 h => IsR.ofIs (Is.runSteps Is.goPackageBody h _))) fun res => ?_
        cases res <;> exact Is.pure _
      all_goals exact Is.pure _
    all_goals exact Is.pure _
macro_rules | `(tactic| is_lemma) => `(tactic| with_reducible exact Is.goPackage _)

/-! ### Calls -/

theorem Is.IterQ_run (q n i) : Is (Small.IterQ.run q n i) (Protoast.IterQ.run q n i) := by
  unfold Small.IterQ.run Protoast.IterQ.run
  split
  · exact Is.nth (File_imports_is _) i
  · exact Is.nth (File_messages_is _) i
  · exact Is.nth (File_enums_is _) i
  · exact Is.nth (File_types_is _) i
  · exact Is.nth (File_services_is _) i
  · exact Is.bind (Is.nth (everything_is _ _) i) fun _ => Is.pure _
  · exact Is.nth (Message_fields_is _) i
  · exact Is.nth (Message_messages_is _) i
  · exact Is.nth (Message_types_is _) i
  · exact Is.bind (Is.nth (everything_is _ _) i) fun _ => Is.pure _
  · exact Is.nth (Enum_values_is _) i
  · exact Is.nth (Enum_enums_is _) i
  · exact Is.bind (Is.nth (everything_is _ _) i) fun _ => Is.pure _
  · exact Is.nth (OneOf_branches_is _) i
  · exact Is.nth (Service_methods_is _) i
  · exact Is.bind (Is.nth (everything_is _ _) i) fun _ => Is.pure _
  · exact Is.nth (Method_options_is _) i
  · exact IsR.toIs (IsR.bind (options_is _) fun s1 s2 h => IsR.ofIs (Is.nth h i))
  · split <;> first | exact Is.pure _ | (exfalso; simp_all; done)
macro_rules | `(tactic| is_lemma) => `(tactic| with_reducible exact Is.IterQ_run _ _ _)

theorem Is.NamedQ_run (q n s) : Is (Small.NamedQ.run q n s) (Protoast.NamedQ.run q n s) := by
  unfold Small.NamedQ.run Protoast.NamedQ.run
  split
  · exact Is.File_message _ _
  · exact Is.File_enum _ _
  · exact Is.File_type _ _
  · exact Is.File_service _ _
  · exact Is.Message_field _ _
  · exact Is.Message_message _ _
  · exact Is.Message_type _ _
  · exact Is.Enum_value _ _
  · exact Is.Enum_enum _ _
  · exact Is.OneOf_branch _ _
  · exact Is.Service_method _ _
  · exact Is.optionNamed _ _
  · split <;> first | exact Is.pure _ | (exfalso; simp_all; done)
macro_rules | `(tactic| is_lemma) => `(tactic| with_reducible exact Is.NamedQ_run _ _ _)

theorem Is.Attr_read (a n) : Is (Small.Attr.read a n) (Protoast.Attr.read a n) := by
  unfold Small.Attr.read Protoast.Attr.read
  split
  all_goals try (same_code; done)
  refine IsR.toIs (IsR.bind (Reserved_values_is _) fun l1 l2 h => IsR.ofIs ?_)
  exact Is.bind (Is.collectSteps h) fun _ => Is.pure _
macro_rules | `(tactic| is_lemma) => `(tactic| with_reducible exact Is.Attr_read _ _)

theorem Is.assoc {γ : Type} {p : P α} {f : α → P β} {g : β → P γ} {m : M γ} (h : Is (p >>= fun x => f x >>= g) m) :
    Is ((p >>= f) >>= g) m := by
  have h : P.alone (p >>= fun x => f x >>= g) = m := h
  show P.alone ((p >>= f) >>= g) = m
  rw [← h]
  funext r
  show ((p.handle f .panic).handle g .panic).alone r = (p.handle (fun x => (f x).handle g .panic) .panic).alone r
  simp only [alone_handle]
  rcases p.alone r with ⟨res, r'⟩
  cases res <;> simp [P.alone] <;> rfl

end Protoast.Small
