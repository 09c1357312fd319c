import Verif.Proof.Quiet3
import Verif.Proof.Rename4
/-
  Registries that differ in what was asked of them: the remaining API functions and whole calls.
-/
namespace Protoast.Quiet

variable {fl : Bool} {m : Match}

/-- Read the state. -/
local macro "reading" : tactic => `(tactic|
  refine Eqv.read (f := fun r => _)
    (fun r1 r2 hf => by simp only [hf.kind, hf.scope, hf.children, hf.elem, hf.heap, hf.names]) fun m1 hm1 r => ?_)

/-! ### Attributes -/

theorem nodeIndex_eqv {n1 n2 : Node} (h : NRel m n1 n2) : Eqv fl m EqR (nodeIndex n1) (nodeIndex n2) := by
  cases h with
  | @wrapped a b k p h =>
    reading
    cases k <;> simp only <;> first
      | exact Eqv.pure fun _ _ => rfl
      | (split <;> exact Eqv.pure fun _ _ => rfl)
  | oneof h => reading; exact Eqv.pure fun _ _ => rfl
  | map h => reading; exact Eqv.pure fun _ _ => rfl
  | _ => exact Eqv.pure fun _ _ => rfl

theorem nodeDescription_eqv {m : Match} {n1 n2 : Node} (h : NRel m n1 n2) :
    Eqv fl m EqR (nodeDescription n1) (nodeDescription n2) := by
  induction h with
  | @wrapped a b k p h => cases k <;> exact Eqv.pure fun _ _ => rfl
  | option h => exact Eqv.pure fun _ _ => rfl
  | oneof h => exact Eqv.pure fun _ _ => rfl
  | @map a b p h =>
    refine Eqv.bind (mapKey_eqv p) ?_
    rintro m1 hm1 n n' ⟨h1, b, rfl⟩
    cases h1
    exact Eqv.panic
  | repeatedNil h => exact Eqv.panic
  | «repeated» h _ ih =>
    refine Eqv.bind ih ?_
    rintro m1 hm1 d _ rfl
    exact Eqv.pure fun _ _ => rfl
  | _ => exact Eqv.panic

theorem comment_eqv {n1 n2 : Node} (h : NRel m n1 n2) : Eqv fl m EqR (comment n1) (comment n2) := by
  cases h with
  | @wrapped a b k p h =>
    reading
    cases k <;> simp only <;> first
      | exact Eqv.pure fun _ _ => rfl
      | (split <;> first | exact Eqv.pure fun _ _ => rfl | exact Eqv.panic)
  | oneof h => reading; exact Eqv.pure fun _ _ => rfl
  | map h => reading; exact Eqv.pure fun _ _ => rfl
  | _ => exact Eqv.pure fun _ _ => rfl

theorem typeName_eqv {m : Match} {n1 n2 : Node} (h : NRel m n1 n2) : Eqv fl m EqR (typeName n1) (typeName n2) := by
  induction h with
  | @wrapped a b k p h =>
    reading
    cases k <;> simp only <;> first
      | exact Eqv.pure fun _ _ => rfl
      | exact Eqv.panic
  | oneof h => exact Eqv.pure fun _ _ => rfl
  | «repeated» h _ ih =>
    refine Eqv.bind ih ?_
    rintro m1 hm1 d _ rfl
    exact Eqv.pure fun _ _ => rfl
  | builtin => exact Eqv.pure fun _ _ => rfl
  | _ => exact Eqv.panic

/-! ### Parents and positions -/

theorem nodeParent_eqv {m : Match} {n1 n2 : Node} (h : NRel m n1 n2) : Eqv fl m ORel (nodeParent n1) (nodeParent n2) := by
  induction h with
  | @wrapped a b k p h =>
    reading
    cases k <;> simp only <;> first
      | exact Eqv.wrapO _
      | exact Eqv.pureNone
      | (split <;> first | exact Eqv.wrapO _ | exact Eqv.panic)
  | option h => exact Eqv.wrapO _
  | oneof h => exact Eqv.wrapO _
  | «repeated» h _ ih => exact ih
  | @value v w h =>
    simp only [nodeParent, opt_rel h]
    cases v.opt <;> exact Eqv.wrapO _
  | _ => exact Eqv.panic

theorem nodeHierarchy_eqv : ∀ (fuel : Nat) (m : Match) (o1 o2 : Option Node), ORel m o1 o2 →
    Eqv fl m LRel (nodeHierarchy fuel o1) (nodeHierarchy fuel o2) := by
  intro fuel
  induction fuel with
  | zero =>
    intro m o1 o2 h
    cases h with
    | none => exact Eqv.pure fun _ _ => .nil
    | some h => exact fun m' _ r1 r2 hs => ⟨m', Match.le_refl _, trivial, hs, fun e => e.elim⟩
  | succ fuel ih =>
    intro m o1 o2 h
    cases h with
    | none => exact Eqv.pure fun _ _ => .nil
    | some h =>
      refine Eqv.bind (nodeParent_eqv h) fun m1 hm1 p1 p2 hp => ?_
      refine Eqv.bind (ih m1 p1 p2 hp) fun m2 hm2 l1 l2 hl => ?_
      refine Eqv.pure fun m3 hm3 => .cons (h.mono ?_) (LRel.mono hm3 hl)
      exact Match.le_trans hm1 (Match.le_trans hm2 hm3)

theorem nodePos_eqv {m : Match} {n1 n2 : Node} (h : NRel m n1 n2) : Eqv fl m EqR (nodePos n1) (nodePos n2) := by
  induction h with
  | @wrapped a b k p h => cases k <;> first | exact filePos_eqv p | exact elemPos_eqv p
  | option h => exact elemPos_eqv _
  | oneof h => exact elemPos_eqv _
  | map h => exact elemPos_eqv _
  | «repeated» h _ ih => exact ih
  | builtin => exact Eqv.pure fun _ _ => rfl
  | @value v w h =>
    simp only [nodePos, opt_rel h]
    cases v.opt with
    | none => exact Eqv.panic
    | some o => exact elemPos_eqv o
  | _ => exact Eqv.panic

theorem nodeFile_eqv {n1 n2 : Node} (h : NRel m n1 n2) : Eqv fl m ORel (nodeFile n1) (nodeFile n2) := by
  refine Eqv.bind (nodePos_eqv h) ?_
  rintro m1 hm1 pos _ rfl
  refine Eqv.read (fun r1 r2 hf => by simp only [hf.protos]) fun m1 hm1 r => ?_
  split
  · exact Eqv.pureNone
  · exact Eqv.someOf (wrapAs_nd _ _)

theorem posBody_eqv {n1 n2 : Node} (h : NRel m n1 n2) : Eqv fl m EqR (posBody n1) (posBody n2) := by
  cases h with
  | @wrapped a b k p h => cases k <;> first | exact filePos_eqv p | exact elemPos_eqv p
  | option h => exact elemPos_eqv _
  | oneof h => exact elemPos_eqv _
  | map h => exact elemPos_eqv _
  | value h => cases h <;> first | exact Eqv.pure fun _ _ => rfl | exact Eqv.panic
  | _ => exact Eqv.panic

theorem lastFile_eqv {m : Match} {l1 l2 : List Node} (h : LRel m l1 l2) : Eqv fl m EqR (lastFile l1) (lastFile l2) := by
  induction h with
  | nil => exact Eqv.panic
  | cons h hs ih =>
    cases hs with
    | nil =>
      cases h with
      | @wrapped a b k p h => cases k <;> first | exact Eqv.pure fun _ _ => rfl | exact Eqv.panic
      | _ => exact Eqv.panic
    | cons h' hs' =>
      simp only [lastFile]
      exact ih

theorem posDefer_eqv (fuel : Nat) {n1 n2 : Node} (h : NRel m n1 n2) (res : Position) :
    Eqv fl m EqR (posDefer fuel n1 res) (posDefer fuel n2 res) := by
  unfold posDefer
  split
  · exact Eqv.pure fun _ _ => rfl
  · refine Eqv.bind (nodeHierarchy_eqv fuel m _ _ (.some h)) fun m1 hm1 l1 l2 hl => ?_
    refine Eqv.bind (lastFile_eqv hl) ?_
    rintro m2 hm2 p _ rfl
    refine Eqv.bind (fileName_eqv p) ?_
    rintro m3 hm3 nm _ rfl
    exact Eqv.pure fun _ _ => rfl

theorem pos_eqv (fuel : Nat) {n1 n2 : Node} (h : NRel m n1 n2) : Eqv fl m EqR (pos fuel n1) (pos fuel n2) := by
  intro m' hm r1 r2 hs
  obtain ⟨m1, hle, h0, hs', hg⟩ := posBody_eqv (fl := fl) h m' hm r1 r2 hs
  unfold pos
  rcases h1 : posBody n1 r1 with ⟨res1, r1'⟩
  rcases h2 : posBody n2 r2 with ⟨res2, r2'⟩
  rw [h1, h2] at h0 hs'
  rw [h1] at hg
  cases res1 <;> cases res2 <;> simp only [ResRel] at h0 <;> try exact h0.elim
  · rename_i x y
    cases h0
    obtain ⟨m2, hle2, h3, hs2, hg2⟩ := posDefer_eqv (fl := fl) fuel (h.mono (Match.le_trans hm hle)) x m1 (Match.le_refl _) _ _ hs'
    exact ⟨m2, Match.le_trans hle hle2, h3, hs2, fun e => (hg trivial).trans (hg2 e)⟩
  · obtain ⟨m2, hle2, h3, hs2, hg2⟩ := posDefer_eqv (fl := fl) fuel (h.mono (Match.le_trans hm hle)) {} m1 (Match.le_refl _) _ _ hs'
    simp only
    rcases h4 : posDefer fuel n1 {} r1' with ⟨res3, r3⟩
    rcases h5 : posDefer fuel n2 {} r2' with ⟨res4, r4⟩
    rw [h4, h5] at h3 hs2
    rw [h4] at hg2
    have hsame : r1' = r1 := by have := (Rd.posBody n1).same r1; rw [h1] at this; exact this
    subst hsame
    cases res3 <;> cases res4 <;> simp only [ResRel] at h3 <;> try exact h3.elim
    · exact ⟨m2, Match.le_trans hle hle2, h0, hs2, fun _ => hg2 trivial⟩
    · exact ⟨m2, Match.le_trans hle hle2, h3, hs2, fun e => hg2 e⟩
    · exact ⟨m2, Match.le_trans hle hle2, trivial, hs2, fun e => e.elim⟩
  · exact ⟨m1, hle, trivial, hs', fun e => e.elim⟩

/-! ### Simple queries -/

theorem typeIsDefined_eqv {n1 n2 : Node} (h : NRel m n1 n2) (ref : Str) :
    Eqv fl m EqR (typeIsDefined n1 ref) (typeIsDefined n2 ref) := by
  refine Eqv.get fun m1 hm1 r1 r2 hs => ?_
  rw [hs.names]
  cases h with
  | @wrapped a b k p h => cases k <;> exact Eqv.pure fun _ _ => rfl
  | _ => exact Eqv.pure fun _ _ => rfl

theorem goPackageOption_eqv {n1 n2 : Node} (h : NRel m n1 n2) :
    Eqv fl m EqR (goPackageOption n1) (goPackageOption n2) := by
  cases h with
  | option h =>
    reading
    split
    · exact Eqv.panic
    · split
      · exact Eqv.pure fun _ _ => rfl
      · split <;> first | exact Eqv.pure fun _ _ => rfl | exact Eqv.panic
  | _ => exact Eqv.pure fun _ _ => rfl

theorem goPackageBody_eqv (m : Match) (st : Option (Option GoPackageInfo)) (o1 o2 : Option Node) (h : ORel m o1 o2) :
    Eqv fl m EqR (goPackageBody st o1) (goPackageBody st o2) := by
  cases h with
  | none => exact Eqv.pure fun _ _ => rfl
  | some h =>
    cases h with
    | option h =>
      refine Eqv.bind (optionName_eqv _ _ _) ?_
      rintro m1 hm1 nm _ rfl
      split
      · exact Eqv.pure fun _ _ => rfl
      · refine Eqv.bind (goPackageOption_eqv (.option (hm1 _ _ h))) ?_
        rintro m2 hm2 g _ rfl
        exact Eqv.pure fun _ _ => rfl
    | _ => exact Eqv.pure fun _ _ => rfl

theorem goPackage_eqv {n1 n2 : Node} (h : NRel m n1 n2) : Eqv fl m EqR (goPackage n1) (goPackage n2) := by
  refine Eqv.bind (nodeFile_eqv h) fun m1 hm1 o1 o2 ho => ?_
  cases ho with
  | none => exact Eqv.pure fun _ _ => rfl
  | some ho =>
    cases ho with
    | @wrapped a b k p h =>
      cases k <;> first | exact Eqv.pure fun _ _ => rfl | skip
      refine Eqv.bind (R := EqR) ?_ ?_
      · exact Eqv.bind (everything_eqv p registryOptionsFile) fun m2 hm2 l1 l2 hl => runSteps_eqv goPackageBody_eqv hl none
      · rintro m2 hm2 g _ rfl
        cases g <;> exact Eqv.pure fun _ _ => rfl
    | _ => exact Eqv.pure fun _ _ => rfl

theorem optionIs_eqv (f : Ptr) (nm : Str) : Eqv fl m EqR (Option.is f nm) (Option.is f nm) := by
  refine Eqv.bind (Eqv.wrapO (.at f)) fun m1 hm1 o1 o2 ho => ?_
  cases ho with
  | none => exact Eqv.pure fun _ _ => rfl
  | some ho =>
    refine Eqv.bind (nodeIndex_eqv ho) ?_
    rintro m2 hm2 i _ rfl
    exact Eqv.pure fun _ _ => rfl

/-! ### Calls -/

theorem toList_rel {m : Match} {o1 o2} (h : ORel m o1 o2) : LRel m o1.toList o2.toList := by
  cases h with
  | none => exact .nil
  | some h => exact .cons h .nil

theorem opt_of_eqv {m1 m2 : M (Option Node)} (h : Eqv fl m ORel m1 m2) :
    Eqv fl m LRel (m1 >>= fun x => Pure.pure x.toList) (m2 >>= fun x => Pure.pure x.toList) :=
  Eqv.bind h fun _ _ _ _ h => Eqv.pure fun _ hm => LRel.mono hm (toList_rel h)

theorem iterRun_eqv (q : IterQ) {n1 n2 : Node} (h : NRel m n1 n2) (i : Nat) : Eqv fl m ORel (q.run n1 i) (q.run n2 i) := by
  by_cases ho : q = .options
  · subst ho
    have := Eqv.bind (options_eqv (fl := fl) h) fun _ _ _ _ h => Eqv.nthNode h i
    cases h <;> exact this
  · cases h with
    | @wrapped a b k p h =>
      cases k <;> cases q <;> first
        | exact Eqv.pureNone
        | exact (ho rfl).elim
        | exact Eqv.nthNode (fileImports_eqv p) i
        | exact Eqv.nthNode (fileMessages_eqv p) i
        | exact Eqv.nthNode (fileEnums_eqv p) i
        | exact Eqv.nthNode (fileTypes_eqv p) i
        | exact Eqv.nthNode (fileServices_eqv p) i
        | exact Eqv.nthNode (messageFields_eqv p) i
        | exact Eqv.nthNode (messageMessages_eqv p) i
        | exact Eqv.nthNode (messageTypes_eqv p) i
        | exact Eqv.nthNode (enumValues_eqv p) i
        | exact Eqv.nthNode (enumEnums_eqv p) i
        | exact Eqv.nthNode (serviceMethods_eqv p) i
        | exact Eqv.nthNode (methodOptions_eqv p) i
        | exact Eqv.nthOpt (everything_eqv p _) i
    | @oneof a b p h =>
      cases q <;> first
        | exact Eqv.pureNone
        | exact (ho rfl).elim
        | exact Eqv.nthNode (oneofBranches_eqv p) i
    | _ => cases q <;> first | exact Eqv.pureNone | exact (ho rfl).elim

theorem namedRun_eqv (q : NamedQ) {n1 n2 : Node} (h : NRel m n1 n2) (name : Str) :
    Eqv fl m ORel (q.run n1 name) (q.run n2 name) := by
  by_cases ho : q = .optionNamed
  · subst ho
    have := optionNamed_eqv (fl := fl) h name
    cases h <;> exact this
  · cases h with
    | @wrapped a b k p h =>
      cases k <;> cases q <;> first
        | exact Eqv.pureNone
        | exact (ho rfl).elim
        | exact fileType_eqv p name
        | exact messageType_eqv p name
        | exact Eqv.firstKid p _ _
    | @oneof a b p h =>
      cases q <;> first
        | exact Eqv.pureNone
        | exact (ho rfl).elim
        | exact Eqv.firstKid p _ _
    | _ => cases q <;> first | exact Eqv.pureNone | exact (ho rfl).elim

theorem one_of_eqv {m1 m2 : M Node} (h : Eqv fl m NRel m1 m2) :
    Eqv fl m LRel (m1 >>= fun x => Pure.pure [x]) (m2 >>= fun x => Pure.pure [x]) :=
  Eqv.bind h fun _ _ _ _ h => Eqv.pure fun _ hm => .cons (h.mono hm) .nil

theorem pureNil : Eqv fl m LRel (Pure.pure []) (Pure.pure []) := Eqv.pure fun _ _ => .nil

theorem drop_eqv {α β : Type} {R : Match → α → β → Prop} {m1 : M α} {m2 : M β} (h : Eqv fl m R m1 m2) :
    Eqv fl m LRel (m1 >>= fun _ => Pure.pure []) (m2 >>= fun _ => Pure.pure []) :=
  Eqv.bind h fun _ _ _ _ _ => pureNil

set_option hygiene false in
/-- A call that only wrappers of some kinds answer. -/
local macro "onWrapped" t:tacticSeq : tactic => `(tactic| (
  cases h with
  | @wrapped a b k p h => cases k <;> first | exact pureNil | ($t)
  | _ => exact pureNil))

/-- All calls but `Type` of message fields. -/
theorem plainRun_eqv (q : PlainQ) (hq : q ≠ .fieldType) {n1 n2 : Node} (h : NRel m n1 n2) :
    Eqv fl m LRel (q.run n1) (q.run n2) := by
  cases q with
  | fieldType => exact (hq rfl).elim
  | branchType => onWrapped exact opt_of_eqv (branchType_eqv p)
  | methodInput =>
    onWrapped exact Eqv.bind (methodInput_eqv p) fun _ _ _ _ h => Eqv.pure fun _ hm => .cons (h.2.mono hm) .nil
  | methodOutput =>
    onWrapped exact Eqv.bind (methodOutput_eqv p) fun _ _ _ _ h => Eqv.pure fun _ hm => .cons (h.2.mono hm) .nil
  | mapKey =>
    cases h with
    | map h => exact one_of_eqv ((mapKey_eqv _).mono fun _ _ _ _ h => h.1)
    | _ => exact pureNil
  | mapValue =>
    cases h with
    | map h => exact one_of_eqv (mapValue_eqv _)
    | _ => exact pureNil
  | repeatedElem =>
    cases h with
    | «repeated» _ h => exact Eqv.pure fun _ hm => .cons (h.mono hm) .nil
    | _ => exact pureNil
  | optionValue F =>
    cases h with
    | option h =>
      exact Eqv.bind (optionValue_eqv F _ _) fun _ _ _ _ h => Eqv.pure fun _ hm => .cons (.value (h.mono hm)) .nil
    | _ => exact pureNil
  | valueParts =>
    cases h with
    | value h => exact Eqv.pure fun _ hm => LRel.mono hm (parts_rel h)
    | mapItem h => exact Eqv.pure fun _ hm => .cons (.value (h.mono hm)) .nil
    | _ => exact pureNil
  | parent => have := opt_of_eqv (nodeParent_eqv (fl := fl) h); cases h <;> exact this
  | hierarchy fuel => have := nodeHierarchy_eqv (fl := fl) fuel _ _ _ (.some h); cases h <;> exact this
  | file => have := opt_of_eqv (nodeFile_eqv (fl := fl) h); cases h <;> exact this
  | pos fuel => have := drop_eqv (pos_eqv (fl := fl) fuel h); cases h <;> exact this
  | index => have := drop_eqv (nodeIndex_eqv (fl := fl) h); cases h <;> exact this
  | description => have := drop_eqv (nodeDescription_eqv (fl := fl) h); cases h <;> exact this
  | comment => have := drop_eqv (comment_eqv (fl := fl) h); cases h <;> exact this
  | typeName => have := drop_eqv (typeName_eqv (fl := fl) h); cases h <;> exact this
  | typeIsDefined ref => have := drop_eqv (typeIsDefined_eqv (fl := fl) h ref); cases h <;> exact this
  | goPackage => have := drop_eqv (goPackage_eqv (fl := fl) h); cases h <;> exact this
  | goPackageOption => have := drop_eqv (goPackageOption_eqv (fl := fl) h); cases h <;> exact this
  | optionIs nm =>
    cases h with
    | option h => exact drop_eqv (optionIs_eqv _ nm)
    | _ => exact pureNil
  | optionName =>
    cases h with
    | option h => exact drop_eqv (optionName_eqv _ _ _)
    | _ => exact pureNil
  | name =>
    cases h with
    | @wrapped a b k p h =>
      cases k with
      | file => exact drop_eqv (fileName_eqv _)
      | message => exact drop_eqv (messageName_eqv _)
      | enum => exact drop_eqv (enumName_eqv _)
      | enumValue => exact drop_eqv (enumValueName_eqv _)
      | messageField => exact drop_eqv (fieldName_eqv _)
      | oneofBranch => exact drop_eqv (branchName_eqv _)
      | service => exact drop_eqv (serviceName_eqv _)
      | method => exact drop_eqv (methodName_eqv _)
      | _ => exact pureNil
    | _ => exact pureNil
  | package =>
    cases h with
    | @wrapped a b k p h =>
      cases k with
      | file => exact drop_eqv (filePackage_eqv _)
      | packageW => exact drop_eqv (packagePackage_eqv _)
      | _ => exact pureNil
    | _ => exact pureNil
  | isExtension => onWrapped exact drop_eqv (messageIsExtension_eqv _)
  | number =>
    cases h with
    | @wrapped a b k p h =>
      cases k with
      | messageField => exact drop_eqv (fieldValue_eqv _)
      | enumValue => exact drop_eqv (enumValueValue_eqv _)
      | oneofBranch => exact drop_eqv (branchValue_eqv _)
      | _ => exact pureNil
    | _ => exact pureNil
  | optional => onWrapped exact drop_eqv (fieldOptional_eqv _)
  | importPath => onWrapped exact drop_eqv (importPath_eqv _)
  | syntaxValue => onWrapped exact drop_eqv (syntaxValue_eqv _)
  | reservedValues => onWrapped exact drop_eqv (reservedValues_eqv _)

/-- The field was handed out by the registry. -/
def Handed (r : Reg) (n : Node) : Prop :=
  ∀ a p, n = .wrapped a .messageField p → r.cache (.at p) = some (some (.wrapped a .messageField p))

theorem Eqv.at {α β : Type} {R : Match → α → β → Prop} {m1 : M α} {m2 : M β} (h : Eqv fl m R m1 m2) {r1 r2}
    (hs : Sim fl m r1 r2) : At fl m R m1 m2 r1 r2 := h m (Match.le_refl _) r1 r2 hs

theorem At.bind {α β γ δ : Type} {R : Match → α → β → Prop} {S : Match → γ → δ → Prop} {m1 m2}
    {f : α → M γ} {g : β → M δ} {r1 r2} (h : At fl m R m1 m2 r1 r2)
    (k : ∀ m', m.le m' → ∀ a b, R m' a b → Eqv fl m' S (f a) (g b)) : At fl m S (m1 >>= f) (m2 >>= g) r1 r2 := by
  obtain ⟨m2', hle, h1, h2, h3⟩ := h
  unfold At
  simp only [M.bind_apply]
  rcases e1 : m1 r1 with ⟨res1, r1'⟩
  rcases e2 : m2 r2 with ⟨res2, r2'⟩
  rw [e1, e2] at h1 h2
  rw [e1] at h3
  cases res1 <;> cases res2 <;> simp only [ResRel] at h1 <;> try exact h1.elim
  · rename_i a b
    obtain ⟨m3, hle', h4, h5, h6⟩ := k m2' hle a b h1 m2' (Match.le_refl _) r1' r2' h2
    exact ⟨m3, Match.le_trans hle hle', h4, h5, fun hx => (h3 trivial).trans (h6 hx)⟩
  · exact ⟨m2', hle, h1, h2, fun h => h3 h⟩
  · exact ⟨m2', hle, trivial, h2, fun h => h.elim⟩

theorem plainRun_at (q : PlainQ) {n1 n2 : Node} (h : NRel m n1 n2) {r1 r2} (hs : Sim fl m r1 r2) (h1 : Handed r1 n1)
    (h2 : Handed r2 n2) : At fl m LRel (q.run n1) (q.run n2) r1 r2 := by
  by_cases hq : q = .fieldType
  · subst hq
    cases h with
    | @wrapped a b k p h =>
      cases k <;> first | exact pureNil.at hs | skip
      exact (fieldType_at hs (h1 _ _ rfl) (h2 _ _ rfl)).bind fun _ _ _ _ h =>
        Eqv.pure fun _ hm => LRel.mono hm (toList_rel h)
    | _ => exact pureNil.at hs
  · exact (plainRun_eqv q hq h).at hs

theorem queryRun_at (q : Query) {n1 n2 : Node} (h : NRel m n1 n2) {r1 r2} (hs : Sim fl m r1 r2) (h1 : Handed r1 n1)
    (h2 : Handed r2 n2) : At fl m LRel (q.run n1) (q.run n2) r1 r2 := by
  cases q with
  | iter q i => exact (opt_of_eqv (iterRun_eqv q h i)).at hs
  | named q name => exact (opt_of_eqv (namedRun_eqv q h name)).at hs
  | plain q => exact plainRun_at q h hs h1 h2

/-! ### Answers -/

theorem ans_eqv {α : Type} {m1 m2 : M α} (f : α → Answer) (h : Eqv fl m EqR m1 m2) :
    Eqv fl m EqR (m1 >>= fun x => Pure.pure (f x)) (m2 >>= fun x => Pure.pure (f x)) :=
  Eqv.bind h fun _ _ _ _ e => Eqv.pure fun _ _ => by rw [e]

theorem attr_eqv {α : Type} {m1 m2 : M α} (f : α → AttrVal) (h : Eqv fl m EqR m1 m2) :
    Eqv fl m EqR (m1 >>= fun x => Pure.pure (f x)) (m2 >>= fun x => Pure.pure (f x)) :=
  Eqv.bind h fun _ _ _ _ e => Eqv.pure fun _ _ => by rw [e]

theorem pureEq {α : Type} {a : α} : Eqv fl m EqR (Pure.pure a) (Pure.pure a) := Eqv.pure fun _ _ => rfl

set_option hygiene false in
/-- An attribute that only wrappers of some kinds have. -/
local macro "ofWrapped" t:tacticSeq : tactic => `(tactic| (
  cases h with
  | @wrapped a b k p h => cases k <;> first | exact pureEq | ($t)
  | _ => exact pureEq))

theorem attrRead_eqv (q : Attr) {n1 n2 : Node} (h : NRel m n1 n2) : Eqv fl m EqR (q.read n1) (q.read n2) := by
  cases q with
  | index => have := attr_eqv .str (nodeIndex_eqv (fl := fl) h); cases h <;> exact this
  | description => have := attr_eqv .str (nodeDescription_eqv (fl := fl) h); cases h <;> exact this
  | comment => have := attr_eqv .lines (comment_eqv (fl := fl) h); cases h <;> exact this
  | typeName => have := attr_eqv .str (typeName_eqv (fl := fl) h); cases h <;> exact this
  | name =>
    cases h with
    | @wrapped a b k p h =>
      cases k with
      | file => exact attr_eqv _ (fileName_eqv _)
      | message => exact attr_eqv _ (messageName_eqv _)
      | enum => exact attr_eqv _ (enumName_eqv _)
      | enumValue => exact attr_eqv _ (enumValueName_eqv _)
      | messageField => exact attr_eqv _ (fieldName_eqv _)
      | oneofBranch => exact attr_eqv _ (branchName_eqv _)
      | service => exact attr_eqv _ (serviceName_eqv _)
      | method => exact attr_eqv _ (methodName_eqv _)
      | _ => exact pureEq
    | _ => exact pureEq
  | package =>
    cases h with
    | @wrapped a b k p h =>
      cases k with
      | file => exact attr_eqv _ (filePackage_eqv _)
      | packageW => exact attr_eqv _ (packagePackage_eqv _)
      | _ => exact pureEq
    | _ => exact pureEq
  | isExtension => ofWrapped exact attr_eqv _ (messageIsExtension_eqv _)
  | number =>
    cases h with
    | @wrapped a b k p h =>
      cases k with
      | messageField => exact attr_eqv _ (fieldValue_eqv _)
      | enumValue => exact attr_eqv _ (enumValueValue_eqv _)
      | oneofBranch => exact attr_eqv _ (branchValue_eqv _)
      | _ => exact pureEq
    | _ => exact pureEq
  | optional => ofWrapped exact attr_eqv _ (fieldOptional_eqv _)
  | importPath => ofWrapped exact attr_eqv _ (importPath_eqv _)
  | syntaxValue => ofWrapped exact attr_eqv _ (syntaxValue_eqv _)
  | reservedValues =>
    ofWrapped exact Eqv.bind (reservedValues_eqv _) fun _ _ _ _ h => attr_eqv _ (collectSteps_eqv h)

theorem nothing_eqv {α β : Type} {R : Match → α → β → Prop} {m1 : M α} {m2 : M β} (h : Eqv fl m R m1 m2) :
    Eqv fl m EqR (m1 >>= fun _ => Pure.pure Answer.nothing) (m2 >>= fun _ => Pure.pure Answer.nothing) :=
  Eqv.bind h fun _ _ _ _ _ => pureEq

theorem nothing_at {α β : Type} {R : Match → α → β → Prop} {m1 : M α} {m2 : M β} {r1 r2} (h : At fl m R m1 m2 r1 r2) :
    At fl m EqR (m1 >>= fun _ => Pure.pure Answer.nothing) (m2 >>= fun _ => Pure.pure Answer.nothing) r1 r2 :=
  h.bind fun _ _ _ _ _ => pureEq

theorem plainAnswer_eqv (q : PlainQ) (hq : q ≠ .fieldType) {n1 n2 : Node} (h : NRel m n1 n2) :
    Eqv fl m EqR (q.answer n1) (q.answer n2) := by
  have h0 := nothing_eqv (plainRun_eqv (fl := fl) q hq h)
  cases q with
  | methodInput =>
    cases h with
    | @wrapped a b k p h =>
      cases k with
      | method => exact Eqv.bind (methodInput_eqv p) fun _ _ _ _ h => Eqv.pure fun _ _ => (by rw [h.1])
      | _ => exact h0
    | _ => exact h0
  | methodOutput =>
    cases h with
    | @wrapped a b k p h =>
      cases k with
      | method => exact Eqv.bind (methodOutput_eqv p) fun _ _ _ _ h => Eqv.pure fun _ _ => (by rw [h.1])
      | _ => exact h0
    | _ => exact h0
  | index =>
    have := ans_eqv .attr (attrRead_eqv (fl := fl) .index h)
    cases h with
    | @wrapped a b k p h => cases k <;> first | exact this | exact pureEq
    | _ => exact this
  | optionIs nm =>
    cases h with
    | option h => exact ans_eqv _ (optionIs_eqv _ nm)
    | _ => exact h0
  | optionName =>
    cases h with
    | option h => exact ans_eqv _ (optionName_eqv _ _ _)
    | _ => exact h0
  | pos fuel => exact ans_eqv _ (pos_eqv fuel h)
  | typeIsDefined ref => exact ans_eqv _ (typeIsDefined_eqv h ref)
  | goPackage => exact ans_eqv _ (goPackage_eqv h)
  | goPackageOption => exact ans_eqv _ (goPackageOption_eqv h)
  | description => exact ans_eqv _ (attrRead_eqv .description h)
  | comment => exact ans_eqv _ (attrRead_eqv .comment h)
  | typeName => exact ans_eqv _ (attrRead_eqv .typeName h)
  | name => exact ans_eqv _ (attrRead_eqv .name h)
  | package => exact ans_eqv _ (attrRead_eqv .package h)
  | isExtension => exact ans_eqv _ (attrRead_eqv .isExtension h)
  | number => exact ans_eqv _ (attrRead_eqv .number h)
  | optional => exact ans_eqv _ (attrRead_eqv .optional h)
  | importPath => exact ans_eqv _ (attrRead_eqv .importPath h)
  | syntaxValue => exact ans_eqv _ (attrRead_eqv .syntaxValue h)
  | reservedValues => exact ans_eqv _ (attrRead_eqv .reservedValues h)
  | fieldType => exact (hq rfl).elim
  | _ => cases h <;> exact h0

theorem plainAnswer_at (q : PlainQ) {n1 n2 : Node} (h : NRel m n1 n2) {r1 r2} (hs : Sim fl m r1 r2) (h1 : Handed r1 n1)
    (h2 : Handed r2 n2) : At fl m EqR (q.answer n1) (q.answer n2) r1 r2 := by
  by_cases hq : q = .fieldType
  · subst hq
    have := nothing_at (plainRun_at .fieldType h hs h1 h2)
    cases h <;> exact this
  · exact (plainAnswer_eqv q hq h).at hs

theorem queryAnswer_at (q : Query) {n1 n2 : Node} (h : NRel m n1 n2) {r1 r2} (hs : Sim fl m r1 r2) (h1 : Handed r1 n1)
    (h2 : Handed r2 n2) : At fl m EqR (q.answer n1) (q.answer n2) r1 r2 := by
  cases q with
  | iter q i => exact (nothing_eqv (iterRun_eqv q h i)).at hs
  | named q name => exact (nothing_eqv (namedRun_eqv q h name)).at hs
  | plain q => exact plainAnswer_at q h hs h1 h2

end Protoast.Quiet
