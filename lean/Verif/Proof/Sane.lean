import Verif.Proof.Position
import Verif.Spec.Panics
/-
  Which panics a call on a live handle can end in; it never runs out of steps.
-/
namespace Protoast

/-- The outcome is not "out of steps", and if it is a panic then one of the list. -/
def Sane {α : Type} (L : List Panic) (res : Res α) : Prop := res ≠ .timeout ∧ ∀ p, res = .panic p → p ∈ L

/-- The kind of the element at `p` in the files `h`. -/
def hKind (h : List ProtoFile) (p : Ptr) : Option Kind := ((h[p.file]?).bind (·.elemAt p.path)).map Elem.kind

/-- The wrapper for the element at `p` in the files `h`. -/
def hTarget (h : List ProtoFile) (p : Ptr) : Option WKind :=
  match p.path with
  | [] => if p.file < h.length then some .file else none
  | _ :: _ => (hKind h p).bind wrapKind

/-- All objects from the file to the element at `p` have wrapper types. -/
def hRooted (h : List ProtoFile) (p : Ptr) : Prop := ∃ f, h[p.file]? = some f ∧ RootedPath f p.path

/-- The registry has the parsed files `h`, and its wrapper cache and its tables refer to them as they should. -/
structure J (h : List ProtoFile) (r : Reg) : Prop where
  heap : r.heap = h
  cache : ∀ v n, r.cache v = some (some n) → ∃ a k p, v = .at p ∧ n = .wrapped a k p ∧ hTarget h p = some k
  cacheNone : ∀ p, r.cache (.at p) = some none → hTarget h p = none
  reg : ∀ name p, r.registry name = some p → ∃ kd k, hKind h p = some kd ∧ wrapKind kd = some k ∧ hTarget h p = some k
  protos : ∀ path i, r.protos path = some i → i < h.length

theorem J.kind {h r} (j : J h r) (p : Ptr) : r.kind p = hKind h p := by
  simp only [Reg.kind, Reg.elem, hKind, j.heap]

theorem target_h {r : Reg} (p : Ptr) : r.wrapTarget (.at p) = (hTarget r.heap p).map fun k => (k, p) := by
  rcases p with ⟨f, path⟩
  cases path with
  | nil =>
    simp only [Reg.wrapTarget, hTarget]
    split <;> rfl
  | cons j t => rfl

theorem target_hTarget {r : Reg} {v k p} (e : r.wrapTarget v = some (k, p)) : hTarget r.heap p = some k := by
  have := target_self e
  subst this
  rw [target_h] at e
  simp only [Option.map_eq_some_iff, Prod.mk.injEq, and_true, exists_eq_right] at e
  exact e

/-- In every such registry the computation keeps it so, does not run out of steps, panics only as in the list, and its
    result satisfies `Q`. -/
structure SQ {α : Type} (L : List Panic) (h : List ProtoFile) (m : M α) (Q : α → Prop) : Prop where
  run : ∀ r, J h r → J h (m r).2 ∧ Sane L (m r).1 ∧ ∀ a, (m r).1 = .ok a → Q a

/-- The same without a condition on the result. -/
abbrev SA {α : Type} (L : List Panic) (h : List ProtoFile) (m : M α) : Prop := SQ L h m fun _ => True

section
variable {L : List Panic} {h : List ProtoFile}

theorem SQ.weaken {α} {m : M α} {Q} (hm : SQ L h m Q) : SA L h m :=
  ⟨fun r hr => ⟨(hm.run r hr).1, (hm.run r hr).2.1, fun _ _ => trivial⟩⟩
theorem SQ.mono {α} {m : M α} {Q R : α → Prop} (hm : SQ L h m Q) (hq : ∀ a, Q a → R a) : SQ L h m R :=
  ⟨fun r hr => ⟨(hm.run r hr).1, (hm.run r hr).2.1, fun a ha => hq a ((hm.run r hr).2.2 a ha)⟩⟩
theorem SQ.sub {α} {L'} {m : M α} {Q} (hm : SQ L h m Q) (hl : ∀ p ∈ L, p ∈ L') : SQ L' h m Q :=
  ⟨fun r hr => ⟨(hm.run r hr).1, ⟨(hm.run r hr).2.1.1, fun p hp => hl p ((hm.run r hr).2.1.2 p hp)⟩,
    (hm.run r hr).2.2⟩⟩
/-- A computation that cannot panic is fine with any list. -/
theorem SQ.any {α} {m : M α} {Q} (hm : SQ [] h m Q) : SQ L h m Q := hm.sub fun p hp => absurd hp (by simp)
theorem SQ.pure {α} {a : α} {Q : α → Prop} (hq : Q a) : SQ L h (Pure.pure a : M α) Q :=
  ⟨fun r hr => ⟨hr, ⟨by simp [M.pure_apply], by simp [M.pure_apply]⟩, by
    intro b hb; simp only [M.pure_apply, Res.ok.injEq] at hb; subst hb; exact hq⟩⟩
theorem SQ.panic {α} {Q : α → Prop} {p : Panic} (hp : p ∈ L) : SQ L h (M.panic p : M α) Q :=
  ⟨fun r hr => ⟨hr, ⟨by simp [M.panic_apply], by
      intro q hq; simp only [M.panic_apply, Res.panic.injEq] at hq; subst hq; exact hp⟩, by
    intro b hb; simp only [M.panic_apply, reduceCtorEq] at hb⟩⟩
theorem SQ.get : SQ L h M.get (J h) :=
  ⟨fun r hr => ⟨hr, ⟨by simp [M.get_apply], by simp [M.get_apply]⟩, by
    intro b hb; simp only [M.get_apply, Res.ok.injEq] at hb; subst hb; exact hr⟩⟩
theorem SQ.alloc : SA L h M.alloc :=
  ⟨fun r hr => ⟨⟨hr.heap, hr.cache, hr.cacheNone, hr.reg, hr.protos⟩,
    ⟨by simp [M.alloc_apply], by simp [M.alloc_apply]⟩, fun _ _ => trivial⟩⟩
theorem SQ.bind {α β} {m : M α} {f : α → M β} {Q R} (hm : SQ L h m Q) (hf : ∀ a, Q a → SQ L h (f a) R) :
    SQ L h (m >>= f) R := by
  constructor
  intro r hr
  obtain ⟨h1, h2, h3⟩ := hm.run r hr
  simp only [M.bind_apply]
  rcases e : m r with ⟨res, r'⟩
  rw [e] at h1 h2 h3
  cases res with
  | ok a => exact (hf a (h3 a rfl)).run r' h1
  | panic p => exact ⟨h1, ⟨by simp, fun q e => h2.2 q (by simpa using e)⟩, by intro a ha; cases ha⟩
  | timeout => exact absurd rfl h2.1
/-- Reading the registry. -/
theorem SQ.read {β} {f : Reg → M β} {R} (hf : ∀ r, J h r → SQ L h (f r) R) : SQ L h (M.get >>= f) R :=
  SQ.bind SQ.get hf

/-- A result of `wrap`. -/
def Wrapped (h : List ProtoFile) (v : Vis) (x : Option Node) : Prop :=
  ∀ n, x = some n → ∃ a k p, v = .at p ∧ n = .wrapped a k p ∧ hTarget h p = some k

theorem wrap_keeps {v : Vis} {r : Reg} (hr : J h r) : J h (wrap v r).2 := by
  unfold Protoast.wrap
  split
  · exact hr
  · split
    · next k p hp =>
      have ht := target_hTarget hp
      rw [hr.heap] at ht
      refine ⟨hr.heap, ?_, ?_, hr.reg, hr.protos⟩
      · intro v' n' hn'
        simp only [upd] at hn'
        split at hn'
        · next hv =>
          simp only [Option.some.injEq] at hn'
          rw [hv]
          exact ⟨_, k, p, target_self hp, hn'.symm, ht⟩
        · exact hr.cache v' n' hn'
      · intro p' hn'
        simp only [upd] at hn'
        split at hn'
        · cases hn'
        · exact hr.cacheNone p' hn'
    · next hp =>
      refine ⟨hr.heap, ?_, ?_, hr.reg, hr.protos⟩
      · intro v' n' hn'
        simp only [upd] at hn'
        split at hn'
        · cases hn'
        · exact hr.cache v' n' hn'
      · intro p' hn'
        simp only [upd] at hn'
        split at hn'
        · next hv =>
          rw [← hv, target_h, hr.heap] at hp
          simpa using hp
        · exact hr.cacheNone p' hn'

theorem SQ.wrapQ (v : Vis) : SQ [.unsupportedType] h (wrap v) (Wrapped h v) := by
  constructor
  intro r hr
  refine ⟨wrap_keeps hr, ?_⟩
  unfold Protoast.wrap
  split
  · next n hn =>
    refine ⟨⟨by simp, by simp⟩, ?_⟩
    intro x hx m hm
    simp only [Res.ok.injEq] at hx
    subst hx
    subst hm
    exact hr.cache v m hn
  · split
    · next k p hp =>
      refine ⟨⟨by simp, by simp⟩, ?_⟩
      intro x hx m hm
      simp only [Res.ok.injEq] at hx
      subst hx
      simp only [Option.some.injEq] at hm
      have ht := target_hTarget hp
      rw [hr.heap] at ht
      exact ⟨_, k, p, target_self hp, hm.symm, ht⟩
    · exact ⟨⟨by simp, by simp⟩, by intro x hx; cases hx⟩

/-- Wrapping something that has a wrapper does not panic. -/
theorem SQ.wrapAt {p : Ptr} {k : WKind} (e : hTarget h p = some k) :
    SQ L h (wrap (.at p)) (fun x => ∃ a, x = some (.wrapped a k p)) := by
  constructor
  intro r hr
  refine ⟨wrap_keeps hr, ?_⟩
  unfold Protoast.wrap
  split
  · next n hn =>
    refine ⟨⟨by simp, by simp⟩, ?_⟩
    intro x hx
    simp only [Res.ok.injEq] at hx
    subst hx
    cases n with
    | none => rw [hr.cacheNone p hn] at e; cases e
    | some m =>
      obtain ⟨a, k', q, h1, rfl, h3⟩ := hr.cache _ m hn
      cases h1
      rw [e] at h3
      cases h3
      exact ⟨a, rfl⟩
  · split
    · next k' q hp =>
      refine ⟨⟨by simp, by simp⟩, ?_⟩
      intro x hx
      simp only [Res.ok.injEq] at hx
      subst hx
      rw [target_h, hr.heap, e] at hp
      cases hp
      exact ⟨_, rfl⟩
    · next hp =>
      rw [target_h, hr.heap, e] at hp
      cases hp

theorem SQ.wrapAs {p : Ptr} {k : WKind} (e : hTarget h p = some k) :
    SQ L h (wrapAs k p) (fun n => ∃ a, n = .wrapped a k p) := by
  unfold Protoast.wrapAs
  refine SQ.bind (SQ.wrapAt e) fun x hx => ?_
  obtain ⟨a, rfl⟩ := hx
  unfold Protoast.assertKind
  dsimp only
  rw [if_pos rfl]
  exact SQ.pure ⟨a, rfl⟩

end

syntax "sa_lemma" : tactic
macro_rules | `(tactic| sa_lemma) => `(tactic| with_reducible exact SQ.pure trivial)
macro_rules | `(tactic| sa_lemma) => `(tactic| with_reducible exact SQ.panic (by decide))
macro_rules | `(tactic| sa_lemma) => `(tactic| with_reducible exact SQ.get.weaken)
macro_rules | `(tactic| sa_lemma) => `(tactic| with_reducible exact SQ.alloc)
syntax "sa" : tactic
macro_rules
  | `(tactic| sa) => `(tactic| repeat' (first | sa_lemma | assumption | (with_reducible apply SQ.bind (Q := fun _ => True)) | intro _ | split))

section
variable {L : List Panic} {h : List ProtoFile}
theorem SQ.assertKind (k n) : SA [.typeAssertion] h (assertKind k n) := by unfold Protoast.assertKind; sa

theorem SQ.lookupType (p n) : SA [.notAType] h (lookupType p n) := by
  unfold Protoast.lookupType
  split
  · sa
  · refine SQ.read fun r j => ?_
    split
    · sa
    · split
      · sa
      · next obj ho =>
        obtain ⟨_, k, _, _, e⟩ := j.reg _ _ ho
        refine SQ.bind (SQ.wrapAt e) fun x hx => ?_
        obtain ⟨a, rfl⟩ := hx
        dsimp only
        sa
theorem SQ.getTypeByName (p n) : SA [.notAType] h (getTypeByName p n) := by
  unfold Protoast.getTypeByName
  exact SQ.bind (SQ.lookupType _ _) fun _ _ => by sa
macro_rules | `(tactic| sa_lemma) => `(tactic| with_reducible exact SQ.sub (SQ.getTypeByName _ _) (by decide))
macro_rules | `(tactic| sa_lemma) => `(tactic| with_reducible exact SQ.sub (SQ.assertKind _ _) (by decide))

/-- What the children of an object are. -/
theorem J.kids {r : Reg} (j : J h r) {p q : Ptr} {e : Elem} (hq : (q, e) ∈ r.kids p) :
    hKind h q = some e.kind ∧ ∀ k, wrapKind e.kind = some k → hTarget h q = some k := by
  have h1 := kids_kind hq
  rw [j.kind] at h1
  refine ⟨h1, fun k hk => ?_⟩
  obtain ⟨i, rfl, _⟩ := kids_mem hq
  unfold hTarget
  simp only [Ptr.child] at h1 ⊢
  rw [h1]
  exact hk

theorem SQ.firstKid {p : Ptr} {k : WKind} {s : Kind → Bool} (hs : ∀ kd, s kd = true → wrapKind kd = some k) :
    SA L h (firstKid p k s) := by
  unfold Protoast.firstKid
  refine SQ.read fun r j => ?_
  split
  · next q e hq =>
    have h1 := List.find?_some hq
    exact SQ.bind (SQ.wrapAs ((j.kids (List.mem_of_find?_eq_some hq)).2 k (hs _ h1))) fun _ _ => SQ.pure trivial
  · exact SQ.pure trivial

syntax "sel" : tactic
macro_rules
  | `(tactic| sel) => `(tactic| (
      refine SQ.firstKid ?_
      intro kd hk
      cases kd <;> first | rfl | (simp only [reduceCtorEq, Bool.false_eq_true] at hk; done)))

theorem SQ.fileMessage (p n) : SA L h (File.message p n) := by unfold File.message; sel
theorem SQ.fileEnum (p n) : SA L h (File.enum p n) := by unfold File.enum; sel
theorem SQ.fileService (p n) : SA L h (File.service p n) := by unfold File.service; sel
theorem SQ.messageFieldN (p n) : SA L h (Message.field p n) := by unfold Message.field; sel
theorem SQ.messageMessage (p n) : SA L h (Message.message p n) := by unfold Message.message; sel
theorem SQ.enumValueN (p n) : SA L h (Enum.value p n) := by unfold Enum.value; sel
theorem SQ.enumEnum (p n) : SA L h (Enum.enum p n) := by unfold Enum.enum; sel
theorem SQ.oneofBranch (p n) : SA L h (OneOf.branch p n) := by unfold OneOf.branch; sel
theorem SQ.serviceMethod (p n) : SA L h (Service.method p n) := by unfold Service.method; sel

theorem SQ.fileType (p n) : SA L h (File.type p n) := by
  unfold File.type
  refine SQ.read fun r j => ?_
  split
  · next q e hq =>
    have h1 := List.find?_some hq
    have h2 := (j.kids (List.mem_of_find?_eq_some hq)).2
    dsimp only at h1
    split
    · next hk => rw [hk] at h2; exact SQ.bind (SQ.wrapAs (h2 _ rfl)) fun _ _ => SQ.pure trivial
    · next hk =>
      split at h1
      · next hk' => exact absurd hk' (hk _ _)
      · next hk' => rw [hk'] at h2; exact SQ.bind (SQ.wrapAs (h2 _ rfl)) fun _ _ => SQ.pure trivial
      · cases h1
  · exact SQ.pure trivial
theorem SQ.messageType (p n) : SA L h (Message.type p n) := by
  unfold Message.type
  refine SQ.read fun r j => ?_
  split
  · next q e hq =>
    have h1 := List.find?_some hq
    have h2 := (j.kids (List.mem_of_find?_eq_some hq)).2
    dsimp only at h1
    split
    · next hk => rw [hk] at h2; exact SQ.bind (SQ.wrapAs (h2 _ rfl)) fun _ _ => SQ.pure trivial
    · next hk =>
      split at h1
      · next hk' => exact absurd hk' (hk _ _)
      · next hk' => rw [hk'] at h2; exact SQ.bind (SQ.wrapAs (h2 _ rfl)) fun _ _ => SQ.pure trivial
      · cases h1
  · exact SQ.pure trivial

theorem SQ.optionClass (n) : SA [.typeAssertion] h (optionClass n) := by unfold Protoast.optionClass; sa
macro_rules | `(tactic| sa_lemma) => `(tactic| with_reducible exact SQ.sub (SQ.optionClass _) (by decide))
theorem SQ.nodeIndex (n) : SA L h (nodeIndex n) := by unfold Protoast.nodeIndex; sa
macro_rules | `(tactic| sa_lemma) => `(tactic| with_reducible exact SQ.nodeIndex _)
theorem SQ.typeName : (n : Node) → SA n.typeNamePanics h (typeName n)
  | .repeated _ (some t) => by unfold Protoast.typeName; exact SQ.bind (SQ.typeName t) fun _ _ => SQ.pure trivial
  | .repeated _ none => by unfold Protoast.typeName Node.typeNamePanics; sa
  | .wrapped _ k _ => by cases k <;> (unfold Protoast.typeName Node.typeNamePanics; dsimp only; sa)
  | .oneof _ _ => by unfold Protoast.typeName; sa
  | .option _ _ _ _ => by unfold Protoast.typeName Node.typeNamePanics; sa
  | .value _ => by unfold Protoast.typeName Node.typeNamePanics; sa
  | .map _ _ => by unfold Protoast.typeName Node.typeNamePanics; sa
  | .builtin _ => by unfold Protoast.typeName; sa
  | .mapItem _ _ => by unfold Protoast.typeName Node.typeNamePanics; sa
theorem SQ.typeIsDefined (n s) : SA L h (typeIsDefined n s) := by unfold Protoast.typeIsDefined; sa
theorem SQ.filePackage (p) : SA L h (File.package p) := by unfold File.package; sa

/-! ### Accessors -/

theorem SQ.fileName {p : Ptr} (hp : p.file < h.length) : SA L h (File.name p) := by
  unfold File.name
  refine SQ.read fun r j => ?_
  rw [j.heap, List.getElem?_eq_getElem hp]
  exact SQ.pure trivial

theorem SQ.filePos {p : Ptr} (hp : p.file < h.length) : SA L h (filePos p) := by
  unfold Protoast.filePos
  refine SQ.read fun r j => ?_
  rw [j.heap, List.getElem?_eq_getElem hp]
  exact SQ.pure trivial

theorem SQ.elemPos {p : Ptr} {k} (hp : hKind h p = some k) : SA L h (elemPos p) := by
  unfold Protoast.elemPos
  refine SQ.read fun r j => ?_
  unfold hKind at hp
  unfold Reg.elem
  rw [j.heap]
  rw [Option.map_eq_some_iff] at hp
  obtain ⟨e, he, _⟩ := hp
  rw [he]
  exact SQ.pure trivial

/-- The kind of the element behind a wrapper of a kind other than a file. -/
theorem hTarget_kind {p : Ptr} {k : WKind} (e : hTarget h p = some k) (hk : k ≠ .file) :
    ∃ kd, hKind h p = some kd ∧ wrapKind kd = some k := by
  unfold hTarget at e
  split at e
  · split at e
    · cases e; exact absurd rfl hk
    · cases e
  · rw [Option.bind_eq_some_iff] at e
    exact e

/-- An element has a path. -/
theorem hKind_path {p : Ptr} {kd} (e : hKind h p = some kd) : p.path ≠ [] := by
  intro hp
  unfold hKind at e
  rw [hp] at e
  cases hf : h[p.file]? <;> simp [hf, ProtoFile.elemAt] at e

/-- The wrapper of an element. -/
theorem hKind_target {p : Ptr} {kd k} (e : hKind h p = some kd) (hk : wrapKind kd = some k) : hTarget h p = some k := by
  have := hKind_path e
  unfold hTarget
  rw [e]
  split
  · next hp => exact absurd hp this
  · exact hk

theorem hTarget_path {p : Ptr} (e : hTarget h p = some .file) : p.path = [] ∧ p.file < h.length := by
  unfold hTarget at e
  split at e
  · next hp =>
    split at e
    · exact ⟨hp, by assumption⟩
    · cases e
  · rw [Option.bind_eq_some_iff] at e
    obtain ⟨kd, _, e⟩ := e
    cases kd <;> cases e

theorem hTarget_file {p : Ptr} (e : hTarget h p = some .file) : p.file < h.length := (hTarget_path e).2

syntax "acc" : tactic
macro_rules
  | `(tactic| acc) => `(tactic| (
      refine SQ.read fun r j => ?_
      rw [j.kind]
      obtain ⟨kd, e1, e2⟩ := hTarget_kind (by assumption) (by decide)
      rw [e1]
      cases kd <;> first | (simp only [wrapKind, reduceCtorEq, Option.some.injEq] at e2; done) | sa))

variable {p : Ptr}
theorem SQ.messageName (e : hTarget h p = some .message) : SA L h (Message.name p) := by unfold Message.name; acc
theorem SQ.isExtension (e : hTarget h p = some .message) : SA L h (Message.isExtension p) := by
  unfold Message.isExtension; acc
theorem SQ.fieldName (e : hTarget h p = some .messageField) : SA L h (MessageField.name p) := by
  unfold MessageField.name; acc
theorem SQ.fieldTypeBody (e : hTarget h p = some .messageField) : SA [.notAType] h (fieldTypeBody p) := by
  unfold Protoast.fieldTypeBody; acc
theorem SQ.fieldValue (e : hTarget h p = some .messageField) : SA [.oneofHasNoValue] h (MessageField.value p) := by
  unfold MessageField.value; acc
theorem SQ.fieldOptional (e : hTarget h p = some .messageField) : SA L h (MessageField.optional p) := by
  unfold MessageField.optional; acc
theorem SQ.enumName (e : hTarget h p = some .enum) : SA L h (Enum.name p) := by unfold Enum.name; acc
theorem SQ.enumValueName (e : hTarget h p = some .enumValue) : SA L h (EnumValue.name p) := by
  unfold EnumValue.name; acc
theorem SQ.enumValueValue (e : hTarget h p = some .enumValue) : SA L h (EnumValue.value p) := by
  unfold EnumValue.value; acc
theorem SQ.branchName (e : hTarget h p = some .oneofBranch) : SA L h (OneOfBranch.name p) := by
  unfold OneOfBranch.name; acc
theorem SQ.branchType (e : hTarget h p = some .oneofBranch) : SA [.notAType] h (OneOfBranch.type p) := by
  unfold OneOfBranch.type; acc
theorem SQ.branchValue (e : hTarget h p = some .oneofBranch) : SA L h (OneOfBranch.value p) := by
  unfold OneOfBranch.value; acc
theorem SQ.serviceName (e : hTarget h p = some .service) : SA L h (Service.name p) := by unfold Service.name; acc
theorem SQ.methodName (e : hTarget h p = some .method) : SA L h (Method.name p) := by unfold Method.name; acc
theorem SQ.methodInput (e : hTarget h p = some .method) : SA [.notAType, .typeAssertion] h (Method.input p) := by
  unfold Method.input; acc
theorem SQ.methodOutput (e : hTarget h p = some .method) : SA [.notAType, .typeAssertion] h (Method.output p) := by
  unfold Method.output; acc
theorem SQ.reservedValues (e : hTarget h p = some .reserved) : SA L h (Reserved.values p) := by
  unfold Reserved.values; acc
theorem SQ.importPath (e : hTarget h p = some .importW) : SA L h (Import.path p) := by unfold Import.path; acc
theorem SQ.syntaxValue (e : hTarget h p = some .syntaxW) : SA L h (Syntax.value p) := by unfold Syntax.value; acc
theorem SQ.packagePackage (e : hTarget h p = some .packageW) : SA L h (Package.package p) := by
  unfold Package.package; acc

theorem SQ.mapKey {a b c d} (e : hKind h p = some (.mapField a b c d)) :
    SQ [.badMapKey] h (Map.key p) (fun n => ∃ b, n = .builtin b) := by
  unfold Map.key
  refine SQ.read fun r j => ?_
  rw [j.kind, e]
  dsimp only
  split
  · exact SQ.pure ⟨_, rfl⟩
  · exact SQ.panic (by decide)
theorem SQ.mapValue {a b c d} (e : hKind h p = some (.mapField a b c d)) : SA [.badMapValue] h (Map.value p) := by
  unfold Map.value
  refine SQ.read fun r j => ?_
  rw [j.kind, e]
  dsimp only
  split
  · sa
  · split
    · sa
    · next q hq =>
      rw [j.kind]
      split
      · next hk => exact (SQ.wrapAs (hKind_target hk rfl)).weaken
      · next hk => exact (SQ.wrapAs (hKind_target hk rfl)).weaken
      · sa

theorem SQ.fieldType (a : Nat) (e : hTarget h p = some .messageField) : SA [.notAType] h (MessageField.type a p) := by
  constructor
  intro r j
  unfold MessageField.type
  split
  · exact ⟨j, ⟨by simp, by simp⟩, fun _ _ => trivial⟩
  · obtain ⟨h1, h2, -⟩ := (SQ.fieldTypeBody e).run r j
    rcases hb : Protoast.fieldTypeBody p r with ⟨res, r'⟩
    rw [hb] at h1 h2
    have h3 : ∀ f, J h { r' with ftcache := f } := fun f => ⟨h1.heap, h1.cache, h1.cacheNone, h1.reg, h1.protos⟩
    cases res with
    | ok t => exact ⟨h3 _, ⟨by simp, by simp⟩, fun _ _ => trivial⟩
    | panic e => exact ⟨h3 _, ⟨by simp, fun p e => h2.2 p (by simpa using e)⟩, fun _ _ => trivial⟩
    | timeout => exact absurd rfl h2.1

/-! ### Iterators -/

/-- Every step that an iterator computes is sane. -/
def StepsOK {α : Type} (L : List Panic) (h : List ProtoFile) (Q : α → Prop) (s : List (M α)) : Prop :=
  ∀ m ∈ s, SQ L h m Q

theorem SQ.overKids {α} {L'} {Q : α → Prop} {pick : Ptr → Kind → Option (M α)}
    (hp : ∀ q k m, hKind h q = some k → pick q k = some m → SQ L h m Q) :
    SQ L' h (overKids p pick) (StepsOK L h Q) := by
  unfold Protoast.overKids
  refine SQ.read fun r j => SQ.pure ?_
  intro m hm
  rw [List.mem_filterMap] at hm
  obtain ⟨⟨q, e⟩, h1, h2⟩ := hm
  exact hp q _ m (j.kids h1).1 h2

theorem SQ.nth {α} {Q : α → Prop} {seq : Seq α} (hs : SQ L h seq (StepsOK L h Q)) (i : Nat) : SA L h (seq.nth i) := by
  unfold Seq.nth
  refine SQ.bind hs fun steps hst => ?_
  split
  · next m hm =>
    exact SQ.bind (hst m (List.mem_of_getElem? hm)).weaken fun _ _ => SQ.pure trivial
  · exact SQ.pure trivial

syntax "steps" : tactic
macro_rules
  | `(tactic| steps) => `(tactic| (
      refine SQ.nth (Q := fun _ => True) (SQ.overKids ?_) _
      intro q k m hk hm
      cases k <;> first
        | (simp only [reduceCtorEq] at hm; done)
        | (split at hm <;> first | (cases hm; done) | (cases hm; exact (SQ.wrapAs (hKind_target hk rfl)).weaken))
        | (cases hm; exact (SQ.wrapAs (hKind_target hk rfl)).weaken)))

/-- Wrapping a message or an enum. -/
theorem SQ.wrapNamed {q : Ptr} (e : hTarget h q = some .message ∨ hTarget h q = some .enum) : SA L h (wrapNamed q) := by
  unfold Protoast.wrapNamed
  rcases e with e | e
  · refine SQ.bind (SQ.wrapAt e) fun x hx => ?_
    obtain ⟨a, rfl⟩ := hx
    exact SQ.pure trivial
  · refine SQ.bind (SQ.wrapAt e) fun x hx => ?_
    obtain ⟨a, rfl⟩ := hx
    exact SQ.pure trivial

variable (p) (i : Nat)
theorem SQ.fileImports : SA L h ((File.imports p).nth i) := by unfold File.imports; steps
theorem SQ.fileMessages : SA L h ((File.messages p).nth i) := by unfold File.messages; steps
theorem SQ.fileEnums : SA L h ((File.enums p).nth i) := by unfold File.enums; steps
theorem SQ.fileTypes : SA L h ((File.types p).nth i) := by
  unfold File.types
  refine SQ.nth (Q := fun _ => True) (SQ.overKids ?_) _
  intro q k m hk hm
  split at hm
  · cases hm; exact SQ.wrapNamed (.inl (hKind_target hk rfl))
  · cases hm; exact SQ.wrapNamed (.inr (hKind_target hk rfl))
  · cases hm
theorem SQ.fileServices : SA L h ((File.services p).nth i) := by unfold File.services; steps
theorem SQ.messageFields : SA L h ((Message.fields p).nth i) := by unfold Message.fields; steps
theorem SQ.messageMessages : SA L h ((Message.messages p).nth i) := by unfold Message.messages; steps
theorem SQ.messageTypes : SA L h ((Message.types p).nth i) := by
  unfold Message.types
  refine SQ.nth (Q := fun _ => True) (SQ.overKids ?_) _
  intro q k m hk hm
  split at hm
  · cases hm; exact (SQ.wrapAs (hKind_target hk rfl)).weaken
  · cases hm; exact (SQ.wrapAs (hKind_target hk rfl)).weaken
  · cases hm
theorem SQ.enumValues : SA L h ((Enum.values p).nth i) := by unfold Enum.values; steps
theorem SQ.enumEnums : SA L h ((Enum.enums p).nth i) := by unfold Enum.enums; steps
theorem SQ.oneofBranches : SA L h ((OneOf.branches p).nth i) := by unfold OneOf.branches; steps
theorem SQ.serviceMethods : SA L h ((Service.methods p).nth i) := by unfold Service.methods; steps

/-! ### Options -/

/-- The element is an option. -/
def hOption (h : List ProtoFile) (p : Ptr) : Prop := ∃ n c, hKind h p = some (.option n c)
/-- The element is a normal field. -/
def hField (h : List ProtoFile) (p : Ptr) : Prop := ∃ a b c d e, hKind h p = some (.normalField a b c d e)

/-- An option node of the parsed files. -/
def OptNode (h : List ProtoFile) (n : Node) : Prop := ∃ a o c f, n = .option a o c f ∧ hOption h o ∧ hField h f

theorem SQ.newOption {scope : Str} {cls opt : Ptr} (ho : hOption h opt) :
    SQ optionPanics h (newOption scope cls opt) (OptNode h) := by
  obtain ⟨oname, c, ho⟩ := ho
  unfold Protoast.newOption
  refine SQ.read fun r j => ?_
  rw [j.kind, ho]
  dsimp only
  split
  · split
    · next f hf =>
      split
      · next hk =>
        rw [j.kind] at hk
        exact SQ.bind SQ.alloc fun a _ => SQ.pure ⟨a, opt, cls, f, rfl, ⟨_, _, ho⟩, _, _, _, _, _, hk⟩
      · exact SQ.panic (by decide)
    · exact SQ.panic (by decide)
  · split
    · next f hf =>
      refine SQ.bind SQ.alloc fun a _ => SQ.pure ⟨a, opt, cls, f, rfl, ⟨_, _, ho⟩, ?_⟩
      unfold builtinOptionField at hf
      rw [Option.map_eq_some_iff] at hf
      obtain ⟨⟨q, e⟩, h1, h2⟩ := hf
      dsimp only at h2
      subst h2
      have h3 := List.find?_some h1
      have h4 := (j.kids (List.mem_of_find?_eq_some h1)).1
      dsimp only at h3
      split at h3
      · next hk => rw [hk] at h4; exact ⟨_, _, _, _, _, h4⟩
      · cases h3
    · exact SQ.panic (by decide)

theorem SQ.wrapOption {opt cls : Ptr} (ho : hOption h opt) : SQ optionPanics h (wrapOption opt cls) (OptNode h) := by
  unfold Protoast.wrapOption
  exact SQ.read fun r _ => SQ.newOption ho

/-- What an `Everything` iterator yields. -/
def EvNode (h : List ProtoFile) (x : Option Node) : Prop :=
  ∀ n, x = some n → OptNode h n ∨ ∃ a k p, n = .wrapped a k p

theorem SQ.everythingStep {cn : Str} (q : Ptr) (k : Kind) (m) (hk : hKind h q = some k)
    (hm : everythingStep cn q k = some m) : SQ everythingPanics h m (EvNode h) := by
  have hw : ∀ q, SQ [.unsupportedType] h (Protoast.wrap (.at q)) (EvNode h) := fun q =>
    (SQ.wrapQ (.at q)).mono fun x hx n hn => by
      obtain ⟨a, k, p, _, h2, _⟩ := hx n hn
      exact .inr ⟨a, k, p, h2⟩
  unfold Protoast.everythingStep at hm
  split at hm
  · simp only [Option.some.injEq] at hm
    subst hm
    refine SQ.bind ((SQ.optionClass _).sub (by decide)) fun cls _ =>
      SQ.bind ((SQ.wrapOption ⟨_, _, hk⟩).sub (by decide)) fun o ho => SQ.pure ?_
    intro n hn
    cases hn
    exact .inl ho
  · simp only [Option.some.injEq] at hm
    subst hm
    exact (hw q).sub (by decide)

theorem SQ.everything (cn : Str) :
    SQ L h (Protoast.overKids p (Protoast.everythingStep cn)) (StepsOK everythingPanics h (EvNode h)) :=
  SQ.overKids fun q k m hk hm => SQ.everythingStep q k m hk hm

theorem SQ.methodOptions : SA optionPanics h ((Method.options p).nth i) := by
  unfold Method.options
  refine SQ.nth (Q := fun _ => True) (SQ.overKids ?_) _
  intro q k m hk hm
  split at hm
  · simp only [Option.some.injEq] at hm
    subst hm
    exact SQ.bind ((SQ.optionClass _).sub (by decide)) fun cls _ => (SQ.wrapOption ⟨_, _, hk⟩).weaken
  · cases hm

theorem SQ.seqOptions (scope cn : Str) :
    SQ optionPanics h (seqOptions scope cn p) (fun s => SA optionPanics h (Seq.nth s i)) := by
  unfold Protoast.seqOptions
  refine SQ.bind ((SQ.optionClass _).sub (by decide)) fun cls _ => SQ.pure ?_
  refine SQ.nth (Q := fun _ => True) (SQ.overKids ?_) _
  intro q k m hk hm
  split at hm
  · simp only [Option.some.injEq] at hm
    subst hm
    exact (SQ.newOption ⟨_, _, hk⟩).weaken
  · cases hm

theorem SQ.namedOption (name scope cn : Str) : SA optionPanics h (namedOption name scope cn p) := by
  unfold Protoast.namedOption
  refine SQ.bind ((SQ.optionClass _).sub (by decide)) fun cls _ => SQ.read fun r j => ?_
  split
  · next q e hq =>
    have h3 := List.find?_some hq
    have h4 := (j.kids (List.mem_of_find?_eq_some hq)).1
    dsimp only at h3
    split at h3
    · next hk =>
      rw [hk] at h4
      exact SQ.bind (SQ.newOption ⟨_, _, h4⟩).weaken fun _ _ => SQ.pure trivial
    · cases h3
  · exact SQ.pure trivial

theorem SQ.options (n : Node) :
    SQ (.unsupportedNode :: optionPanics) h (options n) (fun s => SA optionPanics h (Seq.nth s i)) := by
  unfold Protoast.options
  split
  · refine SQ.read fun r j => ?_
    split <;> first | exact (SQ.seqOptions _ _ _ _).sub (by decide) | exact SQ.panic (by decide) | skip
    split <;> first | exact (SQ.seqOptions _ _ _ _).sub (by decide) | exact SQ.panic (by decide)
  · exact SQ.read fun r j => (SQ.seqOptions _ _ _ _).sub (by decide)
  · exact SQ.panic (by decide)

theorem SQ.optionNamed (n : Node) (name : Str) : SA (.unsupportedNode :: optionPanics) h (optionNamed n name) := by
  unfold Protoast.optionNamed
  split
  · refine SQ.read fun r j => ?_
    split <;> first | exact (SQ.namedOption _ _ _ _).sub (by decide) | exact SQ.panic (by decide) | skip
    split <;> first | exact (SQ.namedOption _ _ _ _).sub (by decide) | exact SQ.panic (by decide)
  · exact SQ.read fun r j => (SQ.namedOption _ _ _ _).sub (by decide)
  · exact SQ.panic (by decide)

theorem SQ.optionName {o c f : Ptr} (ho : hOption h o) (hf : hField h f) : SA L h (Option.name o c f) := by
  obtain ⟨n, cst, ho⟩ := ho
  obtain ⟨a, b, d, e, g, hf⟩ := hf
  unfold Protoast.Option.name
  refine SQ.read fun r j => ?_
  split
  · rw [j.kind, hf]; exact SQ.pure trivial
  · rw [j.kind, ho]; exact SQ.pure trivial

theorem SQ.optionIs {f : Ptr} (hf : hField h f) (s) : SA L h (Option.is f s) := by
  obtain ⟨a, b, d, e, g, hf⟩ := hf
  unfold Protoast.Option.is
  refine SQ.bind (SQ.wrapAt (hKind_target hf rfl)) fun x hx => ?_
  obtain ⟨a, rfl⟩ := hx
  dsimp only
  exact SQ.bind (SQ.nodeIndex _) fun _ _ => SQ.pure trivial

theorem SQ.goPackageOption {n : Node} (hn : ∀ a o c f, n = .option a o c f → hOption h o) :
    SA [.noGoPackage] h (goPackageOption n) := by
  unfold Protoast.goPackageOption
  split
  · next a o c f =>
    obtain ⟨nm, cst, ho⟩ := hn _ _ _ _ rfl
    refine SQ.read fun r j => ?_
    rw [j.kind, ho]
    sa
  · exact SQ.pure trivial

/-! ### Option values -/

/-- How reading a value may panic. -/
def valuePanics : List Panic :=
  [.badLiteral, .unknownEnumValue, .unknownField, .unknownFieldType, .typeAssertion, .notAType]

mutual
theorem SQ.buildFromLiteral (F : FloatOps) (option : Option Ptr) (field : Ptr) (ir : Bool) (hf : hField h field) :
    (l : Literal) → SA valuePanics h (buildFromLiteral F option field ir l)
  | .mk pos source array orderedMap => by
    have hA := SQ.buildArray F field hf array
    have hI := fun mp => SQ.buildItems F mp orderedMap
    obtain ⟨a, b, c, d, e, hf⟩ := hf
    unfold Protoast.buildFromLiteral
    refine SQ.read fun r j => ?_
    rw [j.kind, hf]
    dsimp only
    split
    · exact SQ.bind hA fun _ _ => SQ.pure trivial
    · split
      · sa
      · sa
      · sa
      · sa
      · sa
      · sa
      · refine SQ.bind ((SQ.getTypeByName _ _).sub (by decide)) fun t _ => ?_
        split
        · refine SQ.bind (SQ.enumValueN _ _) fun _ _ => ?_
          sa
        · exact SQ.bind (hI _) fun _ _ => SQ.pure trivial
        · sa
theorem SQ.buildArray (F : FloatOps) (field : Ptr) (hf : hField h field) :
    (l : List Literal) → SA valuePanics h (buildArray F field l)
  | [] => by unfold Protoast.buildArray; sa
  | l :: ls => by
    unfold Protoast.buildArray
    exact SQ.bind (SQ.buildFromLiteral F none field true hf l) fun _ _ =>
      SQ.bind (SQ.buildArray F field hf ls) fun _ _ => SQ.pure trivial
theorem SQ.buildItems (F : FloatOps) (msg : Ptr) : (l : List (Str × Literal)) → SA valuePanics h (buildItems F msg l)
  | [] => by unfold Protoast.buildItems; sa
  | nl :: rest => by
    unfold Protoast.buildItems
    exact SQ.bind (SQ.buildItem F msg nl) fun _ _ =>
      SQ.bind (SQ.buildItems F msg rest) fun _ _ => SQ.pure trivial
theorem SQ.buildItem (F : FloatOps) (msg : Ptr) : (l : Str × Literal) → SA valuePanics h (buildItem F msg l)
  | (name, lit) => by
    have hl := fun fp hf => SQ.buildFromLiteral F none fp false hf lit
    unfold Protoast.buildItem
    refine SQ.bind (SQ.messageFieldN _ _) fun _ _ => ?_
    split
    · refine SQ.read fun r j => ?_
      split
      · next hk =>
        rw [j.kind] at hk
        exact SQ.bind (hl _ ⟨_, _, _, _, _, hk⟩) fun _ _ => SQ.pure trivial
      · sa
    · sa
end

theorem SQ.optionValue (F : FloatOps) {o f : Ptr} (ho : hOption h o) (hf : hField h f) :
    SA valuePanics h (Option.value F o f) := by
  obtain ⟨n, cst, ho⟩ := ho
  unfold Protoast.Option.value
  refine SQ.read fun r j => ?_
  rw [j.kind, ho]
  exact SQ.buildFromLiteral F _ f _ hf cst

/-! ### Handles -/

/-- The parsed objects behind a handle have the types Go gives them, and those around them have wrappers. -/
def NodeOK (h : List ProtoFile) : Node → Prop
  | .wrapped _ k p => hTarget h p = some k ∧ hRooted h p
  | .option _ o _ f => (hOption h o ∧ hField h f) ∧ hRooted h ⟨o.file, o.path.tail⟩
  | .oneof _ p => (∃ n, hKind h p = some (.oneof n)) ∧ hRooted h p
  | .map _ p => ∃ a b c d, hKind h p = some (.mapField a b c d)
  | .repeated _ (some t) => t.isType = true ∧ NodeOK h t
  | .repeated _ none => True
  | .builtin _ => True
  | .value v => ∀ o, v.opt = some o → hOption h o
  | .mapItem _ _ => True

theorem SQ.comment : (n : Node) → NodeOK h n → SA L h (comment n)
  | .wrapped _ k p, hn => by
    unfold Protoast.comment
    refine SQ.read fun r j => ?_
    cases k
    case messageField =>
      dsimp only
      rw [j.kind]
      obtain ⟨kd, e1, e2⟩ := hTarget_kind hn.1 (by decide)
      rw [e1]
      cases kd <;> first | (simp only [wrapKind, reduceCtorEq, Option.some.injEq] at e2; done) | sa
    all_goals dsimp only; sa
  | .repeated _ _, _ => by unfold Protoast.comment; sa
  | .oneof _ _, _ => by unfold Protoast.comment; sa
  | .option _ _ _ _, _ => by unfold Protoast.comment; sa
  | .value _, _ => by unfold Protoast.comment; sa
  | .map _ _, _ => by unfold Protoast.comment; sa
  | .builtin _, _ => by unfold Protoast.comment; sa
  | .mapItem _ _, _ => by unfold Protoast.comment; sa

theorem SQ.nodeDescription : (n : Node) → NodeOK h n → SA n.descPanics h (nodeDescription n)
  | .repeated _ (some t), hn => by
    unfold Protoast.nodeDescription
    exact SQ.bind (SQ.nodeDescription t hn.2) fun _ _ => SQ.pure trivial
  | .repeated _ none, _ => by unfold Protoast.nodeDescription Node.descPanics; sa
  | .wrapped _ _ _, _ => by unfold Protoast.nodeDescription; sa
  | .oneof _ _, _ => by unfold Protoast.nodeDescription; sa
  | .option _ _ _ _, _ => by unfold Protoast.nodeDescription; sa
  | .value _, _ => by unfold Protoast.nodeDescription Node.descPanics; sa
  | .map _ _, hn => by
    obtain ⟨a, b, c, d, hn⟩ := hn
    unfold Protoast.nodeDescription Node.descPanics
    refine SQ.bind ((SQ.mapKey hn).sub (by decide)) fun k hk => ?_
    obtain ⟨b, rfl⟩ := hk
    exact SQ.panic (by decide)
  | .builtin _, _ => by unfold Protoast.nodeDescription Node.descPanics; sa
  | .mapItem _ _, _ => by unfold Protoast.nodeDescription Node.descPanics; sa

theorem SQ.wrappedPos {k : WKind} {p : Ptr} (e : hTarget h p = some k) (hk : k ≠ .file) :
    SA L h (Protoast.elemPos p) := by
  obtain ⟨kd, e1, _⟩ := hTarget_kind e hk
  exact SQ.elemPos e1

theorem SQ.nodePos : (n : Node) → NodeOK h n → SA n.filePanics h (nodePos n)
  | .repeated _ (some t), hn => by unfold Protoast.nodePos; exact SQ.nodePos t hn.2
  | .repeated _ none, _ => by unfold Protoast.nodePos Node.filePanics; sa
  | .wrapped _ k _, hn => by
    cases k
    case file => unfold Protoast.nodePos; exact SQ.filePos (hTarget_file hn.1)
    all_goals unfold Protoast.nodePos; exact SQ.wrappedPos hn.1 (by decide)
  | .oneof _ _, ⟨⟨_, hn⟩, _⟩ => by unfold Protoast.nodePos; exact SQ.elemPos hn
  | .option _ _ _ _, ⟨⟨⟨_, _, hn⟩, _⟩, _⟩ => by unfold Protoast.nodePos; exact SQ.elemPos hn
  | .value v, hn => by
    unfold Protoast.nodePos Node.filePanics
    cases ho : v.opt with
    | some o => obtain ⟨_, _, h1⟩ := hn o ho; exact SQ.elemPos h1
    | none => exact SQ.panic (by simp)
  | .map _ _, ⟨_, _, _, _, hn⟩ => by unfold Protoast.nodePos; exact SQ.elemPos hn
  | .builtin _, _ => by unfold Protoast.nodePos; sa
  | .mapItem _ _, _ => by unfold Protoast.nodePos Node.filePanics; sa

theorem SQ.nodeFile (n : Node) (hn : NodeOK h n) : SA n.filePanics h (nodeFile n) := by
  unfold Protoast.nodeFile
  refine SQ.bind (SQ.nodePos n hn) fun _ _ => SQ.read fun r j => ?_
  split
  · sa
  · next i hi =>
    refine SQ.bind (SQ.wrapAs ?_) fun _ _ => SQ.pure trivial
    unfold hTarget
    exact if_pos (j.protos _ _ hi)

/-! ### Climbing -/

/-- A node that has no parent to climb to: an option value. -/
def Node.isValue : Node → Bool
  | .value _ => true
  | _ => false

/-- A file node. -/
def Node.isFile : Node → Bool
  | .wrapped _ .file _ => true
  | _ => false

/-- The result is a wrapper nested less deeply than `d`. -/
def Shallower (h : List ProtoFile) (d : Nat) (x : Option Node) : Prop :=
  ∀ m, x = some m → NodeOK h m ∧ m.depth < d ∧ ∃ a k p, m = .wrapped a k p

/-- What `NodeParent` returns: the wrapper of the object around; nothing for files, and for values (which panic when
    first asked). -/
def ParentOK (h : List ProtoFile) (n : Node) (x : Option Node) : Prop :=
  Shallower h n.depth x ∧ (x = none → n.isFile = true ∨ n.isValue = true)

theorem SQ.wrapParent {p : Ptr} {n : Node} (hd : n.depth = p.path.length) (hp : p.path ≠ [])
    (hr : hRooted h ⟨p.file, p.path.tail⟩) : SQ L h (Protoast.wrap p.parent) (ParentOK h n) := by
  unfold ParentOK
  rw [hd]
  rcases p with ⟨f, path⟩
  cases path with
  | nil => exact absurd rfl hp
  | cons j t =>
    have ht : ∃ k, hTarget h ⟨f, t⟩ = some k := by
      obtain ⟨pf, h1, h2⟩ := hr
      have hl := (List.getElem?_eq_some_iff.mp h1).1
      cases t with
      | nil => exact ⟨.file, if_pos hl⟩
      | cons i t' =>
        obtain ⟨_, e, k, h3, h4⟩ := h2
        exact ⟨k, by simp [hTarget, hKind, h1, h3, h4]⟩
    obtain ⟨k, ht⟩ := ht
    refine (SQ.wrapAt ht).mono fun x hx => ?_
    obtain ⟨a, rfl⟩ := hx
    refine ⟨?_, by intro e; cases e⟩
    intro m hm
    cases hm
    exact ⟨⟨ht, hr⟩, Nat.lt_succ_self _, a, k, _, rfl⟩

theorem hRooted.tail {p : Ptr} (hr : hRooted h p) : hRooted h ⟨p.file, p.path.tail⟩ := by
  obtain ⟨f, h1, h2⟩ := hr
  exact ⟨f, h1, h2.tail⟩

theorem SQ.nodeParent : (n : Node) → NodeOK h n → SQ n.climbPanics h (nodeParent n) (ParentOK h n)
  | .repeated _ (some t), hn => by
    unfold Protoast.nodeParent
    refine (SQ.nodeParent t hn.2).mono fun x hx => ⟨hx.1, fun e => ?_⟩
    have ht := hn.1
    rcases hx.2 e with h1 | h1
    · cases t <;> simp only [Node.isFile, Bool.false_eq_true] at h1
      next k _ => cases k <;> simp [Node.isType] at h1 ht
    · cases t <;> simp [Node.isValue, Node.isType] at h1 ht
  | .repeated _ none, _ => by unfold Protoast.nodeParent Node.climbPanics; exact SQ.panic (by decide)
  | .wrapped _ k p, hn => by
    unfold Protoast.nodeParent
    refine SQ.read fun r j => ?_
    have hw : k ≠ .file → ∀ a, SQ [] h (Protoast.wrap p.parent) (ParentOK h (.wrapped a k p)) := fun hk a => by
      obtain ⟨kd, e1, _⟩ := hTarget_kind hn.1 hk
      exact SQ.wrapParent rfl (hKind_path e1) hn.2.tail
    split <;> first | exact hw (by decide) _ | skip
    · rw [j.kind]
      obtain ⟨kd, e1, e2⟩ := hTarget_kind hn.1 (by decide)
      rw [e1]
      cases kd <;>
        first | (simp only [wrapKind, reduceCtorEq, Option.some.injEq] at e2; done) | exact hw (by decide) _
    · exact SQ.pure ⟨(by intro m hm; cases hm), fun _ => .inl rfl⟩
  | .oneof _ p, hn => by
    obtain ⟨⟨_, e⟩, hr⟩ := hn
    unfold Protoast.nodeParent
    exact SQ.wrapParent rfl (hKind_path e) hr.tail
  | .option _ p _ _, hn => by
    obtain ⟨⟨⟨_, _, e⟩, _⟩, hr⟩ := hn
    unfold Protoast.nodeParent
    exact SQ.wrapParent rfl (hKind_path e) hr
  | .value v, hn => by
    unfold Protoast.nodeParent Node.climbPanics
    split
    · next o ho =>
      obtain ⟨nm, c, h1⟩ := hn o ho
      refine (SQ.wrapQ _).mono fun x hx => ⟨fun m hm => ?_, fun _ => .inr rfl⟩
      obtain ⟨a, k, q, h2, rfl, h3⟩ := hx m hm
      cases h2
      exfalso
      unfold hTarget at h3
      rw [h1] at h3
      split at h3
      · next hp => exact hKind_path h1 hp
      · cases h3
    · refine (SQ.wrapQ _).mono fun x hx => ⟨fun m hm => ?_, fun _ => .inr rfl⟩
      obtain ⟨a, k, q, h2, _⟩ := hx m hm
      cases h2
  | .map _ _, _ => by unfold Protoast.nodeParent Node.climbPanics; exact SQ.panic (by decide)
  | .builtin _, _ => by unfold Protoast.nodeParent Node.climbPanics; exact SQ.panic (by decide)
  | .mapItem _ _, _ => by unfold Protoast.nodeParent Node.climbPanics; exact SQ.panic (by decide)

/-- The last node of the list is a file. -/
def EndsInFile (h : List ProtoFile) (ns : List Node) : Prop :=
  ∃ l a p, ns = l ++ [.wrapped a .file p] ∧ p.file < h.length

/-- What `NodeHierarchy` returns. -/
def ChainOK (h : List ProtoFile) (n : Node) (ns : List Node) : Prop :=
  (n.isValue = false ∧ EndsInFile h ns) ∨ (n.isValue = true ∧ ns = [n])

theorem SQ.nodeHierarchy : ∀ (fuel : Nat) (n : Node), NodeOK h n → n.depth < fuel →
    SQ n.climbPanics h (nodeHierarchy fuel (some n)) (ChainOK h n)
  | 0, _, _, hd => absurd hd (Nat.not_lt_zero _)
  | fuel + 1, n, hn, hd => by
    unfold Protoast.nodeHierarchy
    refine SQ.bind (SQ.nodeParent n hn) fun x hx => ?_
    cases x with
    | none =>
      unfold Protoast.nodeHierarchy
      refine SQ.bind (Q := fun l => l = []) (SQ.pure rfl) fun l hl => SQ.pure ?_
      subst hl
      rcases hx.2 rfl with h1 | h1
      · cases n <;> simp only [Node.isFile, Bool.false_eq_true] at h1
        next a k p =>
          cases k <;> simp only [Bool.false_eq_true] at h1
          exact .inl ⟨rfl, [], a, p, rfl, hTarget_file hn.1⟩
      · exact .inr ⟨h1, rfl⟩
    | some m =>
      obtain ⟨h1, h2, a, k, p, rfl⟩ := hx.1 m rfl
      refine SQ.bind (SQ.any (SQ.nodeHierarchy fuel _ h1 (by omega))) fun ns hns => SQ.pure (.inl ⟨?_, ?_⟩)
      · cases n <;> first | rfl | exact absurd h2 (Nat.not_lt_zero _)
      rcases hns with ⟨_, l, a', q, rfl, hq⟩ | ⟨h3, _⟩
      · exact ⟨n :: l, a', q, rfl, hq⟩
      · cases h3

theorem lastFile_end (l : List Node) (a : Nat) (p : Ptr) : lastFile (l ++ [.wrapped a .file p]) = Pure.pure p := by
  induction l with
  | nil => rfl
  | cons n l ih =>
    cases l with
    | nil => simp only [List.cons_append, List.nil_append, lastFile]
    | cons m l => simp only [List.cons_append, lastFile] at ih ⊢; exact ih

/-- A part of an option value. -/
def Node.isItem : Node → Bool
  | .mapItem _ _ => true
  | _ => false

/-- The deferred function of `Pos` that fills in the file name. -/
theorem SQ.posDefer {fuel : Nat} {n : Node} (hn : NodeOK h n) (hd : n.depth < fuel) (res : Position)
    (hL : ∀ p ∈ n.climbPanics, p ∈ L) (hv : n.isValue = true → .typeAssertion ∈ L) :
    SQ L h (posDefer fuel n res) (fun _ => res.filename = [] → n.isValue = false ∧ n.isItem = false) := by
  unfold Protoast.posDefer
  split
  · next hr => exact SQ.pure (fun e => absurd e hr)
  · refine SQ.bind (Q := fun ns => ChainOK h n ns ∧ n.isItem = false) ?_ fun ns hns => ?_
    · refine SQ.sub ?_ hL
      cases hi : n.isItem with
      | false => exact (SQ.nodeHierarchy fuel n hn hd).mono fun ns hns => ⟨hns, rfl⟩
      | true =>
        cases n <;> simp only [Node.isItem, Bool.false_eq_true] at hi
        cases fuel with
        | zero => exact absurd hd (Nat.not_lt_zero _)
        | succ fuel =>
          unfold Protoast.nodeHierarchy Protoast.nodeParent Node.climbPanics
          exact SQ.bind (Q := fun _ => False) (SQ.panic (by decide)) fun _ hf => hf.elim
    · obtain ⟨hns, hc⟩ := hns
      cases hval : n.isValue with
      | false =>
        rcases hns with ⟨_, hns⟩ | ⟨h1, _⟩
        · obtain ⟨l, a, p, rfl, hp⟩ := hns
          rw [lastFile_end]
          refine SQ.bind (Q := fun q => q = p) (SQ.pure rfl) fun q hq => ?_
          subst hq
          exact SQ.bind (SQ.fileName hp) fun _ _ => SQ.pure fun _ => ⟨rfl, hc⟩
        · rw [hval] at h1; cases h1
      | true =>
        cases n <;> simp only [Node.isValue, Bool.false_eq_true] at hval
        next v =>
        have hv' := hv rfl
        rcases hns with ⟨h1, _⟩ | ⟨_, rfl⟩
        · cases h1
        · exact SQ.bind (Q := fun _ => False) (SQ.panic hv') fun _ hf => hf.elim

/-- The position itself, before the file name is filled in. -/
theorem SQ.posBody : (n : Node) → NodeOK h n →
    SQ ((if n.isValue || n.isItem then [.nilDeref] else []) ++ n.posPanics) h (posBody n) fun _ => True
  | .repeated _ _, _ => by
    unfold Protoast.posBody
    refine SQ.panic ?_
    next t _ => cases t <;> simp [Node.posPanics, Node.isValue, Node.isItem]
  | .wrapped _ k _, hn => by
    cases k
    case file => unfold Protoast.posBody; exact SQ.filePos (hTarget_file hn.1)
    all_goals unfold Protoast.posBody; exact SQ.wrappedPos hn.1 (by decide)
  | .oneof _ _, ⟨⟨_, hn⟩, _⟩ => by unfold Protoast.posBody; exact SQ.elemPos hn
  | .option _ _ _ _, ⟨⟨⟨_, _, hn⟩, _⟩, _⟩ => by unfold Protoast.posBody; exact SQ.elemPos hn
  | .value v, _ => by
    cases v <;>
      (simp only [Protoast.posBody]
       first | exact SQ.pure trivial | exact SQ.panic (by simp [Node.isValue]))
  | .map _ _, ⟨_, _, _, _, hn⟩ => by unfold Protoast.posBody; exact SQ.elemPos hn
  | .builtin _, _ => by unfold Protoast.posBody; exact SQ.panic (by simp [Node.posPanics])
  | .mapItem _ _, _ => by unfold Protoast.posBody; exact SQ.panic (by simp [Node.isItem])

theorem SQ.pos {fuel : Nat} {n : Node} (hn : NodeOK h n) (hd : n.depth < fuel) : SA n.posPanics h (pos fuel n) := by
  have hL : ∀ p ∈ n.climbPanics, p ∈ n.posPanics := by
    cases n <;> simp [Node.climbPanics, Node.posPanics]
    next t => cases t <;> simp [Node.climbPanics]; intro a ha; exact .inr ha
  have hv : n.isValue = true → .typeAssertion ∈ n.posPanics := by
    intro e
    cases n <;> simp only [Node.isValue, Bool.false_eq_true] at e
    simp [Node.posPanics]
  constructor
  intro r j
  obtain ⟨h1, h2, -⟩ := (SQ.posBody n hn).run r j
  unfold Protoast.pos
  rcases e : Protoast.posBody n r with ⟨res, r'⟩
  rw [e] at h1 h2
  cases res with
  | ok a => exact (SQ.posDefer hn hd a hL hv).weaken.run r' h1
  | panic p =>
    obtain ⟨h3, h4, h5⟩ := (SQ.posDefer hn hd {} hL hv).run r' h1
    rcases e' : Protoast.posDefer fuel n {} r' with ⟨res', r''⟩
    rw [e'] at h3 h4 h5
    dsimp only at h3 h4 h5 ⊢
    rw [e']
    cases res' with
    | ok a =>
      refine ⟨h3, ⟨by simp, fun q e => ?_⟩, fun _ _ => trivial⟩
      obtain ⟨h6, h7⟩ := h5 a rfl rfl
      have := h2.2 q (by simpa using e)
      rw [h6, h7] at this
      simpa using this
    | panic p' => exact ⟨h3, ⟨by simp, fun q e => h4.2 q (by simpa using e)⟩, fun _ _ => trivial⟩
    | timeout => exact absurd rfl h4.1
  | timeout => exact absurd rfl h2.1

/-! ### GoPackage -/

theorem SQ.goPackageBody (s) (a : Option Node) (ha : EvNode h a) : SA [.noGoPackage] h (goPackageBody s a) := by
  unfold Protoast.goPackageBody
  split
  · next ad o c f =>
    rcases ha _ rfl with ⟨_, _, _, _, e, ho, hf⟩ | ⟨_, _, _, e⟩
    · cases e
      refine SQ.bind (SQ.optionName ho hf) fun nm _ => ?_
      split
      · exact SQ.pure trivial
      · refine SQ.bind (SQ.goPackageOption ?_) fun _ _ => SQ.pure trivial
        intro a o' c' f' e
        cases e
        exact ho
    · cases e
  · exact SQ.pure trivial

theorem SQ.runSteps {α σ} {Q : α → Prop} {body : σ → α → M (σ × Bool)} (hb : ∀ s a, Q a → SA L h (body s a)) :
    ∀ (ms : List (M α)) (s : σ), StepsOK L h Q ms → SA L h (runSteps body ms s)
  | [], s, _ => by unfold Protoast.runSteps; exact SQ.pure trivial
  | m :: ms, s, hs => by
    unfold Protoast.runSteps
    refine SQ.bind (hs m (by simp)) fun a ha => SQ.bind (hb s a ha) fun x _ => ?_
    obtain ⟨s', go⟩ := x
    dsimp only
    split
    · exact SQ.runSteps hb ms s' fun m hm => hs m (List.mem_cons_of_mem _ hm)
    · exact SQ.pure trivial

theorem SQ.goPackage (n : Node) (hn : NodeOK h n) :
    SA (n.filePanics ++ .noGoPackage :: everythingPanics) h (goPackage n) := by
  unfold Protoast.goPackage
  refine SQ.bind ((SQ.nodeFile n hn).sub fun p hp => List.mem_append_left _ hp) fun x _ => ?_
  split
  · refine SQ.bind (Q := fun _ => True) ?_ fun s _ => by sa
    unfold Seq.run
    refine SQ.sub (L := .noGoPackage :: everythingPanics) ?_ fun p hp => List.mem_append_right _ hp
    refine SQ.bind (SQ.everything _ _) fun ms hms => SQ.runSteps (Q := EvNode h)
      (fun s a ha => (SQ.goPackageBody s a ha).sub (by decide)) ms none ?_
    intro m hm
    exact (hms m hm).sub (by decide)
  · exact SQ.pure trivial

/-! ### Queries -/

theorem SQ.everythingNth (cn : Str) :
    SA everythingPanics h
      (Seq.nth (Protoast.overKids p (Protoast.everythingStep cn)) i >>= fun x => Pure.pure (flatOpt x)) :=
  SQ.bind (SQ.nth (SQ.everything p cn) i) fun _ _ => SQ.pure trivial

theorem SQ.iter (q : IterQ) (n : Node) : SA q.panics h (q.run n i) := by
  unfold IterQ.run
  split
  · exact SQ.fileImports _ _
  · exact SQ.fileMessages _ _
  · exact SQ.fileEnums _ _
  · exact SQ.fileTypes _ _
  · exact SQ.fileServices _ _
  · exact SQ.everythingNth _ _ _
  · exact SQ.messageFields _ _
  · exact SQ.messageMessages _ _
  · exact SQ.messageTypes _ _
  · exact SQ.everythingNth _ _ _
  · exact SQ.enumValues _ _
  · exact SQ.enumEnums _ _
  · exact SQ.everythingNth _ _ _
  · exact SQ.oneofBranches _ _
  · exact SQ.serviceMethods _ _
  · exact SQ.everythingNth _ _ _
  · exact SQ.methodOptions _ _
  · exact SQ.bind (SQ.options i _) fun _ hs => hs.sub (by decide)
  · exact SQ.pure trivial

theorem SQ.named (q : NamedQ) (n : Node) (name : Str) : SA q.panics h (q.run n name) := by
  unfold NamedQ.run
  split
  · exact SQ.fileMessage _ _
  · exact SQ.fileEnum _ _
  · exact SQ.fileType _ _
  · exact SQ.fileService _ _
  · exact SQ.messageFieldN _ _
  · exact SQ.messageMessage _ _
  · exact SQ.messageType _ _
  · exact SQ.enumValueN _ _
  · exact SQ.enumEnum _ _
  · exact SQ.oneofBranch _ _
  · exact SQ.serviceMethod _ _
  · exact SQ.optionNamed _ _
  · exact SQ.pure trivial

theorem SQ.plain (q : PlainQ) (n : Node) (hn : NodeOK h n) (hd : q.enough n.depth) : SA (q.panics n) h (q.run n) := by
  have tt : ∀ {L} {α β} {m : M α} (f : α → β), SA L h m → SA L h (m >>= fun x => Pure.pure (f x)) :=
    fun f hm => SQ.bind hm fun _ _ => SQ.pure trivial
  unfold PlainQ.run
  split
  · exact tt _ (SQ.fieldType _ hn.1)
  · exact tt _ (SQ.branchType hn.1)
  · exact tt _ (SQ.methodInput hn.1)
  · exact tt _ (SQ.methodOutput hn.1)
  · obtain ⟨_, _, _, _, hn⟩ := hn; exact tt _ (SQ.mapKey hn).weaken
  · obtain ⟨_, _, _, _, hn⟩ := hn; exact tt _ (SQ.mapValue hn)
  · exact SQ.pure trivial
  · exact tt _ (SQ.optionValue _ hn.1.1 hn.1.2)
  · exact SQ.pure trivial
  · exact SQ.pure trivial
  · exact tt _ (SQ.nodeParent _ hn).weaken
  · exact (SQ.nodeHierarchy _ _ hn hd).weaken
  · exact tt _ (SQ.nodeFile _ hn)
  · exact tt _ (SQ.pos hn hd)
  · exact tt _ (SQ.nodeIndex _)
  · exact tt _ (SQ.nodeDescription _ hn)
  · exact tt _ (SQ.comment _ hn)
  · exact tt _ (SQ.typeName _)
  · exact tt _ (SQ.typeIsDefined _ _)
  · exact tt _ (SQ.goPackage _ hn)
  · refine tt _ (SQ.goPackageOption ?_)
    intro a o c f e
    subst e
    exact hn.1.1
  · exact tt _ (SQ.optionIs hn.1.2 _)
  · exact tt _ (SQ.optionName hn.1.1 hn.1.2)
  · exact tt _ (SQ.fileName (hTarget_file hn.1))
  · exact tt _ (SQ.messageName hn.1)
  · exact tt _ (SQ.enumName hn.1)
  · exact tt _ (SQ.enumValueName hn.1)
  · exact tt _ (SQ.fieldName hn.1)
  · exact tt _ (SQ.branchName hn.1)
  · exact tt _ (SQ.serviceName hn.1)
  · exact tt _ (SQ.methodName hn.1)
  · exact tt _ (SQ.filePackage _)
  · exact tt _ (SQ.packagePackage hn.1)
  · exact tt _ (SQ.isExtension hn.1)
  · exact tt _ (SQ.fieldValue hn.1)
  · exact tt _ (SQ.enumValueValue hn.1)
  · exact tt _ (SQ.branchValue hn.1)
  · exact tt _ (SQ.fieldOptional hn.1)
  · exact tt _ (SQ.importPath hn.1)
  · exact tt _ (SQ.syntaxValue hn.1)
  · exact tt _ (SQ.reservedValues hn.1)
  · exact SQ.pure trivial

theorem SQ.query (q : Query) (n : Node) (hn : NodeOK h n) (hd : q.enough n.depth) : SA (q.panics n) h (q.run n) := by
  unfold Query.run
  split
  · exact SQ.bind (SQ.iter _ _ _) fun _ _ => SQ.pure trivial
  · exact SQ.bind (SQ.named _ _ _) fun _ _ => SQ.pure trivial
  · exact SQ.plain _ n hn hd

theorem SQ.nodeByFullName (s) : SA [.unsupportedType] h (nodeByFullName s) := by
  unfold Protoast.nodeByFullName
  refine SQ.read fun r j => ?_
  split
  · exact (SQ.wrapQ _).weaken
  · exact (SQ.wrapQ _).weaken

end

/-! ### Reachable registries -/

theorem J.of_inv {o r} (hi : Inv o r) : J r.heap r where
  heap := rfl
  cache v n e := by
    obtain ⟨a, k, p, h1, h2, h3, _⟩ := hi.cacheSome v n e
    exact ⟨a, k, p, h1, h2, target_hTarget h3⟩
  cacheNone p e := by
    have := (hi.cacheNone _ e).1
    rw [target_h] at this
    simpa using this
  reg name p e := by
    obtain ⟨el, k, h1, h2⟩ := hi.regPtr name p e
    have hk : hKind r.heap p = some el.kind := by
      unfold Reg.elem at h1
      unfold hKind
      rw [h1]; rfl
    exact ⟨_, k, hk, h2, hKind_target hk h2⟩
  protos path i e := by
    obtain ⟨f, h1, _⟩ := hi.protosHeap path i e
    exact (List.getElem?_eq_some_iff.mp h1).1

theorem NodeOK.of_good {o r} : (n : Node) → Good o r n → NodeOK r.heap n
  | .wrapped _ _ _, g => ⟨target_hTarget g.target, g.rooted⟩
  | .option _ _ _ _, g => ⟨⟨g.2.1.1, g.2.2.2.1⟩, g.2.1.2.1⟩
  | .oneof _ _, g => ⟨g.2.1, g.2.2⟩
  | .map _ _, g => g.2
  | .repeated _ none, _ => trivial
  | .repeated _ (some t), g => ⟨g.2.1, NodeOK.of_good t g.2.2⟩
  | .builtin _, _ => trivial
  | .value v, g => by
    intro o ho
    have : OptOK r v.opt := by cases v <;> first | exact g | exact g.1
    rw [ho] at this
    exact this.1
  | .mapItem _ _, _ => trivial

theorem query_sane {o r} (hi : Inv o r) {n : Node} (g : Good o r n) (q : Query) (hd : q.enough n.depth) :
    Sane (q.panics n) (q.run n r).1 :=
  ((SQ.query q n (NodeOK.of_good n g) hd).run r (J.of_inv hi)).2.1

/-! ### The step budget -/

theorem hierarchy_more (m : Nat) : ∀ (fuel : Nat) (x : Option Node) (r : Reg), (nodeHierarchy fuel x r).1 ≠ .timeout →
    nodeHierarchy (fuel + m) x r = nodeHierarchy fuel x r
  | fuel, none, r, _ => by cases fuel <;> (unfold nodeHierarchy; rfl)
  | 0, some n, r, h => absurd rfl h
  | fuel + 1, some n, r, h => by
    rw [Nat.add_right_comm]
    unfold nodeHierarchy at h ⊢
    simp only [M.bind_apply] at h ⊢
    rcases e : nodeParent n r with ⟨res, r'⟩
    rw [e] at h
    cases res with
    | ok x =>
      simp only at h ⊢
      rw [hierarchy_more m fuel x r']
      intro e'
      rcases e'' : nodeHierarchy fuel x r' with ⟨res', r''⟩
      rw [e''] at e' h
      simp only at e'
      subst e'
      exact h rfl
    | panic p => rfl
    | timeout => rfl

theorem hierarchy_budget {fuel fuel' : Nat} {x : Option Node} {r : Reg} (h : (nodeHierarchy fuel x r).1 ≠ .timeout)
    (h' : (nodeHierarchy fuel' x r).1 ≠ .timeout) : nodeHierarchy fuel x r = nodeHierarchy fuel' x r := by
  rcases Nat.le_total fuel fuel' with hl | hl
  · obtain ⟨m, rfl⟩ := Nat.exists_eq_add_of_le hl
    exact (hierarchy_more m fuel x r h).symm
  · obtain ⟨m, rfl⟩ := Nat.exists_eq_add_of_le hl
    exact hierarchy_more m fuel' x r h'

end Protoast
