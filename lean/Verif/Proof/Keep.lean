import Verif.Proof.ReadOnly
/-
  Frame rule for the calls on handles: a relation between states that is kept by handing out addresses and nodes is
  kept by every call on a handle, except `Type` of a field, which also writes the table of field types. (Same structure
  as Proof/ReadOnly.lean.)
-/
namespace Protoast

/-- A relation between states that handing out addresses and wrapping nodes keep. -/
class Keep (R : Reg → Reg → Prop) : Prop where
  refl : ∀ r, R r r
  trans : ∀ {a b c}, R a b → R b c → R a c
  alloc : ∀ r, R r (M.alloc r).2
  wrapAt : ∀ p r, R r (wrap (.at p) r).2
  wrapNilOption : ∀ r, R r (wrap .nilOption r).2
  wrapNilProto : ∀ r, R r (wrap .nilProto r).2

/-- A computation after which the state is related to that before. -/
structure NK (R : Reg → Reg → Prop) {α : Type} (m : M α) : Prop where
  ext : ∀ r, R r (m r).2

instance {R : Reg → Reg → Prop} {α : Type} (m : M α) : CoeFun (NK R m) (fun _ => ∀ r, R r (m r).2) := ⟨NK.ext⟩

variable {R : Reg → Reg → Prop} [K : Keep R]

theorem NK.pure {α} (a : α) : NK R (pure a : M α) := ⟨fun r => K.refl r⟩
theorem NK.panic {α} (p : Panic) : NK R (M.panic p : M α) := ⟨fun r => K.refl r⟩
theorem NK.get : NK R M.get := ⟨fun r => K.refl r⟩
theorem NK.timeout {α} : NK R ((fun r => (.timeout, r)) : M α) := ⟨fun r => K.refl r⟩
theorem NK.alloc : NK R M.alloc := ⟨fun r => K.alloc r⟩

theorem NK.bind {α β} {m : M α} {f : α → M β} (hm : NK R m) (hf : ∀ a, NK R (f a)) :
    NK R (m >>= f) := by
  constructor; intro r
  have h1 := hm r
  simp only [M.bind_apply]
  rcases hmr : m r with ⟨res, r'⟩
  rw [hmr] at h1
  cases res with
  | ok a => exact K.trans h1 (hf a r')
  | panic p => exact h1
  | timeout => exact h1

theorem NK.wrapAt (p : Ptr) : NK R (Protoast.wrap (.at p)) := ⟨K.wrapAt p⟩
theorem NK.wrapNilOption : NK R (Protoast.wrap .nilOption) := ⟨K.wrapNilOption⟩
theorem NK.wrapParent (p : Ptr) : NK R (Protoast.wrap p.parent) := by
  unfold Ptr.parent
  split
  · exact ⟨K.wrapNilProto⟩
  · exact ⟨K.wrapAt _⟩

/-- Extensible list of keeping the relation lemmas. -/
syntax "nk_lemma" : tactic
macro_rules | `(tactic| nk_lemma) => `(tactic| fail)
macro_rules | `(tactic| nk_lemma) => `(tactic| with_reducible exact NK.pure _)
macro_rules | `(tactic| nk_lemma) => `(tactic| with_reducible exact NK.panic _)
macro_rules | `(tactic| nk_lemma) => `(tactic| with_reducible exact NK.get)
macro_rules | `(tactic| nk_lemma) => `(tactic| with_reducible exact NK.alloc)
macro_rules | `(tactic| nk_lemma) => `(tactic| with_reducible exact NK.timeout)
macro_rules | `(tactic| nk_lemma) => `(tactic| with_reducible exact NK.wrapAt _)
macro_rules | `(tactic| nk_lemma) => `(tactic| with_reducible exact NK.wrapNilOption)
macro_rules | `(tactic| nk_lemma) => `(tactic| with_reducible exact NK.wrapParent _)

/-- Prove that a `do` block is keeping the relation. -/
syntax "nk" : tactic
macro_rules
  | `(tactic| nk) => `(tactic| repeat' (first | nk_lemma | assumption | (with_reducible apply NK.bind) | intro _ | split))

theorem NK.assertKind (k n) : NK R (assertKind k n) := by unfold Protoast.assertKind; nk
macro_rules | `(tactic| nk_lemma) => `(tactic| with_reducible exact NK.assertKind _ _)
theorem NK.wrapAs (k p) : NK R (wrapAs k p) := by unfold Protoast.wrapAs; nk
macro_rules | `(tactic| nk_lemma) => `(tactic| with_reducible exact NK.wrapAs _ _)
theorem NK.wrapNamed (p) : NK R (wrapNamed p) := by unfold Protoast.wrapNamed; nk
macro_rules | `(tactic| nk_lemma) => `(tactic| with_reducible exact NK.wrapNamed _)
theorem NK.lookupType (p n) : NK R (lookupType p n) := by unfold Protoast.lookupType; nk
macro_rules | `(tactic| nk_lemma) => `(tactic| with_reducible exact NK.lookupType _ _)
theorem NK.getTypeByName (p n) : NK R (getTypeByName p n) := by unfold Protoast.getTypeByName; nk
macro_rules | `(tactic| nk_lemma) => `(tactic| with_reducible exact NK.getTypeByName _ _)
theorem NK.firstKid (p k s) : NK R (firstKid p k s) := by unfold Protoast.firstKid; nk
macro_rules | `(tactic| nk_lemma) => `(tactic| with_reducible exact NK.firstKid _ _ _)
theorem NK.fieldTypeBody (p) : NK R (fieldTypeBody p) := by unfold Protoast.fieldTypeBody; nk
macro_rules | `(tactic| nk_lemma) => `(tactic| with_reducible exact NK.fieldTypeBody _)

theorem NK.overKids {α} (p : Ptr) (pick : Ptr → Kind → Option (M α)) : NK R (overKids p pick) := by
  unfold Protoast.overKids; nk
macro_rules | `(tactic| nk_lemma) => `(tactic| with_reducible exact NK.overKids _ _)

/-- An iterator whose creation and steps are keeping the relation. -/
def NKSeq (R : Reg → Reg → Prop) {α : Type} (s : Seq α) : Prop :=
  NK R s ∧ ∀ r steps r', s r = (.ok steps, r') → ∀ m ∈ steps, NK R m

theorem NKSeq.overKids {α} (p : Ptr) (pick : Ptr → Kind → Option (M α))
    (h : ∀ q k m, pick q k = some m → NK R m) : NKSeq R (overKids p pick) := by
  refine ⟨NK.overKids _ _, ?_⟩
  intro r steps r' he m hm
  simp only [Protoast.overKids, M.bind_apply, M.get_apply, M.pure_apply, Prod.mk.injEq,
    Res.ok.injEq] at he
  obtain ⟨rfl, -⟩ := he
  rw [List.mem_filterMap] at hm
  obtain ⟨⟨q, e⟩, -, hq⟩ := hm
  exact h q e.kind m hq

theorem NK.nth {α} {s : Seq α} (h : NKSeq R s) (i : Nat) : NK R (s.nth i) := by
  constructor; intro r
  have h1 := h.1 r
  rcases hs : s r with ⟨res, r'⟩
  rw [hs] at h1
  cases res with
  | ok steps =>
    simp only [Seq.nth, M.bind_apply, hs]
    cases hm : steps[i]? with
    | some m =>
      have h2 := h.2 r steps r' hs m (List.mem_of_getElem? hm)
      refine K.trans h1 ?_
      exact (NK.bind h2 fun a => NK.pure _).ext r'
    | none => exact h1
  | panic p => simpa [Seq.nth, hs] using h1
  | timeout => simpa [Seq.nth, hs] using h1

theorem NK.runSteps {α σ} {body : σ → α → M (σ × Bool)} (hb : ∀ s a, NK R (body s a))
    (steps : List (M α)) (hs : ∀ m ∈ steps, NK R m) (s : σ) : NK R (runSteps body steps s) := by
  induction steps generalizing s with
  | nil => exact NK.pure _
  | cons m ms ih =>
    unfold Protoast.runSteps
    refine NK.bind (hs m (by simp)) fun a => ?_
    refine NK.bind (hb s a) fun x => ?_
    have := fun s => ih (fun m h => hs m (by simp [h])) s
    rcases x with ⟨s', go⟩
    cases go
    · exact NK.pure _
    · exact this _

theorem NK.run {α σ} {seq : Seq α} {body : σ → α → M (σ × Bool)} (hseq : NKSeq R seq)
    (hb : ∀ s a, NK R (body s a)) (s : σ) : NK R (Seq.run seq body s) := by
  constructor; intro r
  have h1 := hseq.1 r
  rcases hs : seq r with ⟨res, r'⟩
  rw [hs] at h1
  cases res with
  | ok steps =>
    simp only [Seq.run, M.bind_apply, hs]
    exact K.trans h1 (NK.runSteps hb steps (hseq.2 r steps r' hs) s r')
  | panic p => simpa [Seq.run, hs] using h1
  | timeout => simpa [Seq.run, hs] using h1

/-! ### Iterators -/

theorem NKSeq.fileImports (p) : NKSeq R (File.imports p) := by
  refine NKSeq.overKids _ _ fun q k m h => ?_
  split at h <;> simp at h <;> subst h <;> nk
theorem NKSeq.fileMessages (p) : NKSeq R (File.messages p) := by
  refine NKSeq.overKids _ _ fun q k m h => ?_
  split at h <;> simp at h <;> subst h <;> nk
theorem NKSeq.fileEnums (p) : NKSeq R (File.enums p) := by
  refine NKSeq.overKids _ _ fun q k m h => ?_
  split at h <;> simp at h <;> subst h <;> nk
theorem NKSeq.fileTypes (p) : NKSeq R (File.types p) := by
  refine NKSeq.overKids _ _ fun q k m h => ?_
  split at h <;> simp at h <;> subst h <;> nk
theorem NKSeq.fileServices (p) : NKSeq R (File.services p) := by
  refine NKSeq.overKids _ _ fun q k m h => ?_
  split at h <;> simp at h <;> subst h <;> nk
theorem NKSeq.messageFields (p) : NKSeq R (Message.fields p) := by
  refine NKSeq.overKids _ _ fun q k m h => ?_
  split at h <;> simp at h <;> subst h <;> nk
theorem NKSeq.messageMessages (p) : NKSeq R (Message.messages p) := by
  refine NKSeq.overKids _ _ fun q k m h => ?_
  split at h <;> simp at h <;> subst h <;> nk
theorem NKSeq.messageTypes (p) : NKSeq R (Message.types p) := by
  refine NKSeq.overKids _ _ fun q k m h => ?_
  split at h <;> simp at h <;> subst h <;> nk
theorem NKSeq.enumValues (p) : NKSeq R (Enum.values p) := by
  refine NKSeq.overKids _ _ fun q k m h => ?_
  split at h <;> simp at h <;> subst h <;> nk
theorem NKSeq.enumEnums (p) : NKSeq R (Enum.enums p) := by
  refine NKSeq.overKids _ _ fun q k m h => ?_
  split at h <;> simp at h <;> subst h <;> nk
theorem NKSeq.oneofBranches (p) : NKSeq R (OneOf.branches p) := by
  refine NKSeq.overKids _ _ fun q k m h => ?_
  split at h <;> simp at h <;> subst h <;> nk
theorem NKSeq.serviceMethods (p) : NKSeq R (Service.methods p) := by
  refine NKSeq.overKids _ _ fun q k m h => ?_
  split at h <;> simp at h <;> subst h <;> nk

theorem NK.optionClass (n) : NK R (optionClass n) := by unfold Protoast.optionClass; nk
macro_rules | `(tactic| nk_lemma) => `(tactic| with_reducible exact NK.optionClass _)
theorem NK.newOption (s c o) : NK R (newOption s c o) := by unfold Protoast.newOption; nk
macro_rules | `(tactic| nk_lemma) => `(tactic| with_reducible exact NK.newOption _ _ _)
theorem NK.wrapOption (o c) : NK R (wrapOption o c) := by unfold Protoast.wrapOption; nk
macro_rules | `(tactic| nk_lemma) => `(tactic| with_reducible exact NK.wrapOption _ _)

theorem NK.everythingStep {c q k m} (h : everythingStep c q k = some m) : NK R m := by
  unfold Protoast.everythingStep at h
  split at h <;> simp at h <;> subst h <;> nk

theorem NKSeq.fileEverything (p) : NKSeq R (File.everything p) :=
  NKSeq.overKids _ _ fun _ _ _ h => NK.everythingStep h
theorem NKSeq.messageEverything (p) : NKSeq R (Message.everything p) :=
  NKSeq.overKids _ _ fun _ _ _ h => NK.everythingStep h
theorem NKSeq.enumEverything (p) : NKSeq R (Enum.everything p) :=
  NKSeq.overKids _ _ fun _ _ _ h => NK.everythingStep h
theorem NKSeq.serviceEverything (p) : NKSeq R (Service.everything p) :=
  NKSeq.overKids _ _ fun _ _ _ h => NK.everythingStep h
theorem NKSeq.methodOptions (p) : NKSeq R (Method.options p) := by
  refine NKSeq.overKids _ _ fun q k m h => ?_
  split at h <;> simp at h <;> subst h <;> nk

theorem NK.seqOptions (s c p) : NK R (seqOptions s c p) := by unfold Protoast.seqOptions; nk
macro_rules | `(tactic| nk_lemma) => `(tactic| with_reducible exact NK.seqOptions _ _ _)
theorem NK.options (n) : NK R (options n) := by unfold Protoast.options; nk
macro_rules | `(tactic| nk_lemma) => `(tactic| with_reducible exact NK.options _)
theorem NK.namedOption (a b c d) : NK R (namedOption a b c d) := by unfold Protoast.namedOption; nk
macro_rules | `(tactic| nk_lemma) => `(tactic| with_reducible exact NK.namedOption _ _ _ _)
theorem NK.optionNamed (n s) : NK R (optionNamed n s) := by unfold Protoast.optionNamed; nk
macro_rules | `(tactic| nk_lemma) => `(tactic| with_reducible exact NK.optionNamed _ _)

theorem NKSeq.seqOptions {s c p r seq r'} (h : seqOptions s c p r = (.ok seq, r')) : NKSeq R seq := by
  simp only [Protoast.seqOptions, M.bind_apply] at h
  rcases hc : Protoast.optionClass c r with ⟨_ | _ | _, r1⟩ <;> rw [hc] at h <;>
    simp [M.pure_apply] at h
  obtain ⟨rfl, -⟩ := h
  refine NKSeq.overKids _ _ fun q k m h => ?_
  split at h <;> simp at h <;> subst h <;> nk

theorem NKSeq.options {n r seq r'} (h : options n r = (.ok seq, r')) : NKSeq R seq := by
  unfold Protoast.options at h
  cases n with
  | wrapped a k p =>
    simp only [M.bind_apply, M.get_apply] at h
    cases k <;> first | exact NKSeq.seqOptions h | skip
    all_goals first | (simp [M.panic_apply] at h; done) | skip
    rcases hk : r.kind p with _ | kd
    · simp [hk, M.panic_apply] at h
    · cases kd <;> simp only [hk, M.panic_apply] at h <;> first | exact NKSeq.seqOptions h | simp at h
  | oneof a p =>
    simp only [M.bind_apply, M.get_apply] at h
    exact NKSeq.seqOptions h
  | _ => simp [M.panic_apply] at h

theorem NK.optionsNth (n : Node) (i : Nat) :
    NK R (do let s ← Protoast.options n; s.nth i) := by
  constructor; intro r
  have h1 := NK.options (R := R) n r
  rcases hs : Protoast.options n r with ⟨res, r'⟩
  rw [hs] at h1
  cases res with
  | ok s =>
    simp only [M.bind_apply, hs]
    exact K.trans h1 (NK.nth (NKSeq.options hs) i r')
  | panic p => simpa [hs] using h1
  | timeout => simpa [hs] using h1

theorem NK.iterRun (q : IterQ) (n : Node) (i : Nat) : NK R (q.run n i) := by
  unfold IterQ.run
  split
  · exact NK.nth (NKSeq.fileImports _) i
  · exact NK.nth (NKSeq.fileMessages _) i
  · exact NK.nth (NKSeq.fileEnums _) i
  · exact NK.nth (NKSeq.fileTypes _) i
  · exact NK.nth (NKSeq.fileServices _) i
  · exact NK.bind (NK.nth (NKSeq.fileEverything _) i) fun _ => NK.pure _
  · exact NK.nth (NKSeq.messageFields _) i
  · exact NK.nth (NKSeq.messageMessages _) i
  · exact NK.nth (NKSeq.messageTypes _) i
  · exact NK.bind (NK.nth (NKSeq.messageEverything _) i) fun _ => NK.pure _
  · exact NK.nth (NKSeq.enumValues _) i
  · exact NK.nth (NKSeq.enumEnums _) i
  · exact NK.bind (NK.nth (NKSeq.enumEverything _) i) fun _ => NK.pure _
  · exact NK.nth (NKSeq.oneofBranches _) i
  · exact NK.nth (NKSeq.serviceMethods _) i
  · exact NK.bind (NK.nth (NKSeq.serviceEverything _) i) fun _ => NK.pure _
  · exact NK.nth (NKSeq.methodOptions _) i
  · exact NK.optionsNth _ i
  · exact NK.pure _

theorem NK.fileType (p n) : NK R (File.type p n) := by unfold File.type; nk
theorem NK.messageType (p n) : NK R (Message.type p n) := by unfold Message.type; nk

theorem NK.namedRun (q : NamedQ) (n : Node) (s : Str) : NK R (q.run n s) := by
  unfold NamedQ.run
  split
  · exact NK.firstKid _ _ _
  · exact NK.firstKid _ _ _
  · exact NK.fileType _ _
  · exact NK.firstKid _ _ _
  · exact NK.firstKid _ _ _
  · exact NK.firstKid _ _ _
  · exact NK.messageType _ _
  · exact NK.firstKid _ _ _
  · exact NK.firstKid _ _ _
  · exact NK.firstKid _ _ _
  · exact NK.firstKid _ _ _
  · exact NK.optionNamed _ _
  · exact NK.pure _

/-! ### Option values -/

mutual
theorem NK.buildFromLiteral (F : FloatOps) (o : Option Ptr) (f : Ptr) (ig : Bool) :
    (l : Literal) → NK R (buildFromLiteral F o f ig l)
  | .mk pos source array om => by
    have ha := NK.buildArray F f array
    have hi := fun mp => NK.buildItems F mp om
    unfold Protoast.buildFromLiteral Enum.value
    repeat' (first | exact ha | exact hi _ | nk_lemma | with_reducible apply NK.bind | intro _ | split)
theorem NK.buildArray (F : FloatOps) (f : Ptr) : (ls : List Literal) → NK R (buildArray F f ls)
  | [] => by unfold Protoast.buildArray; nk
  | l :: ls => by
    have h1 := NK.buildFromLiteral F none f true l
    have h2 := NK.buildArray F f ls
    unfold Protoast.buildArray
    nk
theorem NK.buildItems (F : FloatOps) (m : Ptr) :
    (ls : List (Str × Literal)) → NK R (buildItems F m ls)
  | [] => by unfold Protoast.buildItems; nk
  | nl :: rest => by
    have h1 := NK.buildItem F m nl
    have h2 := NK.buildItems F m rest
    unfold Protoast.buildItems
    nk
theorem NK.buildItem (F : FloatOps) (m : Ptr) : (nl : Str × Literal) → NK R (buildItem F m nl)
  | (name, lit) => by
    have h1 := fun fp => NK.buildFromLiteral F none fp false lit
    unfold Protoast.buildItem Message.field
    repeat' (first | exact h1 _ | nk_lemma | with_reducible apply NK.bind | intro _ | split)
end
macro_rules | `(tactic| nk_lemma) => `(tactic| with_reducible exact NK.buildFromLiteral _ _ _ _ _)

/-! ### Meta queries -/

theorem NK.mapKey (p) : NK R (Map.key p) := by unfold Map.key; nk
macro_rules | `(tactic| nk_lemma) => `(tactic| with_reducible exact NK.mapKey _)
theorem NK.mapValue (p) : NK R (Map.value p) := by unfold Map.value; nk
macro_rules | `(tactic| nk_lemma) => `(tactic| with_reducible exact NK.mapValue _)

theorem NK.nodeIndex (n) : NK R (nodeIndex n) := by unfold Protoast.nodeIndex; nk
macro_rules | `(tactic| nk_lemma) => `(tactic| with_reducible exact NK.nodeIndex _)
theorem NK.comment (n) : NK R (comment n) := by unfold Protoast.comment; nk
macro_rules | `(tactic| nk_lemma) => `(tactic| with_reducible exact NK.comment _)

theorem NK.nodeDescription : (n : Node) → NK R (nodeDescription n)
  | .repeated _ (some t) => by
    have := NK.nodeDescription t
    unfold Protoast.nodeDescription; nk
  | .repeated _ none => by unfold Protoast.nodeDescription; nk
  | .wrapped _ _ _ | .option _ _ _ _ | .oneof _ _ | .map _ _ | .builtin _ | .value _
  | .mapItem _ _ => by unfold Protoast.nodeDescription; nk
macro_rules | `(tactic| nk_lemma) => `(tactic| with_reducible exact NK.nodeDescription _)

theorem NK.typeName : (n : Node) → NK R (typeName n)
  | .repeated _ (some t) => by
    have := NK.typeName t
    unfold Protoast.typeName; nk
  | .repeated _ none => by unfold Protoast.typeName; nk
  | .wrapped _ _ _ | .option _ _ _ _ | .oneof _ _ | .map _ _ | .builtin _ | .value _
  | .mapItem _ _ => by unfold Protoast.typeName; nk
macro_rules | `(tactic| nk_lemma) => `(tactic| with_reducible exact NK.typeName _)

theorem NK.nodeParent : (n : Node) → NK R (nodeParent n)
  | .repeated _ (some t) => by
    have := NK.nodeParent t
    unfold Protoast.nodeParent; nk
  | .repeated _ none => by unfold Protoast.nodeParent; nk
  | .wrapped _ _ _ | .option _ _ _ _ | .oneof _ _ | .map _ _ | .builtin _ | .value _
  | .mapItem _ _ => by unfold Protoast.nodeParent; nk
macro_rules | `(tactic| nk_lemma) => `(tactic| with_reducible exact NK.nodeParent _)

theorem NK.nodeHierarchy (n : Nat) : ∀ o, NK R (nodeHierarchy n o) := by
  induction n with
  | zero => intro o; cases o <;> (rw [Protoast.nodeHierarchy]; nk)
  | succ n ih =>
    intro o
    cases o
    · rw [Protoast.nodeHierarchy]; nk
    · rw [Protoast.nodeHierarchy]
      refine NK.bind (NK.nodeParent _) fun a => NK.bind (ih a) fun _ => NK.pure _
macro_rules | `(tactic| nk_lemma) => `(tactic| with_reducible exact NK.nodeHierarchy _ _)

theorem NK.elemPos (p) : NK R (elemPos p) := by unfold Protoast.elemPos; nk
macro_rules | `(tactic| nk_lemma) => `(tactic| with_reducible exact NK.elemPos _)
theorem NK.filePos (p) : NK R (filePos p) := by unfold Protoast.filePos; nk
macro_rules | `(tactic| nk_lemma) => `(tactic| with_reducible exact NK.filePos _)

theorem NK.nodePos : (n : Node) → NK R (nodePos n)
  | .repeated _ (some t) => by
    have := NK.nodePos t
    unfold Protoast.nodePos; nk
  | .repeated _ none => by unfold Protoast.nodePos; nk
  | .wrapped _ k _ => by cases k <;> (unfold Protoast.nodePos; nk)
  | .option _ _ _ _ | .oneof _ _ | .map _ _ | .builtin _ | .value _
  | .mapItem _ _ => by unfold Protoast.nodePos; nk
macro_rules | `(tactic| nk_lemma) => `(tactic| with_reducible exact NK.nodePos _)

theorem NK.nodeFile (n) : NK R (nodeFile n) := by unfold Protoast.nodeFile; nk
macro_rules | `(tactic| nk_lemma) => `(tactic| with_reducible exact NK.nodeFile _)
theorem NK.posBody (n) : NK R (posBody n) := by unfold Protoast.posBody; nk
macro_rules | `(tactic| nk_lemma) => `(tactic| with_reducible exact NK.posBody _)
theorem NK.lastFile : (l : List Node) → NK R (lastFile l)
  | [] => NK.panic _
  | [n] => by
    unfold Protoast.lastFile
    split
    · nk
    · nk
    · nk
    · next h => simp at h
  | _ :: b :: rest => by
    rw [Protoast.lastFile]
    exact NK.lastFile (b :: rest)
macro_rules | `(tactic| nk_lemma) => `(tactic| with_reducible exact NK.lastFile _)
theorem NK.fileName (p) : NK R (File.name p) := by unfold File.name; nk
macro_rules | `(tactic| nk_lemma) => `(tactic| with_reducible exact NK.fileName _)
theorem NK.posDefer (a b c) : NK R (posDefer a b c) := by unfold Protoast.posDefer; nk

theorem NK.pos (fuel n) : NK R (pos fuel n) := by
  constructor; intro r
  have h1 := NK.posBody (R := R) n r
  unfold Protoast.pos
  rcases hb : Protoast.posBody n r with ⟨res, r'⟩
  rw [hb] at h1
  cases res with
  | ok a => exact K.trans h1 (NK.posDefer fuel n a r')
  | panic p =>
    have h2 := NK.posDefer (R := R) fuel n {} r'
    simp only
    rcases hd : Protoast.posDefer fuel n {} r' with ⟨res, r''⟩
    rw [hd] at h2
    cases res <;> exact K.trans h1 h2
  | timeout => exact h1
macro_rules | `(tactic| nk_lemma) => `(tactic| with_reducible exact NK.pos _ _)

theorem NK.typeIsDefined (n s) : NK R (typeIsDefined n s) := by unfold Protoast.typeIsDefined; nk
macro_rules | `(tactic| nk_lemma) => `(tactic| with_reducible exact NK.typeIsDefined _ _)
theorem NK.goPackageOption (n) : NK R (goPackageOption n) := by unfold Protoast.goPackageOption; nk
macro_rules | `(tactic| nk_lemma) => `(tactic| with_reducible exact NK.goPackageOption _)
theorem NK.optionName (a b c) : NK R (Option.name a b c) := by unfold Option.name; nk
macro_rules | `(tactic| nk_lemma) => `(tactic| with_reducible exact NK.optionName _ _ _)
theorem NK.goPackageBody (s a) : NK R (goPackageBody s a) := by unfold Protoast.goPackageBody; nk
theorem NK.goPackage (n) : NK R (goPackage n) := by
  unfold Protoast.goPackage
  refine NK.bind (NK.nodeFile n) fun f => ?_
  split
  · refine NK.bind (NK.run (NKSeq.fileEverything _) NK.goPackageBody none) fun _ => ?_
    nk
  · exact NK.pure _
macro_rules | `(tactic| nk_lemma) => `(tactic| with_reducible exact NK.goPackage _)
theorem NK.optionIs (f s) : NK R (Option.is f s) := by unfold Option.is; nk
macro_rules | `(tactic| nk_lemma) => `(tactic| with_reducible exact NK.optionIs _ _)
theorem NK.optionValue (F o f) : NK R (Option.value F o f) := by unfold Option.value; nk
macro_rules | `(tactic| nk_lemma) => `(tactic| with_reducible exact NK.optionValue _ _ _)
theorem NK.branchType (p) : NK R (OneOfBranch.type p) := by unfold OneOfBranch.type; nk
macro_rules | `(tactic| nk_lemma) => `(tactic| with_reducible exact NK.branchType _)
theorem NK.methodInput (p) : NK R (Method.input p) := by unfold Method.input; nk
macro_rules | `(tactic| nk_lemma) => `(tactic| with_reducible exact NK.methodInput _)
theorem NK.methodOutput (p) : NK R (Method.output p) := by unfold Method.output; nk
macro_rules | `(tactic| nk_lemma) => `(tactic| with_reducible exact NK.methodOutput _)

theorem NK.plainRun (q : PlainQ) (n : Node)
    (hft : ∀ a p, q = .fieldType → n = .wrapped a .messageField p → NK R (MessageField.type a p)) : NK R (q.run n) := by
  unfold PlainQ.run
  split
  · exact NK.bind (hft _ _ rfl rfl) fun _ => NK.pure _
  all_goals try unfold Message.name
  all_goals try unfold Enum.name
  all_goals try unfold EnumValue.name
  all_goals try unfold MessageField.name
  all_goals try unfold OneOfBranch.name
  all_goals try unfold Service.name
  all_goals try unfold Method.name
  all_goals try unfold File.package
  all_goals try unfold Package.package
  all_goals try unfold Message.isExtension
  all_goals try unfold MessageField.value
  all_goals try unfold EnumValue.value
  all_goals try unfold OneOfBranch.value
  all_goals try unfold MessageField.optional
  all_goals try unfold Import.path
  all_goals try unfold Syntax.value
  all_goals try unfold Reserved.values
  all_goals nk

/-- Every call on a handle keeps the relation, if `Type` of fields does. -/
theorem NK.queryRun (q : Query) (n : Node) (hft : ∀ a p, q = .plain .fieldType → n = .wrapped a .messageField p →
    NK R (MessageField.type a p)) : NK R (q.run n) := by
  unfold Query.run
  split
  · exact NK.bind (NK.iterRun _ _ _) fun _ => NK.pure _
  · exact NK.bind (NK.namedRun _ _ _) fun _ => NK.pure _
  · exact NK.plainRun _ _ fun a p h => hft a p (by rw [h])

end Protoast
