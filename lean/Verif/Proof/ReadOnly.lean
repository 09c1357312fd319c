import Verif.Spec.History
/-
  Queries change nothing but the caches and the allocation counter.
-/
namespace Protoast

/-- `r'` differs from `r` by cache entries and allocations only. -/
structure CacheExt (r r' : Reg) : Prop where
  heap : r'.heap = r.heap
  protos : r'.protos = r.protos
  registry : r'.registry = r.registry
  scopes : r'.scopes = r.scopes
  cache : ∀ v x, r.cache v = some x → r'.cache v = some x
  ftcache : ∀ v x, r.ftcache v = some x → r'.ftcache v = some x
  next : r.next ≤ r'.next
  nodes : ∀ v a k p, r'.cache v = some (some (.wrapped a k p)) →
    r.cache v = some (some (.wrapped a k p)) ∨ r.next ≤ a

theorem CacheExt.refl (r : Reg) : CacheExt r r :=
  ⟨rfl, rfl, rfl, rfl, fun _ _ h => h, fun _ _ h => h, Nat.le_refl _, fun _ _ _ _ h => .inl h⟩

theorem CacheExt.trans {a b c : Reg} (h : CacheExt a b) (g : CacheExt b c) : CacheExt a c :=
  ⟨g.heap.trans h.heap, g.protos.trans h.protos, g.registry.trans h.registry,
    g.scopes.trans h.scopes, fun v x e => g.cache v x (h.cache v x e),
    fun v x e => g.ftcache v x (h.ftcache v x e), Nat.le_trans h.next g.next, fun v n k p e => by
    rcases g.nodes v n k p e with e | e
    · exact h.nodes v n k p e
    · exact .inr (Nat.le_trans h.next e)⟩

/-- A computation that only fills caches and allocates. -/
structure RO {α : Type} (m : M α) : Prop where
  ext : ∀ r, CacheExt r (m r).2

instance {α : Type} (m : M α) : CoeFun (RO m) (fun _ => ∀ r, CacheExt r (m r).2) := ⟨RO.ext⟩

theorem RO.pure {α} (a : α) : RO (pure a : M α) := ⟨fun r => CacheExt.refl r⟩
theorem RO.panic {α} (p : Panic) : RO (M.panic p : M α) := ⟨fun r => CacheExt.refl r⟩
theorem RO.get : RO M.get := ⟨fun r => CacheExt.refl r⟩
theorem RO.timeout {α} : RO ((fun r => (.timeout, r)) : M α) := ⟨fun r => CacheExt.refl r⟩
theorem RO.alloc : RO M.alloc := ⟨fun _ =>
  ⟨rfl, rfl, rfl, rfl, fun _ _ h => h, fun _ _ h => h, Nat.le_succ _, fun _ _ _ _ h => .inl h⟩⟩

theorem RO.bind {α β} {m : M α} {f : α → M β} (hm : RO m) (hf : ∀ a, RO (f a)) :
    RO (m >>= f) := by
  constructor; intro r
  have h1 := hm r
  simp only [M.bind_apply]
  rcases hmr : m r with ⟨res, r'⟩
  rw [hmr] at h1
  cases res with
  | ok a => exact h1.trans (hf a r')
  | panic p => exact h1
  | timeout => exact h1

theorem upd_of_none {K V : Type} [DecidableEq K] {m : K → Option V} {k : K} {v : V}
    (h : m k = none) : ∀ k' x, m k' = some x → upd m k v k' = some x := by
  intro k' x hx
  unfold upd
  split
  · next e => subst e; rw [h] at hx; cases hx
  · exact hx

theorem upd_nodes {r : Reg} {v : Vis} {x : Option Node}
    (h : x = none ∨ ∃ a k p, x = some (.wrapped a k p) ∧ r.next ≤ a) : ∀ v' a k p,
    upd r.cache v x v' = some (some (.wrapped a k p)) → r.cache v' = some (some (.wrapped a k p)) ∨ r.next ≤ a := by
  intro v' a k p hx
  unfold upd at hx
  split at hx
  · rcases h with rfl | ⟨a', k', p', rfl, h⟩
    · cases hx
    · cases hx; exact .inr h
  · exact .inl hx

theorem RO.wrap (v : Vis) : RO (wrap v) := by
  constructor; intro r
  unfold Protoast.wrap
  split
  · exact CacheExt.refl r
  · next h =>
    split
    · exact ⟨rfl, rfl, rfl, rfl, upd_of_none h, fun _ _ h => h, Nat.le_succ _, upd_nodes (.inr ⟨_, _, _, rfl, Nat.le_refl _⟩)⟩
    · exact ⟨rfl, rfl, rfl, rfl, upd_of_none h, fun _ _ h => h, Nat.le_refl _, upd_nodes (.inl rfl)⟩

/-- Extensible list of read-only lemmas. -/
syntax "ro_lemma" : tactic
macro_rules | `(tactic| ro_lemma) => `(tactic| fail)
macro_rules | `(tactic| ro_lemma) => `(tactic| with_reducible exact RO.pure _)
macro_rules | `(tactic| ro_lemma) => `(tactic| with_reducible exact RO.panic _)
macro_rules | `(tactic| ro_lemma) => `(tactic| with_reducible exact RO.get)
macro_rules | `(tactic| ro_lemma) => `(tactic| with_reducible exact RO.alloc)
macro_rules | `(tactic| ro_lemma) => `(tactic| with_reducible exact RO.timeout)
macro_rules | `(tactic| ro_lemma) => `(tactic| with_reducible exact RO.wrap _)

/-- Prove that a `do` block is read-only. -/
syntax "ro" : tactic
macro_rules
  | `(tactic| ro) => `(tactic| repeat' (first | ro_lemma | assumption | (with_reducible apply RO.bind) | intro _ | split))

theorem RO.assertKind (k n) : RO (assertKind k n) := by unfold Protoast.assertKind; ro
macro_rules | `(tactic| ro_lemma) => `(tactic| with_reducible exact RO.assertKind _ _)
theorem RO.wrapAs (k p) : RO (wrapAs k p) := by unfold Protoast.wrapAs; ro
macro_rules | `(tactic| ro_lemma) => `(tactic| with_reducible exact RO.wrapAs _ _)
theorem RO.wrapNamed (p) : RO (wrapNamed p) := by unfold Protoast.wrapNamed; ro
macro_rules | `(tactic| ro_lemma) => `(tactic| with_reducible exact RO.wrapNamed _)
theorem RO.lookupType (p n) : RO (lookupType p n) := by unfold Protoast.lookupType; ro
macro_rules | `(tactic| ro_lemma) => `(tactic| with_reducible exact RO.lookupType _ _)
theorem RO.getTypeByName (p n) : RO (getTypeByName p n) := by unfold Protoast.getTypeByName; ro
macro_rules | `(tactic| ro_lemma) => `(tactic| with_reducible exact RO.getTypeByName _ _)
theorem RO.nodeByFullName (n) : RO (nodeByFullName n) := by unfold Protoast.nodeByFullName; ro
macro_rules | `(tactic| ro_lemma) => `(tactic| with_reducible exact RO.nodeByFullName _)
theorem RO.firstKid (p k s) : RO (firstKid p k s) := by unfold Protoast.firstKid; ro
macro_rules | `(tactic| ro_lemma) => `(tactic| with_reducible exact RO.firstKid _ _ _)
theorem RO.fieldTypeBody (p) : RO (fieldTypeBody p) := by unfold Protoast.fieldTypeBody; ro
macro_rules | `(tactic| ro_lemma) => `(tactic| with_reducible exact RO.fieldTypeBody _)

theorem RO.fieldType (a p) : RO (MessageField.type a p) := by
  constructor; intro r
  unfold MessageField.type
  split
  · exact CacheExt.refl r
  · next h =>
    have hb := RO.fieldTypeBody p r
    rcases he : Protoast.fieldTypeBody p r with ⟨res, r'⟩
    rw [he] at hb
    simp only at hb
    have hn : ∀ x, CacheExt r { r' with ftcache := upd r'.ftcache a x } := by
      intro x
      refine ⟨hb.heap, hb.protos, hb.registry, hb.scopes, hb.cache, ?_, hb.next, hb.nodes⟩
      intro v y hy
      have := hb.ftcache v y hy
      show upd r'.ftcache a x v = some y
      unfold upd
      split
      · next e => subst e; rw [h] at hy; cases hy
      · exact this
    cases res with
    | ok t => exact hn _
    | panic e => exact hn _
    | timeout => exact hb
macro_rules | `(tactic| ro_lemma) => `(tactic| with_reducible exact RO.fieldType _ _)

theorem RO.overKids {α} (p : Ptr) (pick : Ptr → Kind → Option (M α)) : RO (overKids p pick) := by
  unfold Protoast.overKids; ro
macro_rules | `(tactic| ro_lemma) => `(tactic| with_reducible exact RO.overKids _ _)

/-- An iterator whose creation and steps are read-only. -/
def ROSeq {α : Type} (s : Seq α) : Prop :=
  RO s ∧ ∀ r steps r', s r = (.ok steps, r') → ∀ m ∈ steps, RO m

theorem ROSeq.overKids {α} (p : Ptr) (pick : Ptr → Kind → Option (M α))
    (h : ∀ q k m, pick q k = some m → RO m) : ROSeq (overKids p pick) := by
  refine ⟨RO.overKids _ _, ?_⟩
  intro r steps r' he m hm
  simp only [Protoast.overKids, M.bind_apply, M.get_apply, M.pure_apply, Prod.mk.injEq,
    Res.ok.injEq] at he
  obtain ⟨rfl, -⟩ := he
  rw [List.mem_filterMap] at hm
  obtain ⟨⟨q, e⟩, -, hq⟩ := hm
  exact h q e.kind m hq

theorem RO.nth {α} {s : Seq α} (h : ROSeq s) (i : Nat) : RO (s.nth i) := by
  constructor; intro r
  have h1 := h.1 r
  rcases hs : s r with ⟨res, r'⟩
  rw [hs] at h1
  cases res with
  | ok steps =>
    simp only [Seq.nth, M.bind_apply, hs]
    cases hm : steps[i]? with
    | some m =>
      have h2 := h.2 r steps r' hs m (List.mem_of_getElem? hm)
      refine h1.trans ?_
      exact (RO.bind h2 fun a => RO.pure _).ext r'
    | none => exact h1
  | panic p => simpa [Seq.nth, hs] using h1
  | timeout => simpa [Seq.nth, hs] using h1

theorem RO.runSteps {α σ} {body : σ → α → M (σ × Bool)} (hb : ∀ s a, RO (body s a))
    (steps : List (M α)) (hs : ∀ m ∈ steps, RO m) (s : σ) : RO (runSteps body steps s) := by
  induction steps generalizing s with
  | nil => exact RO.pure _
  | cons m ms ih =>
    unfold Protoast.runSteps
    refine RO.bind (hs m (by simp)) fun a => ?_
    refine RO.bind (hb s a) fun x => ?_
    have := fun s => ih (fun m h => hs m (by simp [h])) s
    rcases x with ⟨s', go⟩
    cases go
    · exact RO.pure _
    · exact this _

theorem RO.run {α σ} {seq : Seq α} {body : σ → α → M (σ × Bool)} (hseq : ROSeq seq)
    (hb : ∀ s a, RO (body s a)) (s : σ) : RO (Seq.run seq body s) := by
  constructor; intro r
  have h1 := hseq.1 r
  rcases hs : seq r with ⟨res, r'⟩
  rw [hs] at h1
  cases res with
  | ok steps =>
    simp only [Seq.run, M.bind_apply, hs]
    exact h1.trans (RO.runSteps hb steps (hseq.2 r steps r' hs) s r')
  | panic p => simpa [Seq.run, hs] using h1
  | timeout => simpa [Seq.run, hs] using h1

/-! ### Iterators -/

theorem ROSeq.fileImports (p) : ROSeq (File.imports p) := by
  refine ROSeq.overKids _ _ fun q k m h => ?_
  split at h <;> simp at h <;> subst h <;> ro
theorem ROSeq.fileMessages (p) : ROSeq (File.messages p) := by
  refine ROSeq.overKids _ _ fun q k m h => ?_
  split at h <;> simp at h <;> subst h <;> ro
theorem ROSeq.fileEnums (p) : ROSeq (File.enums p) := by
  refine ROSeq.overKids _ _ fun q k m h => ?_
  split at h <;> simp at h <;> subst h <;> ro
theorem ROSeq.fileTypes (p) : ROSeq (File.types p) := by
  refine ROSeq.overKids _ _ fun q k m h => ?_
  split at h <;> simp at h <;> subst h <;> ro
theorem ROSeq.fileServices (p) : ROSeq (File.services p) := by
  refine ROSeq.overKids _ _ fun q k m h => ?_
  split at h <;> simp at h <;> subst h <;> ro
theorem ROSeq.messageFields (p) : ROSeq (Message.fields p) := by
  refine ROSeq.overKids _ _ fun q k m h => ?_
  split at h <;> simp at h <;> subst h <;> ro
theorem ROSeq.messageMessages (p) : ROSeq (Message.messages p) := by
  refine ROSeq.overKids _ _ fun q k m h => ?_
  split at h <;> simp at h <;> subst h <;> ro
theorem ROSeq.messageTypes (p) : ROSeq (Message.types p) := by
  refine ROSeq.overKids _ _ fun q k m h => ?_
  split at h <;> simp at h <;> subst h <;> ro
theorem ROSeq.enumValues (p) : ROSeq (Enum.values p) := by
  refine ROSeq.overKids _ _ fun q k m h => ?_
  split at h <;> simp at h <;> subst h <;> ro
theorem ROSeq.enumEnums (p) : ROSeq (Enum.enums p) := by
  refine ROSeq.overKids _ _ fun q k m h => ?_
  split at h <;> simp at h <;> subst h <;> ro
theorem ROSeq.oneofBranches (p) : ROSeq (OneOf.branches p) := by
  refine ROSeq.overKids _ _ fun q k m h => ?_
  split at h <;> simp at h <;> subst h <;> ro
theorem ROSeq.serviceMethods (p) : ROSeq (Service.methods p) := by
  refine ROSeq.overKids _ _ fun q k m h => ?_
  split at h <;> simp at h <;> subst h <;> ro

theorem RO.optionClass (n) : RO (optionClass n) := by unfold Protoast.optionClass; ro
macro_rules | `(tactic| ro_lemma) => `(tactic| with_reducible exact RO.optionClass _)
theorem RO.newOption (s c o) : RO (newOption s c o) := by unfold Protoast.newOption; ro
macro_rules | `(tactic| ro_lemma) => `(tactic| with_reducible exact RO.newOption _ _ _)
theorem RO.wrapOption (o c) : RO (wrapOption o c) := by unfold Protoast.wrapOption; ro
macro_rules | `(tactic| ro_lemma) => `(tactic| with_reducible exact RO.wrapOption _ _)

theorem RO.everythingStep {c q k m} (h : everythingStep c q k = some m) : RO m := by
  unfold Protoast.everythingStep at h
  split at h <;> simp at h <;> subst h <;> ro

theorem ROSeq.fileEverything (p) : ROSeq (File.everything p) :=
  ROSeq.overKids _ _ fun _ _ _ h => RO.everythingStep h
theorem ROSeq.messageEverything (p) : ROSeq (Message.everything p) :=
  ROSeq.overKids _ _ fun _ _ _ h => RO.everythingStep h
theorem ROSeq.enumEverything (p) : ROSeq (Enum.everything p) :=
  ROSeq.overKids _ _ fun _ _ _ h => RO.everythingStep h
theorem ROSeq.serviceEverything (p) : ROSeq (Service.everything p) :=
  ROSeq.overKids _ _ fun _ _ _ h => RO.everythingStep h
theorem ROSeq.methodOptions (p) : ROSeq (Method.options p) := by
  refine ROSeq.overKids _ _ fun q k m h => ?_
  split at h <;> simp at h <;> subst h <;> ro

theorem RO.seqOptions (s c p) : RO (seqOptions s c p) := by unfold Protoast.seqOptions; ro
macro_rules | `(tactic| ro_lemma) => `(tactic| with_reducible exact RO.seqOptions _ _ _)
theorem RO.options (n) : RO (options n) := by unfold Protoast.options; ro
macro_rules | `(tactic| ro_lemma) => `(tactic| with_reducible exact RO.options _)
theorem RO.namedOption (a b c d) : RO (namedOption a b c d) := by unfold Protoast.namedOption; ro
macro_rules | `(tactic| ro_lemma) => `(tactic| with_reducible exact RO.namedOption _ _ _ _)
theorem RO.optionNamed (n s) : RO (optionNamed n s) := by unfold Protoast.optionNamed; ro
macro_rules | `(tactic| ro_lemma) => `(tactic| with_reducible exact RO.optionNamed _ _)

theorem ROSeq.seqOptions {s c p r seq r'} (h : seqOptions s c p r = (.ok seq, r')) : ROSeq seq := by
  simp only [Protoast.seqOptions, M.bind_apply] at h
  rcases hc : Protoast.optionClass c r with ⟨_ | _ | _, r1⟩ <;> rw [hc] at h <;>
    simp [M.pure_apply] at h
  obtain ⟨rfl, -⟩ := h
  refine ROSeq.overKids _ _ fun q k m h => ?_
  split at h <;> simp at h <;> subst h <;> ro

theorem ROSeq.options {n r seq r'} (h : options n r = (.ok seq, r')) : ROSeq seq := by
  unfold Protoast.options at h
  cases n with
  | wrapped a k p =>
    simp only [M.bind_apply, M.get_apply] at h
    cases k <;> first | exact ROSeq.seqOptions h | skip
    all_goals first | (simp [M.panic_apply] at h; done) | skip
    rcases hk : r.kind p with _ | kd
    · simp [hk, M.panic_apply] at h
    · cases kd <;> simp only [hk, M.panic_apply] at h <;> first | exact ROSeq.seqOptions h | simp at h
  | oneof a p =>
    simp only [M.bind_apply, M.get_apply] at h
    exact ROSeq.seqOptions h
  | _ => simp [M.panic_apply] at h

theorem RO.optionsNth (n : Node) (i : Nat) :
    RO (do let s ← Protoast.options n; s.nth i) := by
  constructor; intro r
  have h1 := RO.options n r
  rcases hs : Protoast.options n r with ⟨res, r'⟩
  rw [hs] at h1
  cases res with
  | ok s =>
    simp only [M.bind_apply, hs]
    exact h1.trans (RO.nth (ROSeq.options hs) i r')
  | panic p => simpa [hs] using h1
  | timeout => simpa [hs] using h1

theorem RO.iterRun (q : IterQ) (n : Node) (i : Nat) : RO (q.run n i) := by
  unfold IterQ.run
  split
  · exact RO.nth (ROSeq.fileImports _) i
  · exact RO.nth (ROSeq.fileMessages _) i
  · exact RO.nth (ROSeq.fileEnums _) i
  · exact RO.nth (ROSeq.fileTypes _) i
  · exact RO.nth (ROSeq.fileServices _) i
  · exact RO.bind (RO.nth (ROSeq.fileEverything _) i) fun _ => RO.pure _
  · exact RO.nth (ROSeq.messageFields _) i
  · exact RO.nth (ROSeq.messageMessages _) i
  · exact RO.nth (ROSeq.messageTypes _) i
  · exact RO.bind (RO.nth (ROSeq.messageEverything _) i) fun _ => RO.pure _
  · exact RO.nth (ROSeq.enumValues _) i
  · exact RO.nth (ROSeq.enumEnums _) i
  · exact RO.bind (RO.nth (ROSeq.enumEverything _) i) fun _ => RO.pure _
  · exact RO.nth (ROSeq.oneofBranches _) i
  · exact RO.nth (ROSeq.serviceMethods _) i
  · exact RO.bind (RO.nth (ROSeq.serviceEverything _) i) fun _ => RO.pure _
  · exact RO.nth (ROSeq.methodOptions _) i
  · exact RO.optionsNth _ i
  · exact RO.pure _

theorem RO.fileType (p n) : RO (File.type p n) := by unfold File.type; ro
theorem RO.messageType (p n) : RO (Message.type p n) := by unfold Message.type; ro

theorem RO.namedRun (q : NamedQ) (n : Node) (s : Str) : RO (q.run n s) := by
  unfold NamedQ.run
  split
  · exact RO.firstKid _ _ _
  · exact RO.firstKid _ _ _
  · exact RO.fileType _ _
  · exact RO.firstKid _ _ _
  · exact RO.firstKid _ _ _
  · exact RO.firstKid _ _ _
  · exact RO.messageType _ _
  · exact RO.firstKid _ _ _
  · exact RO.firstKid _ _ _
  · exact RO.firstKid _ _ _
  · exact RO.firstKid _ _ _
  · exact RO.optionNamed _ _
  · exact RO.pure _

/-! ### Option values -/

mutual
theorem RO.buildFromLiteral (F : FloatOps) (o : Option Ptr) (f : Ptr) (ig : Bool) :
    (l : Literal) → RO (buildFromLiteral F o f ig l)
  | .mk pos source array om => by
    have ha := RO.buildArray F f array
    have hi := fun mp => RO.buildItems F mp om
    unfold Protoast.buildFromLiteral Enum.value
    repeat' (first | exact ha | exact hi _ | ro_lemma | with_reducible apply RO.bind | intro _ | split)
theorem RO.buildArray (F : FloatOps) (f : Ptr) : (ls : List Literal) → RO (buildArray F f ls)
  | [] => by unfold Protoast.buildArray; ro
  | l :: ls => by
    have h1 := RO.buildFromLiteral F none f true l
    have h2 := RO.buildArray F f ls
    unfold Protoast.buildArray
    ro
theorem RO.buildItems (F : FloatOps) (m : Ptr) :
    (ls : List (Str × Literal)) → RO (buildItems F m ls)
  | [] => by unfold Protoast.buildItems; ro
  | nl :: rest => by
    have h1 := RO.buildItem F m nl
    have h2 := RO.buildItems F m rest
    unfold Protoast.buildItems
    ro
theorem RO.buildItem (F : FloatOps) (m : Ptr) : (nl : Str × Literal) → RO (buildItem F m nl)
  | (name, lit) => by
    have h1 := fun fp => RO.buildFromLiteral F none fp false lit
    unfold Protoast.buildItem Message.field
    repeat' (first | exact h1 _ | ro_lemma | with_reducible apply RO.bind | intro _ | split)
end
macro_rules | `(tactic| ro_lemma) => `(tactic| with_reducible exact RO.buildFromLiteral _ _ _ _ _)

/-! ### Meta queries -/

theorem RO.mapKey (p) : RO (Map.key p) := by unfold Map.key; ro
macro_rules | `(tactic| ro_lemma) => `(tactic| with_reducible exact RO.mapKey _)
theorem RO.mapValue (p) : RO (Map.value p) := by unfold Map.value; ro
macro_rules | `(tactic| ro_lemma) => `(tactic| with_reducible exact RO.mapValue _)

theorem RO.nodeIndex (n) : RO (nodeIndex n) := by unfold Protoast.nodeIndex; ro
macro_rules | `(tactic| ro_lemma) => `(tactic| with_reducible exact RO.nodeIndex _)
theorem RO.comment (n) : RO (comment n) := by unfold Protoast.comment; ro
macro_rules | `(tactic| ro_lemma) => `(tactic| with_reducible exact RO.comment _)

theorem RO.nodeDescription : (n : Node) → RO (nodeDescription n)
  | .repeated _ (some t) => by
    have := RO.nodeDescription t
    unfold Protoast.nodeDescription; ro
  | .repeated _ none => by unfold Protoast.nodeDescription; ro
  | .wrapped _ _ _ | .option _ _ _ _ | .oneof _ _ | .map _ _ | .builtin _ | .value _
  | .mapItem _ _ => by unfold Protoast.nodeDescription; ro
macro_rules | `(tactic| ro_lemma) => `(tactic| with_reducible exact RO.nodeDescription _)

theorem RO.typeName : (n : Node) → RO (typeName n)
  | .repeated _ (some t) => by
    have := RO.typeName t
    unfold Protoast.typeName; ro
  | .repeated _ none => by unfold Protoast.typeName; ro
  | .wrapped _ _ _ | .option _ _ _ _ | .oneof _ _ | .map _ _ | .builtin _ | .value _
  | .mapItem _ _ => by unfold Protoast.typeName; ro
macro_rules | `(tactic| ro_lemma) => `(tactic| with_reducible exact RO.typeName _)

theorem RO.nodeParent : (n : Node) → RO (nodeParent n)
  | .repeated _ (some t) => by
    have := RO.nodeParent t
    unfold Protoast.nodeParent; ro
  | .repeated _ none => by unfold Protoast.nodeParent; ro
  | .wrapped _ _ _ | .option _ _ _ _ | .oneof _ _ | .map _ _ | .builtin _ | .value _
  | .mapItem _ _ => by unfold Protoast.nodeParent; ro
macro_rules | `(tactic| ro_lemma) => `(tactic| with_reducible exact RO.nodeParent _)

theorem RO.nodeHierarchy (n : Nat) : ∀ o, RO (nodeHierarchy n o) := by
  induction n with
  | zero => intro o; cases o <;> (rw [Protoast.nodeHierarchy]; ro)
  | succ n ih =>
    intro o
    cases o
    · rw [Protoast.nodeHierarchy]; ro
    · rw [Protoast.nodeHierarchy]
      refine RO.bind (RO.nodeParent _) fun a => RO.bind (ih a) fun _ => RO.pure _
macro_rules | `(tactic| ro_lemma) => `(tactic| with_reducible exact RO.nodeHierarchy _ _)

theorem RO.elemPos (p) : RO (elemPos p) := by unfold Protoast.elemPos; ro
macro_rules | `(tactic| ro_lemma) => `(tactic| with_reducible exact RO.elemPos _)
theorem RO.filePos (p) : RO (filePos p) := by unfold Protoast.filePos; ro
macro_rules | `(tactic| ro_lemma) => `(tactic| with_reducible exact RO.filePos _)

theorem RO.nodePos : (n : Node) → RO (nodePos n)
  | .repeated _ (some t) => by
    have := RO.nodePos t
    unfold Protoast.nodePos; ro
  | .repeated _ none => by unfold Protoast.nodePos; ro
  | .wrapped _ k _ => by cases k <;> (unfold Protoast.nodePos; ro)
  | .option _ _ _ _ | .oneof _ _ | .map _ _ | .builtin _ | .value _
  | .mapItem _ _ => by unfold Protoast.nodePos; ro
macro_rules | `(tactic| ro_lemma) => `(tactic| with_reducible exact RO.nodePos _)

theorem RO.nodeFile (n) : RO (nodeFile n) := by unfold Protoast.nodeFile; ro
macro_rules | `(tactic| ro_lemma) => `(tactic| with_reducible exact RO.nodeFile _)
theorem RO.posBody (n) : RO (posBody n) := by unfold Protoast.posBody; ro
macro_rules | `(tactic| ro_lemma) => `(tactic| with_reducible exact RO.posBody _)
theorem RO.lastFile : (l : List Node) → RO (lastFile l)
  | [] => RO.panic _
  | [n] => by
    unfold Protoast.lastFile
    split
    · ro
    · ro
    · ro
    · next h => simp at h
  | _ :: b :: rest => by
    rw [Protoast.lastFile]
    exact RO.lastFile (b :: rest)
macro_rules | `(tactic| ro_lemma) => `(tactic| with_reducible exact RO.lastFile _)
theorem RO.fileName (p) : RO (File.name p) := by unfold File.name; ro
macro_rules | `(tactic| ro_lemma) => `(tactic| with_reducible exact RO.fileName _)
theorem RO.posDefer (a b c) : RO (posDefer a b c) := by unfold Protoast.posDefer; ro

theorem RO.pos (fuel n) : RO (pos fuel n) := by
  constructor; intro r
  have h1 := RO.posBody n r
  unfold Protoast.pos
  rcases hb : Protoast.posBody n r with ⟨res, r'⟩
  rw [hb] at h1
  cases res with
  | ok a => exact h1.trans (RO.posDefer fuel n a r')
  | panic p =>
    have h2 := RO.posDefer fuel n {} r'
    simp only
    rcases hd : Protoast.posDefer fuel n {} r' with ⟨res, r''⟩
    rw [hd] at h2
    cases res <;> exact h1.trans h2
  | timeout => exact h1
macro_rules | `(tactic| ro_lemma) => `(tactic| with_reducible exact RO.pos _ _)

theorem RO.typeIsDefined (n s) : RO (typeIsDefined n s) := by unfold Protoast.typeIsDefined; ro
macro_rules | `(tactic| ro_lemma) => `(tactic| with_reducible exact RO.typeIsDefined _ _)
theorem RO.goPackageOption (n) : RO (goPackageOption n) := by unfold Protoast.goPackageOption; ro
macro_rules | `(tactic| ro_lemma) => `(tactic| with_reducible exact RO.goPackageOption _)
theorem RO.optionName (a b c) : RO (Option.name a b c) := by unfold Option.name; ro
macro_rules | `(tactic| ro_lemma) => `(tactic| with_reducible exact RO.optionName _ _ _)
theorem RO.goPackageBody (s a) : RO (goPackageBody s a) := by unfold Protoast.goPackageBody; ro
theorem RO.goPackage (n) : RO (goPackage n) := by
  unfold Protoast.goPackage
  refine RO.bind (RO.nodeFile n) fun f => ?_
  split
  · refine RO.bind (RO.run (ROSeq.fileEverything _) RO.goPackageBody none) fun _ => ?_
    ro
  · exact RO.pure _
macro_rules | `(tactic| ro_lemma) => `(tactic| with_reducible exact RO.goPackage _)
theorem RO.optionIs (f s) : RO (Option.is f s) := by unfold Option.is; ro
macro_rules | `(tactic| ro_lemma) => `(tactic| with_reducible exact RO.optionIs _ _)
theorem RO.optionValue (F o f) : RO (Option.value F o f) := by unfold Option.value; ro
macro_rules | `(tactic| ro_lemma) => `(tactic| with_reducible exact RO.optionValue _ _ _)
theorem RO.branchType (p) : RO (OneOfBranch.type p) := by unfold OneOfBranch.type; ro
macro_rules | `(tactic| ro_lemma) => `(tactic| with_reducible exact RO.branchType _)
theorem RO.methodInput (p) : RO (Method.input p) := by unfold Method.input; ro
macro_rules | `(tactic| ro_lemma) => `(tactic| with_reducible exact RO.methodInput _)
theorem RO.methodOutput (p) : RO (Method.output p) := by unfold Method.output; ro
macro_rules | `(tactic| ro_lemma) => `(tactic| with_reducible exact RO.methodOutput _)

theorem RO.plainRun (q : PlainQ) (n : Node) : RO (q.run n) := by
  unfold PlainQ.run
  split
  all_goals try unfold Message.name
  all_goals try unfold Enum.name
  all_goals try unfold EnumValue.name
  all_goals try unfold MessageField.name
  all_goals try unfold OneOfBranch.name
  all_goals try unfold Service.name
  all_goals try unfold Method.name
  all_goals try unfold File.package
  all_goals try unfold Package.package
  all_goals try unfold Message.isExtension
  all_goals try unfold MessageField.value
  all_goals try unfold EnumValue.value
  all_goals try unfold OneOfBranch.value
  all_goals try unfold MessageField.optional
  all_goals try unfold Import.path
  all_goals try unfold Syntax.value
  all_goals try unfold Reserved.values
  all_goals ro

/-- Every call on a handle is read-only. -/
theorem RO.queryRun (q : Query) (n : Node) : RO (q.run n) := by
  unfold Query.run
  split
  · exact RO.bind (RO.iterRun _ _ _) fun _ => RO.pure _
  · exact RO.bind (RO.namedRun _ _ _) fun _ => RO.pure _
  · exact RO.plainRun _ _

end Protoast
