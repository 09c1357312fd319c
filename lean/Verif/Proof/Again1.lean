import Verif.Proof.Quiet1
import Verif.Proof.Rename2
import Verif.Spec.Answer
/-
  Repeating a computation: once it has returned, it returns again, with the same result, and writes to no table of the
  registry.
-/
namespace Protoast.Again
open Protoast.Quiet (Front)

/-- Nothing but the allocation counter differs. -/
structure Unwritten (r r' : Reg) : Prop where
  eq : r' = { r with next := r'.next }
  next : r.next ≤ r'.next

theorem Unwritten.refl (r : Reg) : Unwritten r r := ⟨rfl, Nat.le_refl _⟩
theorem Unwritten.trans {r r' r'' : Reg} (h : Unwritten r r') (g : Unwritten r' r'') : Unwritten r r'' :=
  ⟨by rw [g.eq, h.eq], Nat.le_trans h.next g.next⟩
theorem Unwritten.ext {r r' : Reg} (h : Unwritten r r') : CacheExt r r' := by
  have e := h.eq
  refine ⟨?_, ?_, ?_, ?_, ?_, ?_, h.next, ?_⟩
  · rw [e]
  · rw [e]
  · rw [e]
  · rw [e]
  · intro v x g; rw [e]; exact g
  · intro v x g; rw [e]; exact g
  · intro v a k p g; rw [e] at g; exact .inl g

theorem front {r r' : Reg} (h : CacheExt r r') : Front r r' := ⟨h.heap, h.protos, h.registry, h.scopes⟩

/-- If `m` returns, then `m'`, started in any state that holds at least what `m` left behind, returns a related result and
    writes nothing. -/
structure Rep {α β : Type} (R : α → β → Prop) (m : M α) (m' : M β) : Prop where
  run : ∀ r x r1, m r = (.ok x, r1) → CacheExt r r1 ∧
    ∀ r', CacheExt r1 r' → ∃ x' r'', m' r' = (.ok x', r'') ∧ Unwritten r' r'' ∧ R x x'

section
variable {α β γ δ : Type}

theorem Rep.pure {R : α → β → Prop} {x y} (h : R x y) : Rep R (Pure.pure x) (Pure.pure y) := by
  constructor; intro r x' r1 e
  cases e
  exact ⟨CacheExt.refl _, fun r' _ => ⟨_, _, rfl, Unwritten.refl _, h⟩⟩

theorem Rep.panic {R : α → β → Prop} {e m'} : Rep R (M.panic e) m' := by
  constructor; intro r x r1 h; cases h

theorem Rep.timeout {R : α → β → Prop} {m'} : Rep R (fun r => (.timeout, r)) m' := by
  constructor; intro r x r1 h; cases h

theorem Rep.mono {R S : α → β → Prop} {m m'} (h : Rep R m m') (hRS : ∀ x y, R x y → S x y) : Rep S m m' := by
  constructor; intro r x r1 e
  obtain ⟨h1, h2⟩ := h.run r x r1 e
  refine ⟨h1, fun r' hr => ?_⟩
  obtain ⟨x', r'', h3, h4, h5⟩ := h2 r' hr
  exact ⟨x', r'', h3, h4, hRS _ _ h5⟩

theorem Rep.bind {R : α → β → Prop} {S : γ → δ → Prop} {m m'} {f : α → M γ} {g : β → M δ} (h : Rep R m m')
    (k : ∀ x y, R x y → Rep S (f x) (g y)) : Rep S (m >>= f) (m' >>= g) := by
  constructor; intro r x r2 e
  simp only [M.bind_apply] at e
  rcases hm : m r with ⟨res, r1⟩
  rw [hm] at e
  cases res with
  | panic p => cases e
  | timeout => cases e
  | ok a =>
    simp only at e
    obtain ⟨h1, h2⟩ := h.run r a r1 hm
    -- the second part, with some related value, to learn that it only extends
    have hx : ∃ b, R a b := by
      obtain ⟨b, _, _, _, hb⟩ := h2 r1 (CacheExt.refl _)
      exact ⟨b, hb⟩
    obtain ⟨b0, hb0⟩ := hx
    have h12 := ((k a b0 hb0).run r1 x r2 e).1
    refine ⟨h1.trans h12, fun r' hr' => ?_⟩
    obtain ⟨b, r'', hb1, hb2, hb3⟩ := h2 r' (h12.trans hr')
    obtain ⟨y, r3, hy1, hy2, hy3⟩ := ((k a b hb3).run r1 x r2 e).2 r'' (hr'.trans hb2.ext)
    refine ⟨y, r3, ?_, hb2.trans hy2, hy3⟩
    simp only [M.bind_apply, hb1, hy1]

theorem Rep.get {S : γ → δ → Prop} {f : Reg → M γ} {g : Reg → M δ}
    (k : ∀ r1 r2, Front r1 r2 → Rep S (f r1) (g r2)) : Rep S (M.get >>= f) (M.get >>= g) := by
  constructor; intro r x r1 e
  have e' : f r r = (.ok x, r1) := e
  have h1 := ((k r r ⟨rfl, rfl, rfl, rfl⟩).run r x r1 e').1
  refine ⟨h1, fun r' hr' => ?_⟩
  exact ((k r r' (front (h1.trans hr'))).run r x r1 e').2 r' hr'

theorem Rep.read {S : γ → δ → Prop} {f : Reg → M γ} {g : Reg → M δ} (hg : ∀ r1 r2, Front r1 r2 → g r2 = g r1)
    (k : ∀ r, Rep S (f r) (g r)) : Rep S (M.get >>= f) (M.get >>= g) :=
  Rep.get fun r1 r2 h => by rw [hg r1 r2 h]; exact k r1

theorem Rep.alloc : Rep (fun _ _ => True) M.alloc M.alloc := by
  constructor; intro r x r1 e
  cases e
  exact ⟨RO.alloc r, fun r' _ => ⟨_, _, rfl, ⟨rfl, Nat.le_succ _⟩, trivial⟩⟩

end

/-- Returning once means returning the same again. -/
abbrev Same {α : Type} (m : M α) : Prop := Rep Eq m m

section
variable {α β : Type}

theorem Same.pure (x : α) : Same (Pure.pure x) := Rep.pure rfl
theorem Same.panic {e} : Same (M.panic e : M α) := Rep.panic
theorem Same.bind {m : M α} {f : α → M β} (h : Same m) (k : ∀ x, Same (f x)) : Same (m >>= f) :=
  Rep.bind h fun x y e => by subst e; exact k x
theorem Same.read {f : Reg → M β} (hf : ∀ r1 r2, Front r1 r2 → f r2 = f r1) (k : ∀ r, Same (f r)) :
    Same (M.get >>= f) := Rep.read hf k
end

theorem Same.wrap (v : Vis) : Same (Protoast.wrap v) := by
  constructor; intro r x r1 e
  have hro : CacheExt r r1 := by
    have := RO.wrap v r
    rw [e] at this
    exact this
  refine ⟨hro, fun r' hr' => ?_⟩
  have hc : r1.cache v = some x := by
    rw [Quiet.wrap_apply] at e
    cases h : r.cache v with
    | some n => rw [h] at e; cases e; exact h
    | none =>
      rw [h] at e
      simp only at e
      cases ht : r.wrapTarget v with
      | none => rw [ht] at e; cases e
      | some kp =>
        rw [ht] at e
        cases e
        simp [Quiet.wrapped, upd]
  refine ⟨x, r', ?_, Unwritten.refl _, rfl⟩
  rw [Quiet.wrap_apply, hr'.cache v x hc]

/-- Rewrite with equal front parts. -/
macro "fronts" : tactic => `(tactic| (
  intro r1 r2 hf
  simp only [hf.kids, hf.kind, hf.elem, hf.children, hf.scope, hf.defined, hf.names, hf.heap, hf.protos,
    hf.isRepeatedField]))

/-- Extensible list of lemmas. -/
syntax "same_lemma" : tactic
macro_rules | `(tactic| same_lemma) => `(tactic| fail)
macro_rules | `(tactic| same_lemma) => `(tactic| with_reducible exact Same.pure _)
macro_rules | `(tactic| same_lemma) => `(tactic| with_reducible exact Same.panic)
macro_rules | `(tactic| same_lemma) => `(tactic| with_reducible exact Same.wrap _)

/-- The rules for composed computations. -/
macro "same_rule" : tactic => `(tactic| first | with_reducible refine Same.read (by fronts) ?_ | with_reducible apply Same.bind)

/-- Prove that a `do` block repeats. -/
syntax "same" : tactic
macro_rules
  | `(tactic| same) => `(tactic| repeat' (first | same_lemma | assumption | same_rule | intro _ | split))

theorem Same.assertKind (k o) : Same (Protoast.assertKind k o) := by unfold Protoast.assertKind; same
macro_rules | `(tactic| same_lemma) => `(tactic| with_reducible exact Same.assertKind _ _)
theorem Same.wrapAs (k p) : Same (Protoast.wrapAs k p) := by unfold Protoast.wrapAs; same
macro_rules | `(tactic| same_lemma) => `(tactic| with_reducible exact Same.wrapAs _ _)
theorem Same.wrapNamed (p) : Same (Protoast.wrapNamed p) := by unfold Protoast.wrapNamed; same
macro_rules | `(tactic| same_lemma) => `(tactic| with_reducible exact Same.wrapNamed _)
theorem Same.firstKid (p k sel) : Same (Protoast.firstKid p k sel) := by unfold Protoast.firstKid; same
macro_rules | `(tactic| same_lemma) => `(tactic| with_reducible exact Same.firstKid _ _ _)
theorem Same.lookupType (p n) : Same (Protoast.lookupType p n) := by unfold Protoast.lookupType; same
macro_rules | `(tactic| same_lemma) => `(tactic| with_reducible exact Same.lookupType _ _)
theorem Same.nodeByFullName (n) : Same (Protoast.nodeByFullName n) := by unfold Protoast.nodeByFullName; same
macro_rules | `(tactic| same_lemma) => `(tactic| with_reducible exact Same.nodeByFullName _)

/-! ### Option nodes are made afresh -/

/-- The same node, up to the address of an option. -/
inductive Upto : Node → Node → Prop where
  | refl (n) : Upto n n
  | option {a b p c f} : Upto (.option a p c f) (.option b p c f)

/-- For possibly-nil nodes. -/
inductive UptoO : Option Node → Option Node → Prop where
  | none : UptoO none none
  | some {n m} : Upto n m → UptoO (some n) (some m)

theorem UptoO.refl (o) : UptoO o o := by
  cases o
  · exact .none
  · exact .some (.refl _)

theorem Rep.ofSame {α : Type} {R : α → α → Prop} (hR : ∀ x, R x x) {m : M α} (h : Same m) : Rep R m m :=
  h.mono fun x _ e => e ▸ hR x

/-- The same type, up to the address of a list type. -/
inductive TypeUpto : Option Node → Option Node → Prop where
  | refl (t) : TypeUpto t t
  | repeated {a b t} : TypeUpto (some (.repeated a t)) (some (.repeated b t))

theorem getTypeByName_rep (p n) : Rep TypeUpto (getTypeByName p n) (getTypeByName p n) := by
  unfold getTypeByName
  refine Rep.bind (Same.lookupType _ _) fun x y e => ?_
  subst e
  refine Rep.read (by fronts) fun r => ?_
  split
  · exact Rep.bind Rep.alloc fun a b _ => Rep.pure .repeated
  · exact Rep.pure (.refl _)

theorem newOption_rep (s c o) : Rep Upto (newOption s c o) (newOption s c o) := by
  unfold newOption
  refine Rep.read (fun r1 r2 hf => ?_) fun r => ?_
  · simp only [hf.kind, hf.defined, hf.names, builtinOptionField, hf.kids]
  split
  · split
    · split
      · split
        · exact Rep.bind Rep.alloc fun a b _ => Rep.pure .option
        · exact Rep.panic
      · exact Rep.panic
    · split
      · exact Rep.bind Rep.alloc fun a b _ => Rep.pure .option
      · exact Rep.panic
  · exact Rep.panic

theorem wrapOption_rep (o c) : Rep Upto (wrapOption o c) (wrapOption o c) :=
  Rep.read (by fronts) fun _ => newOption_rep _ _ _

theorem Same.optionClass (n) : Same (Protoast.optionClass n) := by unfold Protoast.optionClass; same
macro_rules | `(tactic| same_lemma) => `(tactic| with_reducible exact Same.optionClass _)

/-! ### Iterators -/

/-- Steps that repeat. -/
abbrev Steps {α : Type} (R : α → α → Prop) : List (M α) → List (M α) → Prop := AllRel (Rep R)

theorem Rep.overKids {α : Type} {R : α → α → Prop} (p : Ptr) {pick : Ptr → Kind → Option (M α)}
    (h : ∀ q k s, pick q k = some s → Rep R s s) : Rep (Steps R) (Protoast.overKids p pick) (Protoast.overKids p pick) := by
  refine Rep.read (by fronts) fun r => Rep.pure ?_
  generalize r.kids p = l
  induction l with
  | nil => exact .nil
  | cons qe l ih =>
    simp only [List.filterMap_cons]
    cases e : pick qe.1 qe.2.kind with
    | none => exact ih
    | some s => exact .cons (h _ _ _ e) ih

/-- The element of an iteration, if there is one. -/
inductive OptR {α : Type} (R : α → α → Prop) : Option α → Option α → Prop where
  | none : OptR R none none
  | some {a b} : R a b → OptR R (some a) (some b)

theorem Rep.nth {α : Type} {R : α → α → Prop} {q1 q2 : Seq α} (h : Rep (Steps R) q1 q2) (i : Nat) :
    Rep (OptR R) (q1.nth i) (q2.nth i) := by
  refine Rep.bind h fun l1 l2 hl => ?_
  rcases AllRel.get hl i with ⟨e1, e2⟩ | ⟨s1, s2, e1, e2, hm⟩
  · simp only [e1, e2]; exact Rep.pure .none
  · simp only [e1, e2]
    exact Rep.bind hm fun a b hab => Rep.pure (.some hab)

theorem Rep.runSteps {α σ : Type} {R : α → α → Prop} {b : σ → α → M (σ × Bool)}
    (hb : ∀ st x y, R x y → Rep Eq (b st x) (b st y)) {l1 l2 : List (M α)} (h : Steps R l1 l2) :
    ∀ st, Rep Eq (Protoast.runSteps b l1 st) (Protoast.runSteps b l2 st) := by
  induction h with
  | nil => intro st; exact Rep.pure rfl
  | cons h _ ih =>
    intro st
    refine Rep.bind h fun x y hxy => ?_
    refine Rep.bind (hb st x y hxy) ?_
    rintro ⟨st', go⟩ _ rfl
    cases go
    · exact Rep.pure rfl
    · exact ih st'

theorem Same.collectSteps {α : Type} {l1 l2 : List (M α)} (h : Steps Eq l1 l2) :
    Rep Eq (Protoast.collectSteps l1) (Protoast.collectSteps l2) := by
  induction h with
  | nil => exact Rep.pure rfl
  | cons h _ ih =>
    refine Rep.bind h ?_
    rintro a _ rfl
    refine Rep.bind ih ?_
    rintro as _ rfl
    exact Rep.pure rfl

/-- Solve the side goal of `Rep.overKids` for iterators over declarations. -/
local macro "picks" : tactic => `(tactic| (
  intro q k s hs
  split at hs <;> simp at hs <;> subst hs <;> same))

theorem fileImports_rep (p) : Rep (Steps Eq) (File.imports p) (File.imports p) := Rep.overKids p (by picks)
theorem fileMessages_rep (p) : Rep (Steps Eq) (File.messages p) (File.messages p) := Rep.overKids p (by picks)
theorem fileEnums_rep (p) : Rep (Steps Eq) (File.enums p) (File.enums p) := Rep.overKids p (by picks)
theorem fileTypes_rep (p) : Rep (Steps Eq) (File.types p) (File.types p) := Rep.overKids p (by picks)
theorem fileServices_rep (p) : Rep (Steps Eq) (File.services p) (File.services p) := Rep.overKids p (by picks)
theorem messageFields_rep (p) : Rep (Steps Eq) (Message.fields p) (Message.fields p) := Rep.overKids p (by picks)
theorem messageMessages_rep (p) : Rep (Steps Eq) (Message.messages p) (Message.messages p) := Rep.overKids p (by picks)
theorem messageTypes_rep (p) : Rep (Steps Eq) (Message.types p) (Message.types p) := Rep.overKids p (by picks)
theorem enumValues_rep (p) : Rep (Steps Eq) (Enum.values p) (Enum.values p) := Rep.overKids p (by picks)
theorem enumEnums_rep (p) : Rep (Steps Eq) (Enum.enums p) (Enum.enums p) := Rep.overKids p (by picks)
theorem oneofBranches_rep (p) : Rep (Steps Eq) (OneOf.branches p) (OneOf.branches p) := Rep.overKids p (by picks)
theorem serviceMethods_rep (p) : Rep (Steps Eq) (Service.methods p) (Service.methods p) := Rep.overKids p (by picks)

theorem everythingStep_rep {c q k s} (h : everythingStep c q k = some s) : Rep UptoO s s := by
  unfold everythingStep at h
  split at h <;> simp at h <;> subst h
  · refine Rep.bind (Same.optionClass _) ?_
    rintro cls _ rfl
    exact Rep.bind (wrapOption_rep _ _) fun x y e => Rep.pure (.some e)
  · exact Rep.ofSame UptoO.refl (Same.wrap _)

theorem everything_rep (c p) : Rep (Steps UptoO) (overKids p (everythingStep c)) (overKids p (everythingStep c)) :=
  Rep.overKids p fun _ _ _ h => everythingStep_rep h

theorem methodOptions_rep (p) : Rep (Steps Upto) (Method.options p) (Method.options p) := by
  refine Rep.overKids p fun q k s h => ?_
  split at h <;> simp at h <;> subst h
  refine Rep.bind (Same.optionClass _) ?_
  rintro cls _ rfl
  exact wrapOption_rep _ _

theorem seqOptions_rep (sc cl p) : Rep (Rep (Steps Upto)) (seqOptions sc cl p) (seqOptions sc cl p) := by
  refine Rep.bind (Same.optionClass _) ?_
  rintro cls _ rfl
  refine Rep.pure (Rep.overKids p fun q k s h => ?_)
  split at h <;> simp at h <;> subst h
  exact newOption_rep _ _ _

theorem options_rep (n : Node) : Rep (Rep (Steps Upto)) (options n) (options n) := by
  unfold options
  split
  · refine Rep.read (by fronts) fun r => ?_
    split
    all_goals first | exact seqOptions_rep _ _ _ | exact Rep.panic | skip
    split <;> first | exact seqOptions_rep _ _ _ | exact Rep.panic
  · exact Rep.read (by fronts) fun r => seqOptions_rep _ _ _
  · exact Rep.panic

theorem namedOption_rep (n s c p) : Rep UptoO (namedOption n s c p) (namedOption n s c p) := by
  refine Rep.bind (Same.optionClass _) ?_
  rintro cls _ rfl
  refine Rep.read (by fronts) fun r => ?_
  split
  · exact Rep.bind (newOption_rep _ _ _) fun x y e => Rep.pure (.some e)
  · exact Rep.pure .none

theorem optionNamed_rep (n : Node) (s : Str) : Rep UptoO (optionNamed n s) (optionNamed n s) := by
  unfold optionNamed
  split
  · refine Rep.read (by fronts) fun r => ?_
    split
    all_goals first | exact namedOption_rep _ _ _ _ | exact Rep.panic | skip
    split <;> first | exact namedOption_rep _ _ _ _ | exact Rep.panic
  · exact Rep.read (by fronts) fun r => namedOption_rep _ _ _ _
  · exact Rep.panic

end Protoast.Again
