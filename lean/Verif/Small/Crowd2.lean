import Verif.Small.Crowd1
import Verif.Small.Again
/-
  Every call that loads nothing comes, among others of this kind, to what it comes to when it always sees the registry
  of the start, apart from the identity of new nodes.
-/
namespace Protoast.Small.Crowd
open Protoast
open Protoast.Quiet (Front)

variable {T : Reg} {α β γ : Type}

theorem Sim.bindEq {S : Typing → β → γ → Prop} {m : P α} {f : α → P β} {g : α → P γ} {s : Typing}
    (h : Sim T s EqR m m) (k : ∀ s' x, Sim T s' S (f x) (g x)) : Sim T s S (m >>= f) (m >>= g) :=
  Sim.bind h fun s' x y _ e => by
    have e : x = y := e
    subst e
    exact k s' x

theorem Sim.pureEq {s : Typing} (x : α) : Sim T s EqR (Pure.pure x : P α) (Pure.pure x) := Sim.pure rfl

/-- Extensible list of lemmas. -/
syntax "sq_lemma" : tactic
macro_rules | `(tactic| sq_lemma) => `(tactic| fail)
macro_rules | `(tactic| sq_lemma) => `(tactic| with_reducible exact Sim.pureEq _)
macro_rules | `(tactic| sq_lemma) => `(tactic| with_reducible exact Sim.panic)

/-- The rules for composed computations. -/
macro "sq_rule" : tactic => `(tactic| first | with_reducible refine Sim.read (by pfronts) ?_ | with_reducible apply Sim.bindEq)

/-- Prove that a `do` block that only looks at declarations does the same. -/
syntax "sq" : tactic
macro_rules
  | `(tactic| sq) => `(tactic| repeat' (first | sq_lemma | assumption | sq_rule | intro _ | split))

/-- A program that shows the same, whoever else is at work. -/
abbrev Shows (T : Reg) (m : P α) : Prop := ∀ s, Sim T s EqR m m

/-! ### Lookup -/

theorem firstKid_sim (s : Typing) (p k sel) : Sim T s (OptR T) (firstKid p k sel) (firstKid p k sel) := by
  unfold firstKid
  refine Sim.read (by pfronts) fun s' _ => ?_
  split
  · exact Sim.some (Sim.wrapNode _ _)
  · exact Sim.pure OptR.none

theorem firstKid_kind (s : Typing) (p k sel) : Sim T s (fun s x y => OptR T s x y ∧ ∀ n, x = some n → ∃ a q, n = .wrapped a k q)
    (firstKid p k sel) (firstKid p k sel) := by
  unfold firstKid
  refine Sim.read (by pfronts) fun s' _ => ?_
  split
  · refine Sim.bind (Sim.wrapAs _ _) fun _ _ _ _ h => Sim.pure ⟨h.1.some, fun n e => ?_⟩
    cases e
    exact h.2
  · exact Sim.pure ⟨OptR.none, fun n e => by cases e⟩

theorem wrapNamed_sim (s : Typing) (p) : Sim T s (NodeR T) (wrapNamed p) (wrapNamed p) := by
  unfold wrapNamed
  refine Sim.bind (Sim.wrap _) ?_
  rintro s' x _ hs ⟨⟨rfl, hd⟩, hw⟩
  cases x with
  | none => exact Sim.panic
  | some n =>
    obtain ⟨a, k, q, rfl⟩ := hw n rfl
    have hd := hd _ rfl
    cases k <;> first | exact Sim.panic | exact Sim.pure ⟨rfl, hd⟩

theorem lookupType_sim (s : Typing) (p n) : Sim T s (OptR T) (lookupType p n) (lookupType p n) := by
  unfold lookupType
  split
  · exact Sim.pure ⟨rfl, fun n e => by cases e; trivial⟩
  · refine Sim.read (by pfronts) fun s' _ => ?_
    split
    · exact Sim.pure OptR.none
    · split
      · exact Sim.pure OptR.none
      · refine Sim.bind (Sim.wrap _) ?_
        rintro s' x _ hs ⟨⟨rfl, hd⟩, hw⟩
        cases x with
        | none => exact Sim.panic
        | some n =>
          obtain ⟨a, k, q, rfl⟩ := hw n rfl
          have hd := hd _ rfl
          simp only [Option.map_some, blur]
          cases k <;> first | exact Sim.panic | exact Sim.pure ⟨rfl, fun n e => by cases e; exact hd⟩

theorem getTypeByName_sim (s : Typing) (p n) : Sim T s (OptR T) (getTypeByName p n) (getTypeByName p n) := by
  unfold getTypeByName
  refine Sim.bind (lookupType_sim _ _ _) ?_
  rintro s1 x _ - ⟨rfl, hd⟩
  refine Sim.read (by pfronts) fun s2 h2 => ?_
  split
  · refine Sim.alloc fun s3 a h3 ha => ⟨⟨0, []⟩, Sim.pure ⟨?_, ?_⟩⟩
    · cases x <;> simp [blur, min_next ha]
    · intro n e
      cases e
      cases x with
      | none => trivial
      | some t => exact (hd t rfl).mono ((h2.trans h3).trans (Typing.le_add _ _ _))
  · exact Sim.pure ⟨rfl, fun n e => (hd n e).mono h2⟩

theorem nodeByFullName_sim (s : Typing) (n) : Sim T s (OptR T) (nodeByFullName n) (nodeByFullName n) := by
  unfold nodeByFullName
  refine Sim.read (by pfronts) fun s' _ => ?_
  split <;> exact (Sim.wrap _).mono fun _ _ _ _ h => h.1

theorem newOption_sim (s : Typing) (sc c o) : Sim T s (NodeR T) (newOption sc c o) (newOption sc c o) := by
  unfold newOption
  refine Sim.read (fun r1 r2 hf => ?_) fun s' _ => ?_
  · simp only [hf.kind, hf.defined, hf.names, builtinOptionField, hf.kids]
  have fin : ∀ {s : Typing} f, Sim T s (NodeR T) (P.new >>= fun a => Pure.pure (.option a o c f))
      (P.new >>= fun a => Pure.pure (.option a o c f)) := fun f =>
    Sim.alloc fun s3 a h3 ha => ⟨⟨0, []⟩, Sim.pure ⟨by simp [blur, min_next ha], trivial⟩⟩
  split
  · split
    · split
      · split
        · exact fin _
        · exact Sim.panic
      · exact Sim.panic
    · split
      · exact fin _
      · exact Sim.panic
  · exact Sim.panic

theorem wrapOption_sim (s : Typing) (o c) : Sim T s (NodeR T) (wrapOption o c) (wrapOption o c) :=
  Sim.read (by pfronts) fun _ _ => newOption_sim _ _ _ _

theorem Shows.optionClass (n) : Shows T (Small.optionClass n) := by intro s; unfold Small.optionClass; sq
macro_rules | `(tactic| sq_lemma) => `(tactic| with_reducible exact Shows.optionClass _ _)

/-! ### Iterators -/

/-- Steps that do the same. -/
abbrev Steps (T : Reg) (R : Typing → α → α → Prop) (_ : Typing) : List (P α) → List (P α) → Prop :=
  AllRel fun m m' => ∀ s, Sim T s R m m'

theorem Sim.overKids {R : Typing → α → α → Prop} (s : Typing) (p : Ptr) {pick : Ptr → Kind → Option (P α)}
    (h : ∀ q k m, pick q k = Option.some m → ∀ s, Sim T s R m m) : Sim T s (Steps T R) (Small.overKids p pick) (Small.overKids p pick) := by
  refine Sim.read (by pfronts) fun s' _ => Sim.pure ?_
  generalize T.kids p = l
  induction l with
  | nil => exact .nil
  | cons qe l ih =>
    simp only [List.filterMap_cons]
    cases e : pick qe.1 qe.2.kind with
    | none => exact ih
    | some m => exact .cons (h _ _ _ e) ih

/-- The element, if there is one. -/
inductive MayR (R : Typing → α → α → Prop) (s : Typing) : Option α → Option α → Prop where
  | none : MayR R s none none
  | some {x y} : R s x y → MayR R s (some x) (some y)

theorem Sim.nth {R : Typing → α → α → Prop} {s : Typing} {q1 q2 : Seq α} (h : Sim T s (Steps T R) q1 q2) (i : Nat) :
    Sim T s (MayR R) (q1.nth i) (q2.nth i) := by
  refine Sim.bind h fun s' l1 l2 _ hl => ?_
  rcases AllRel.get hl i with ⟨e1, e2⟩ | ⟨s1, s2, e1, e2, hm⟩
  · simp only [e1, e2]; exact Sim.pure .none
  · simp only [e1, e2]
    exact Sim.bind (hm _) fun _ a b _ hab => Sim.pure (.some hab)

theorem Sim.runSteps {σ : Type} {R : Typing → α → α → Prop} {b : σ → α → P (σ × Bool)}
    (hb : ∀ s st x y, R s x y → Sim T s EqR (b st x) (b st y)) {l1 l2 : List (P α)} {s0 : Typing} (h : Steps T R s0 l1 l2) :
    ∀ s st, Sim T s EqR (Small.runSteps b l1 st) (Small.runSteps b l2 st) := by
  induction h with
  | nil => intro s st; exact Sim.pure rfl
  | cons h _ ih =>
    intro s st
    refine Sim.bind (h _) fun s' x y _ hxy => ?_
    refine Sim.bind (hb s' st x y hxy) ?_
    rintro s'' ⟨st', go⟩ _ - rfl
    cases go
    · exact Sim.pure rfl
    · exact ih _ st'

theorem Sim.collectSteps {l1 l2 : List (P α)} {s0 : Typing} (h : Steps T EqR s0 l1 l2) :
    ∀ s, Sim T s EqR (Small.collectSteps l1) (Small.collectSteps l2) := by
  induction h with
  | nil => intro s; exact Sim.pure rfl
  | cons h _ ih =>
    intro s
    refine Sim.bind (h _) ?_
    rintro s' a _ - rfl
    refine Sim.bind (ih _) ?_
    rintro s'' as _ - rfl
    exact Sim.pure rfl

/-- Solve the side goal of `Sim.overKids` for iterators over declarations. -/
local macro "picks" : tactic => `(tactic| (
  intro q k m hm s
  split at hm <;> simp at hm <;> subst hm <;> first | exact Sim.wrapNode _ _ | exact wrapNamed_sim _ _))

theorem fileImports_sim (s p) : Sim T s (Steps T (NodeR T)) (File.imports p) (File.imports p) := Sim.overKids s p (by picks)
theorem fileMessages_sim (s p) : Sim T s (Steps T (NodeR T)) (File.messages p) (File.messages p) := Sim.overKids s p (by picks)
theorem fileEnums_sim (s p) : Sim T s (Steps T (NodeR T)) (File.enums p) (File.enums p) := Sim.overKids s p (by picks)
theorem fileTypes_sim (s p) : Sim T s (Steps T (NodeR T)) (File.types p) (File.types p) := Sim.overKids s p (by picks)
theorem fileServices_sim (s p) : Sim T s (Steps T (NodeR T)) (File.services p) (File.services p) := Sim.overKids s p (by picks)
theorem messageFields_sim (s p) : Sim T s (Steps T (NodeR T)) (Message.fields p) (Message.fields p) := Sim.overKids s p (by picks)
theorem messageMessages_sim (s p) : Sim T s (Steps T (NodeR T)) (Message.messages p) (Message.messages p) :=
  Sim.overKids s p (by picks)
theorem messageTypes_sim (s p) : Sim T s (Steps T (NodeR T)) (Message.types p) (Message.types p) := Sim.overKids s p (by picks)
theorem enumValues_sim (s p) : Sim T s (Steps T (NodeR T)) (Enum.values p) (Enum.values p) := Sim.overKids s p (by picks)
theorem enumEnums_sim (s p) : Sim T s (Steps T (NodeR T)) (Enum.enums p) (Enum.enums p) := Sim.overKids s p (by picks)
theorem oneofBranches_sim (s p) : Sim T s (Steps T (NodeR T)) (OneOf.branches p) (OneOf.branches p) := Sim.overKids s p (by picks)
theorem serviceMethods_sim (s p) : Sim T s (Steps T (NodeR T)) (Service.methods p) (Service.methods p) :=
  Sim.overKids s p (by picks)

theorem everythingStep_sim {c q k m} (h : everythingStep c q k = some m) (s) : Sim T s (OptR T) m m := by
  unfold everythingStep at h
  split at h <;> simp at h <;> subst h
  · exact Sim.bindEq (Shows.optionClass _ _) fun s' cls => Sim.some (wrapOption_sim _ _ _)
  · exact (Sim.wrap _).mono fun _ _ _ _ h => h.1

theorem everything_sim (s c p) : Sim T s (Steps T (OptR T)) (overKids p (everythingStep c)) (overKids p (everythingStep c)) :=
  Sim.overKids s p fun _ _ _ h => everythingStep_sim h

theorem methodOptions_sim (s p) : Sim T s (Steps T (NodeR T)) (Method.options p) (Method.options p) := by
  refine Sim.overKids s p fun q k m h s => ?_
  split at h <;> simp at h <;> subst h
  exact Sim.bindEq (Shows.optionClass _ _) fun s' cls => wrapOption_sim _ _ _

/-- Iterators that do the same, whenever they are used. -/
abbrev Iters (T : Reg) (_ : Typing) (q q' : Seq Node) : Prop := ∀ s, Sim T s (Steps T (NodeR T)) q q'

theorem seqOptions_sim (s sc cl p) : Sim T s (Iters T) (seqOptions sc cl p) (seqOptions sc cl p) := by
  refine Sim.bindEq (Shows.optionClass _ _) fun s' cls => ?_
  refine Sim.pure fun s => Sim.overKids s p fun q k m h s => ?_
  split at h <;> simp at h <;> subst h
  exact newOption_sim _ _ _ _

theorem namedOption_sim (s n sc c p) : Sim T s (OptR T) (namedOption n sc c p) (namedOption n sc c p) := by
  refine Sim.bindEq (Shows.optionClass _ _) fun s' cls => ?_
  refine Sim.read (by pfronts) fun s' _ => ?_
  split
  · exact Sim.some (newOption_sim _ _ _ _)
  · exact Sim.pure OptR.none

theorem options_sim (s) (n : Node) : Sim T s (Iters T) (options n) (options (blur T.next n)) := by
  cases n with
  | wrapped a k p =>
    simp only [blur, options]
    refine Sim.read (by pfronts) fun s' _ => ?_
    cases k
    all_goals first | exact seqOptions_sim _ _ _ _ | exact Sim.panic | skip
    dsimp only
    split <;> first | exact seqOptions_sim _ _ _ _ | exact Sim.panic
  | oneof a p =>
    simp only [blur, options]
    exact Sim.read (by pfronts) fun s' _ => seqOptions_sim _ _ _ _
  | «repeated» a t => cases t <;> exact Sim.panic
  | _ => exact Sim.panic

theorem optionNamed_sim (s) (n : Node) (nm : Str) : Sim T s (OptR T) (optionNamed n nm) (optionNamed (blur T.next n) nm) := by
  cases n with
  | wrapped a k p =>
    simp only [blur, optionNamed]
    refine Sim.read (by pfronts) fun s' _ => ?_
    cases k
    all_goals first | exact namedOption_sim _ _ _ _ _ | exact Sim.panic | skip
    dsimp only
    split <;> first | exact namedOption_sim _ _ _ _ _ | exact Sim.panic
  | oneof a p =>
    simp only [blur, optionNamed]
    exact Sim.read (by pfronts) fun s' _ => namedOption_sim _ _ _ _ _
  | «repeated» a t => cases t <;> exact Sim.panic
  | _ => exact Sim.panic

/-! ### Field types -/

theorem fieldTypeBody_sim (s p) : Sim T s (OptR T) (fieldTypeBody p) (fieldTypeBody p) := by
  unfold fieldTypeBody
  refine Sim.read (by pfronts) fun s' _ => ?_
  split
  · exact getTypeByName_sim _ _ _
  · refine Sim.alloc fun s3 a h3 ha => ⟨⟨0, []⟩, Sim.pure ⟨by simp [blur, min_next ha], fun n e => by cases e; trivial⟩⟩
  · refine Sim.alloc fun s3 a h3 ha => ⟨⟨0, []⟩, Sim.pure ⟨by simp [blur, min_next ha], fun n e => by cases e; trivial⟩⟩
  · exact Sim.panic

theorem static_read (k : Reg → P α) : static T (P.get >>= k) = static T (k T) := rfl
theorem static_pure (x : α) : static T (Pure.pure x) = .ok x := rfl
theorem static_panic (e) : static T (P.panic e : P α) = .panic e := rfl

theorem lookupType_fails {p n e} (h : static T (lookupType p n) = .panic e) : Spoils e := by
  unfold lookupType at h
  split at h
  · cases h
  · rw [static_read] at h
    split at h
    · cases h
    · split at h
      · cases h
      · rename_i obj _
        rw [static_bind] at h
        cases hw : static T (wrap (.at obj)) with
        | panic e' =>
          rw [hw] at h
          cases h
          unfold wrap at hw
          rw [static_read] at hw
          split at hw
          · cases hw
          · split at hw
            · cases hw
            · cases hw; exact .inl rfl
        | timeout => rw [hw] at h; cases h
        | ok x =>
          rw [hw] at h
          dsimp only at h
          split at h
          · split at h
            · cases h
            · cases h; exact .inr rfl
          · cases h; exact .inr rfl

theorem fieldTypeBody_fails {p e} (hp : T.wrapTarget (.at p) = some (.messageField, p))
    (h : static T (fieldTypeBody p) = .panic e) : Spoils e := by
  unfold fieldTypeBody at h
  rw [static_read] at h
  split at h
  · rename_i typ _ _ _ _
    unfold getTypeByName at h
    rw [static_bind] at h
    cases hl : static T (lookupType p typ) with
    | panic e' => rw [hl] at h; cases h; exact lookupType_fails hl
    | timeout => rw [hl] at h; cases h
    | ok x =>
      rw [hl] at h
      dsimp only at h
      rw [static_read] at h
      split at h <;> cases h
  · cases h
  · cases h
  · rename_i h1 h2 h3
    exfalso
    rcases p with ⟨i, l⟩
    cases l with
    | nil =>
      simp only [Reg.wrapTarget] at hp
      split at hp <;> cases hp
    | cons j t =>
      simp only [Reg.wrapTarget, Option.map_eq_some_iff, Option.bind_eq_some_iff] at hp
      obtain ⟨k, ⟨kd, hk, hw⟩, e⟩ := hp
      cases e
      cases kd <;> simp [wrapKind] at hw
      · exact h1 _ _ _ _ _ hk
      · exact h3 _ _ _ _ hk
      · exact h2 _ hk

theorem fieldType_sim {s : Typing} {a p} (h : Typed T s (.wrapped a .messageField p)) :
    Sim T s (OptR T) (MessageField.type a p) (MessageField.type (min a T.next) p) := by
  unfold MessageField.type
  refine Sim.get fun s1 r h1 hr => ?_
  have hlow : ∀ t, T.ftcache a = some t → min a T.next = a := fun t e => Nat.min_eq_left (Nat.le_of_lt (hr.ftOk a t e).1)
  cases hT : T.ftcache a with
  | some t =>
    rw [hlow t hT, hT, hr.ftOld a t hT]
    refine Sim.pure ⟨?_, fun n e => ((hr.ftOk a t hT).2 n e).1⟩
    cases t with
    | none => rfl
    | some n => simp [((hr.ftOk a _ hT).2 n rfl).2]
  | none =>
    have hT' : T.ftcache (min a T.next) = none := by
      by_cases ha : a ≤ T.next
      · rw [Nat.min_eq_left ha]; exact hT
      · rw [min_next (Nat.le_of_not_le ha)]
        cases e : T.ftcache T.next with
        | none => rfl
        | some t => exact absurd (hr.ftOk _ _ e).1 (Nat.lt_irrefl _)
    rw [hT']
    have hst : static T ((fieldTypeBody p).deferred fun t => .fieldType (min a T.next) (t.getD none)) =
        static T (fieldTypeBody p) := by
      unfold P.deferred
      rw [static_handle]
      cases static T (fieldTypeBody p) <;> rfl
    unfold Sim
    rw [hst]
    cases hc : r.ftcache a with
    | some t =>
      obtain ⟨g1, g2⟩ := hr.ftNew a t hT hc p (h1 _ _ h.1)
      dsimp only
      rw [g1]
      exact ⟨rfl, g2⟩
    | none =>
      have hb : Sim T s1 (OptR T) (fieldTypeBody p) (fieldTypeBody p) := fieldTypeBody_sim s1 p
      refine Runs.handle hb ?_ ?_ ?_ ?_
      · intro s2 x h2 hx
        refine .inl ⟨⟨hT, p, h2 _ _ (h1 _ _ h.1), ?_⟩, hx⟩
        cases hs : static T (fieldTypeBody p) with
        | ok y =>
          rw [hs] at hx
          obtain ⟨rfl, hx⟩ := hx
          exact ⟨hs, hx⟩
        | panic e => rw [hs] at hx; exact hx.elim
        | timeout => rw [hs] at hx; exact hx.elim
      · intro s2 e h2 hx
        refine .inr ⟨e, ?_, rfl, hx⟩
        cases hs : static T (fieldTypeBody p) with
        | ok y => rw [hs] at hx; exact hx.elim
        | panic e' =>
          rw [hs] at hx
          have hx : e = e' := hx
          subst hx
          exact fieldTypeBody_fails h.2 hs
        | timeout => rw [hs] at hx; exact hx.elim
      · exact fun _ _ hx => hx
      · exact fun s2 e _ _ hx => ⟨rfl, hx⟩

theorem branchType_sim (s p) : Sim T s (OptR T) (OneOfBranch.type p) (OneOfBranch.type p) := by
  unfold OneOfBranch.type
  refine Sim.read (by pfronts) fun s' _ => ?_
  split
  · exact getTypeByName_sim _ _ _
  · exact Sim.panic

/-- A flag and a node. -/
def FlagR (T : Reg) (s : Typing) (x y : Bool × Node) : Prop := x.1 = y.1 ∧ NodeR T s x.2 y.2

theorem methodInput_sim (s p) : Sim T s (FlagR T) (Method.input p) (Method.input p) := by
  unfold Method.input
  refine Sim.read (by pfronts) fun s' _ => ?_
  split
  · refine Sim.bind (getTypeByName_sim _ _ _) fun s2 x y _ h => ?_
    exact Sim.bind (Sim.assertKind _ h) fun s3 x y _ h => Sim.pure ⟨rfl, h.1⟩
  · exact Sim.panic

theorem methodOutput_sim (s p) : Sim T s (FlagR T) (Method.output p) (Method.output p) := by
  unfold Method.output
  refine Sim.read (by pfronts) fun s' _ => ?_
  split
  · refine Sim.bind (getTypeByName_sim _ _ _) fun s2 x y _ h => ?_
    exact Sim.bind (Sim.assertKind _ h) fun s3 x y _ h => Sim.pure ⟨rfl, h.1⟩
  · exact Sim.panic

theorem mapKey_sim (s p) : Sim T s (NodeR T) (Map.key p) (Map.key p) := by
  unfold Map.key
  refine Sim.read (by pfronts) fun s' _ => ?_
  split
  · split
    · exact Sim.pure ⟨rfl, trivial⟩
    · exact Sim.panic
  · exact Sim.panic

theorem mapValue_sim (s p) : Sim T s (NodeR T) (Map.value p) (Map.value p) := by
  unfold Map.value
  refine Sim.read (by pfronts) fun s' _ => ?_
  split
  · split
    · exact Sim.pure ⟨rfl, trivial⟩
    · split
      · exact Sim.panic
      · split
        · exact Sim.wrapNode _ _
        · exact Sim.wrapNode _ _
        · exact Sim.panic
  · exact Sim.panic

end Protoast.Small.Crowd
