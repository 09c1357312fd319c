import Verif.Small.Alone3
import Verif.Proof.Again2
/-
  Repeating a program: once it has returned, alone, it only reads when it is run again, whatever else happens meanwhile
  as long as nobody writes, and comes to the same result.
-/
namespace Protoast.Small.Again
open Protoast
open Protoast.Quiet (Front)
open Protoast.Again (Upto UptoO TypeUpto OptR Uptos)

/-- Nothing but the allocation counter differs. -/
def Tables (T r : Reg) : Prop := r = { T with next := r.next }

/-- In states with the tables of `T`, whatever addresses it gets, the program reads and allocates and then returns a
    result with the property `Q`: it does not write, parse or panic. -/
def ReadsTo {α : Type} (T : Reg) (Q : α → Prop) : P α → Prop
  | .ret x => Q x
  | .read k => ∀ r, Tables T r → ReadsTo T Q (k r)
  | .alloc k => ∀ n, ReadsTo T Q (k n)
  | _ => False

section
variable {α β γ δ : Type}

theorem ReadsTo.exists {T : Reg} {Q : α → Prop} {p : P α} (h : ReadsTo T Q p) : ∃ x, Q x := by
  induction p with
  | ret x => exact ⟨x, h⟩
  | read k ih => exact ih T (h T rfl)
  | alloc k ih => exact ih 0 (h 0)
  | _ => exact h.elim

theorem ReadsTo.mono {T : Reg} {Q Q' : α → Prop} {p : P α} (h : ReadsTo T Q p) (hQ : ∀ x, Q x → Q' x) : ReadsTo T Q' p := by
  induction p with
  | ret x => exact hQ x h
  | read k ih => exact fun r hr => ih r (h r hr)
  | alloc k ih => exact fun n => ih n (h n)
  | _ => exact h.elim

theorem ReadsTo.bind {T : Reg} {Q : α → Prop} {Q' : β → Prop} {p : P α} {f : α → P β} (h : ReadsTo T Q p)
    (k : ∀ x, Q x → ReadsTo T Q' (f x)) : ReadsTo T Q' (p >>= f) := by
  show ReadsTo T Q' (p.handle f .panic)
  induction p with
  | ret x => exact k x h
  | read k' ih => exact fun r hr => ih r (h r hr)
  | alloc k' ih => exact fun n => ih n (h n)
  | _ => exact h.elim

theorem front_of {r T r' : Reg} (h : CacheExt r T) (g : Tables T r') : Front r r' := by
  have e : r' = { T with next := r'.next } := g
  rw [e]
  exact ⟨h.heap, h.protos, h.registry, h.scopes⟩

theorem alone_bind (p : P α) (f : α → P β) (r : Reg) : (p >>= f).alone r = match p.alone r with
    | (.ok x, r') => (f x).alone r'
    | (.panic e, r') => (.panic e, r')
    | (.timeout, r') => (.timeout, r') := by
  show (p.handle f .panic).alone r = _
  rw [alone_handle]
  rcases p.alone r with ⟨res, r'⟩
  cases res <;> rfl

end

/-- If `p`, alone, returns, then `q`, in any tables that hold at least what `p` left behind, only reads and returns a
    related result. -/
structure Rep {α β : Type} (R : α → β → Prop) (p : P α) (q : P β) : Prop where
  run : ∀ r x r1, p.alone r = (.ok x, r1) → CacheExt r r1 ∧ ∀ T, CacheExt r1 T → ReadsTo T (R x) q

section
variable {α β γ δ : Type}

theorem Rep.pure {R : α → β → Prop} {x y} (h : R x y) : Rep R (Pure.pure x) (Pure.pure y) := by
  constructor; intro r x' r1 e
  cases e
  exact ⟨CacheExt.refl _, fun T _ => h⟩

theorem Rep.panic {R : α → β → Prop} {e m'} : Rep R (P.panic e) m' := by
  constructor; intro r x r1 h; cases h

theorem Rep.timeout {R : α → β → Prop} {m'} : Rep R P.timeout m' := by
  constructor; intro r x r1 h; cases h

theorem Rep.mono {R S : α → β → Prop} {m m'} (h : Rep R m m') (hRS : ∀ x y, R x y → S x y) : Rep S m m' := by
  constructor; intro r x r1 e
  obtain ⟨h1, h2⟩ := h.run r x r1 e
  exact ⟨h1, fun T hT => (h2 T hT).mono (hRS x)⟩

theorem Rep.bind {R : α → β → Prop} {S : γ → δ → Prop} {m m'} {f : α → P γ} {g : β → P δ} (h : Rep R m m')
    (k : ∀ x y, R x y → Rep S (f x) (g y)) : Rep S (m >>= f) (m' >>= g) := by
  constructor; intro r x r2 e
  rw [alone_bind] at e
  rcases hm : m.alone r with ⟨res, r1⟩
  rw [hm] at e
  cases res with
  | panic p => cases e
  | timeout => cases e
  | ok a =>
    simp only at e
    obtain ⟨h1, h2⟩ := h.run r a r1 hm
    obtain ⟨b0, hb0⟩ := (h2 r1 (CacheExt.refl _)).exists
    have h12 := ((k a b0 hb0).run r1 x r2 e).1
    exact ⟨h1.trans h12, fun T hT => (h2 T (h12.trans hT)).bind fun b hb => ((k a b hb).run r1 x r2 e).2 T hT⟩

theorem Rep.get {S : γ → δ → Prop} {f : Reg → P γ} {g : Reg → P δ}
    (k : ∀ r1 r2, Front r1 r2 → Rep S (f r1) (g r2)) : Rep S (P.get >>= f) (P.get >>= g) := by
  constructor; intro r x r1 e
  have e' : (f r).alone r = (.ok x, r1) := e
  have h1 := ((k r r ⟨rfl, rfl, rfl, rfl⟩).run r x r1 e').1
  refine ⟨h1, fun T hT r' hr' => ?_⟩
  exact ((k r r' (front_of (h1.trans hT) hr')).run r x r1 e').2 T hT

theorem Rep.read {S : γ → δ → Prop} {f : Reg → P γ} {g : Reg → P δ} (hg : ∀ r1 r2, Front r1 r2 → g r2 = g r1)
    (k : ∀ r, Rep S (f r) (g r)) : Rep S (P.get >>= f) (P.get >>= g) :=
  Rep.get fun r1 r2 h => by rw [hg r1 r2 h]; exact k r1

theorem Rep.alloc : Rep (fun _ _ => True) P.new P.new := by
  constructor; intro r x r1 e
  cases e
  exact ⟨RO.alloc r, fun T _ n => trivial⟩

end

/-- Returning once means returning the same again. -/
abbrev Same {α : Type} (m : P α) : Prop := Rep Eq m m

section
variable {α β : Type}

theorem Same.pure (x : α) : Same (Pure.pure x) := Rep.pure rfl
theorem Same.panic {e} : Same (P.panic e : P α) := Rep.panic
theorem Same.bind {m : P α} {f : α → P β} (h : Same m) (k : ∀ x, Same (f x)) : Same (m >>= f) :=
  Rep.bind h fun x y e => by subst e; exact k x
theorem Same.read {f : Reg → P β} (hf : ∀ r1 r2, Front r1 r2 → f r2 = f r1) (k : ∀ r, Same (f r)) :
    Same (P.get >>= f) := Rep.read hf k
end

theorem Same.wrap (v : Vis) : Same (Small.wrap v) := by
  constructor; intro r x r1 e
  have ei : (Small.wrap v).alone = Protoast.wrap v := Is.wrap v
  rw [ei] at e
  have hro : CacheExt r r1 := by
    have := RO.wrap v r
    rw [e] at this
    exact this
  refine ⟨hro, fun T hT r' hr' => ?_⟩
  have hc : r1.cache v = some x := by
    rw [Quiet.wrap_apply] at e
    cases h : r.cache v with
    | some n => rw [h] at e; cases e; exact h
    | none =>
      rw [h] at e
      simp only at e
      cases ht : r.wrapTarget v with
      | none => rw [ht] at e; cases e
      | some kp =>
        rw [ht] at e
        cases e
        simp [Quiet.wrapped, upd]
  have hc' : r'.cache v = some x := by
    have e : r' = { T with next := r'.next } := hr'
    rw [e]
    exact hT.cache v x hc
  show ReadsTo T (Eq x) (P.handle _ _ (P.ret r'))
  simp only [P.handle, hc']
  rfl

/-- Rewrite with equal front parts. -/
macro "pfronts" : tactic => `(tactic| (
  intro r1 r2 hf
  simp only [hf.kids, hf.kind, hf.elem, hf.children, hf.scope, hf.defined, hf.names, hf.heap, hf.protos,
    hf.isRepeatedField]))

/-- Extensible list of lemmas. -/
syntax "sp_lemma" : tactic
macro_rules | `(tactic| sp_lemma) => `(tactic| fail)
macro_rules | `(tactic| sp_lemma) => `(tactic| with_reducible exact Same.pure _)
macro_rules | `(tactic| sp_lemma) => `(tactic| with_reducible exact Same.panic)
macro_rules | `(tactic| sp_lemma) => `(tactic| with_reducible exact Same.wrap _)

/-- The rules for composed computations. -/
macro "sp_rule" : tactic => `(tactic| first | with_reducible refine Same.read (by pfronts) ?_ | with_reducible apply Same.bind)

/-- Prove that a `do` block repeats. -/
syntax "sp" : tactic
macro_rules
  | `(tactic| sp) => `(tactic| repeat' (first | sp_lemma | assumption | sp_rule | intro _ | split))

theorem Same.assertKind (k o) : Same (Small.assertKind k o) := by unfold Small.assertKind; sp
macro_rules | `(tactic| sp_lemma) => `(tactic| with_reducible exact Same.assertKind _ _)
theorem Same.wrapAs (k p) : Same (Small.wrapAs k p) := by unfold Small.wrapAs; sp
macro_rules | `(tactic| sp_lemma) => `(tactic| with_reducible exact Same.wrapAs _ _)
theorem Same.wrapNamed (p) : Same (Small.wrapNamed p) := by unfold Small.wrapNamed; sp
macro_rules | `(tactic| sp_lemma) => `(tactic| with_reducible exact Same.wrapNamed _)
theorem Same.firstKid (p k sel) : Same (Small.firstKid p k sel) := by unfold Small.firstKid; sp
macro_rules | `(tactic| sp_lemma) => `(tactic| with_reducible exact Same.firstKid _ _ _)
theorem Same.lookupType (p n) : Same (Small.lookupType p n) := by unfold Small.lookupType; sp
macro_rules | `(tactic| sp_lemma) => `(tactic| with_reducible exact Same.lookupType _ _)
theorem Same.nodeByFullName (n) : Same (Small.nodeByFullName n) := by unfold Small.nodeByFullName; sp
macro_rules | `(tactic| sp_lemma) => `(tactic| with_reducible exact Same.nodeByFullName _)

/-! ### Option nodes are made afresh -/

theorem Rep.ofSame {α : Type} {R : α → α → Prop} (hR : ∀ x, R x x) {m : P α} (h : Same m) : Rep R m m :=
  h.mono fun x _ e => e ▸ hR x

theorem getTypeByName_rep (p n) : Rep TypeUpto (getTypeByName p n) (getTypeByName p n) := by
  unfold getTypeByName
  refine Rep.bind (Same.lookupType _ _) fun x y e => ?_
  subst e
  refine Rep.read (by pfronts) fun r => ?_
  split
  · exact Rep.bind Rep.alloc fun a b _ => Rep.pure .repeated
  · exact Rep.pure (.refl _)

theorem newOption_rep (s c o) : Rep Upto (newOption s c o) (newOption s c o) := by
  unfold newOption
  refine Rep.read (fun r1 r2 hf => ?_) fun r => ?_
  · simp only [hf.kind, hf.defined, hf.names, builtinOptionField, hf.kids]
  split
  · split
    · split
      · split
        · exact Rep.bind Rep.alloc fun a b _ => Rep.pure .option
        · exact Rep.panic
      · exact Rep.panic
    · split
      · exact Rep.bind Rep.alloc fun a b _ => Rep.pure .option
      · exact Rep.panic
  · exact Rep.panic

theorem wrapOption_rep (o c) : Rep Upto (wrapOption o c) (wrapOption o c) :=
  Rep.read (by pfronts) fun _ => newOption_rep _ _ _

theorem Same.optionClass (n) : Same (Small.optionClass n) := by unfold Small.optionClass; sp
macro_rules | `(tactic| sp_lemma) => `(tactic| with_reducible exact Same.optionClass _)

/-! ### Iterators -/

/-- Steps that repeat. -/
abbrev Steps {α : Type} (R : α → α → Prop) : List (P α) → List (P α) → Prop := AllRel (Rep R)

theorem Rep.overKids {α : Type} {R : α → α → Prop} (p : Ptr) {pick : Ptr → Kind → Option (P α)}
    (h : ∀ q k s, pick q k = some s → Rep R s s) : Rep (Steps R) (Small.overKids p pick) (Small.overKids p pick) := by
  refine Rep.read (by pfronts) fun r => Rep.pure ?_
  generalize r.kids p = l
  induction l with
  | nil => exact .nil
  | cons qe l ih =>
    simp only [List.filterMap_cons]
    cases e : pick qe.1 qe.2.kind with
    | none => exact ih
    | some s => exact .cons (h _ _ _ e) ih

theorem Rep.nth {α : Type} {R : α → α → Prop} {q1 q2 : Seq α} (h : Rep (Steps R) q1 q2) (i : Nat) :
    Rep (OptR R) (q1.nth i) (q2.nth i) := by
  refine Rep.bind h fun l1 l2 hl => ?_
  rcases AllRel.get hl i with ⟨e1, e2⟩ | ⟨s1, s2, e1, e2, hm⟩
  · simp only [e1, e2]; exact Rep.pure .none
  · simp only [e1, e2]
    exact Rep.bind hm fun a b hab => Rep.pure (.some hab)

theorem Rep.runSteps {α σ : Type} {R : α → α → Prop} {b : σ → α → P (σ × Bool)}
    (hb : ∀ st x y, R x y → Rep Eq (b st x) (b st y)) {l1 l2 : List (P α)} (h : Steps R l1 l2) :
    ∀ st, Rep Eq (Small.runSteps b l1 st) (Small.runSteps b l2 st) := by
  induction h with
  | nil => intro st; exact Rep.pure rfl
  | cons h _ ih =>
    intro st
    refine Rep.bind h fun x y hxy => ?_
    refine Rep.bind (hb st x y hxy) ?_
    rintro ⟨st', go⟩ _ rfl
    cases go
    · exact Rep.pure rfl
    · exact ih st'

theorem Same.collectSteps {α : Type} {l1 l2 : List (P α)} (h : Steps Eq l1 l2) :
    Rep Eq (Small.collectSteps l1) (Small.collectSteps l2) := by
  induction h with
  | nil => exact Rep.pure rfl
  | cons h _ ih =>
    refine Rep.bind h ?_
    rintro a _ rfl
    refine Rep.bind ih ?_
    rintro as _ rfl
    exact Rep.pure rfl

/-- Solve the side goal of `Rep.overKids` for iterators over declarations. -/
local macro "picks" : tactic => `(tactic| (
  intro q k s hs
  split at hs <;> simp at hs <;> subst hs <;> sp))

theorem fileImports_rep (p) : Rep (Steps Eq) (File.imports p) (File.imports p) := Rep.overKids p (by picks)
theorem fileMessages_rep (p) : Rep (Steps Eq) (File.messages p) (File.messages p) := Rep.overKids p (by picks)
theorem fileEnums_rep (p) : Rep (Steps Eq) (File.enums p) (File.enums p) := Rep.overKids p (by picks)
theorem fileTypes_rep (p) : Rep (Steps Eq) (File.types p) (File.types p) := Rep.overKids p (by picks)
theorem fileServices_rep (p) : Rep (Steps Eq) (File.services p) (File.services p) := Rep.overKids p (by picks)
theorem messageFields_rep (p) : Rep (Steps Eq) (Message.fields p) (Message.fields p) := Rep.overKids p (by picks)
theorem messageMessages_rep (p) : Rep (Steps Eq) (Message.messages p) (Message.messages p) := Rep.overKids p (by picks)
theorem messageTypes_rep (p) : Rep (Steps Eq) (Message.types p) (Message.types p) := Rep.overKids p (by picks)
theorem enumValues_rep (p) : Rep (Steps Eq) (Enum.values p) (Enum.values p) := Rep.overKids p (by picks)
theorem enumEnums_rep (p) : Rep (Steps Eq) (Enum.enums p) (Enum.enums p) := Rep.overKids p (by picks)
theorem oneofBranches_rep (p) : Rep (Steps Eq) (OneOf.branches p) (OneOf.branches p) := Rep.overKids p (by picks)
theorem serviceMethods_rep (p) : Rep (Steps Eq) (Service.methods p) (Service.methods p) := Rep.overKids p (by picks)

theorem everythingStep_rep {c q k s} (h : everythingStep c q k = some s) : Rep UptoO s s := by
  unfold everythingStep at h
  split at h <;> simp at h <;> subst h
  · refine Rep.bind (Same.optionClass _) ?_
    rintro cls _ rfl
    exact Rep.bind (wrapOption_rep _ _) fun x y e => Rep.pure (.some e)
  · exact Rep.ofSame UptoO.refl (Same.wrap _)

theorem everything_rep (c p) : Rep (Steps UptoO) (overKids p (everythingStep c)) (overKids p (everythingStep c)) :=
  Rep.overKids p fun _ _ _ h => everythingStep_rep h

theorem methodOptions_rep (p) : Rep (Steps Upto) (Method.options p) (Method.options p) := by
  refine Rep.overKids p fun q k s h => ?_
  split at h <;> simp at h <;> subst h
  refine Rep.bind (Same.optionClass _) ?_
  rintro cls _ rfl
  exact wrapOption_rep _ _

theorem seqOptions_rep (sc cl p) : Rep (Rep (Steps Upto)) (seqOptions sc cl p) (seqOptions sc cl p) := by
  refine Rep.bind (Same.optionClass _) ?_
  rintro cls _ rfl
  refine Rep.pure (Rep.overKids p fun q k s h => ?_)
  split at h <;> simp at h <;> subst h
  exact newOption_rep _ _ _

theorem options_rep (n : Node) : Rep (Rep (Steps Upto)) (options n) (options n) := by
  unfold options
  split
  · refine Rep.read (by pfronts) fun r => ?_
    split
    all_goals first | exact seqOptions_rep _ _ _ | exact Rep.panic | skip
    split <;> first | exact seqOptions_rep _ _ _ | exact Rep.panic
  · exact Rep.read (by pfronts) fun r => seqOptions_rep _ _ _
  · exact Rep.panic

theorem namedOption_rep (n s c p) : Rep UptoO (namedOption n s c p) (namedOption n s c p) := by
  refine Rep.bind (Same.optionClass _) ?_
  rintro cls _ rfl
  refine Rep.read (by pfronts) fun r => ?_
  split
  · exact Rep.bind (newOption_rep _ _ _) fun x y e => Rep.pure (.some e)
  · exact Rep.pure .none

theorem optionNamed_rep (n : Node) (s : Str) : Rep UptoO (optionNamed n s) (optionNamed n s) := by
  unfold optionNamed
  split
  · refine Rep.read (by pfronts) fun r => ?_
    split
    all_goals first | exact namedOption_rep _ _ _ _ | exact Rep.panic | skip
    split <;> first | exact namedOption_rep _ _ _ _ | exact Rep.panic
  · exact Rep.read (by pfronts) fun r => namedOption_rep _ _ _ _
  · exact Rep.panic

/-! ### Field types -/

theorem Same.fieldType (a : Nat) (p : Ptr) : Same (MessageField.type a p) := by
  constructor; intro r x r1 e
  have ei : (MessageField.type a p).alone = Protoast.MessageField.type a p := Is.MessageField_type a p
  rw [ei] at e
  have hro : CacheExt r r1 := by
    have := RO.fieldType a p r
    rw [e] at this
    exact this
  refine ⟨hro, fun T hT r' hr' => ?_⟩
  have hc : r1.ftcache a = some x := by
    unfold Protoast.MessageField.type at e
    cases h : r.ftcache a with
    | some t => rw [h] at e; cases e; exact h
    | none =>
      rw [h] at e
      simp only at e
      rcases hb : Protoast.fieldTypeBody p r with ⟨res, r2⟩
      rw [hb] at e
      cases res with
      | ok t => cases e; simp [upd]
      | panic q => cases e
      | timeout => cases e
  have hc' : r'.ftcache a = some x := by
    have e : r' = { T with next := r'.next } := hr'
    rw [e]
    exact hT.ftcache a x hc
  show ReadsTo T (Eq x) (P.handle _ _ (P.ret r'))
  simp only [P.handle, hc']
  rfl

theorem ReadsTo.lookup {T : Reg} {p : Ptr} {n : Str} {Q : Option Node → Prop} (hT : T.isRepeatedField p = false)
    (h : ReadsTo T Q (Small.lookupType p n)) : ReadsTo T Q (Small.getTypeByName p n) := by
  refine ReadsTo.bind h fun x hx r hr => ?_
  have e : r = { T with next := r.next } := hr
  have : r.isRepeatedField p = false := by rw [e]; exact hT
  show ReadsTo T Q (P.handle _ _ (P.ret r))
  simp only [P.handle, this]
  exact hx

theorem Same.branchType (p) : Same (OneOfBranch.type p) := by
  constructor; intro r x r1 e
  have ei : (OneOfBranch.type p).alone = Protoast.OneOfBranch.type p := Is.OneOfBranch_type p
  rw [ei] at e
  rw [Protoast.Again.branchType_eq] at e
  simp only [M.bind_apply, M.get_apply] at e
  cases h : r.kind p with
  | none => rw [h] at e; cases e
  | some k =>
    rw [h] at e
    cases k
    case oneofField a t b =>
      have el : (Small.lookupType p t).alone = Protoast.lookupType p t := Is.lookupType p t
      have e' : (Small.lookupType p t).alone r = (.ok x, r1) := by rw [el]; exact e
      obtain ⟨h1, h2⟩ := (Same.lookupType p t).run r x r1 e'
      refine ⟨h1, fun T hT r' hr' => ?_⟩
      have hk : r'.kind p = some (.oneofField a t b) := by rw [(front_of (h1.trans hT) hr').kind]; exact h
      have hk' : T.kind p = some (.oneofField a t b) := by rw [(front_of (h1.trans hT) (r' := T) rfl).kind]; exact h
      show ReadsTo T (Eq x) (P.handle _ _ (P.ret r'))
      simp only [P.handle, hk]
      exact ReadsTo.lookup (by simp [Reg.isRepeatedField, hk']) (h2 T hT)
    all_goals cases e

theorem assertKind_upto (k : WKind) {x y : Option Node} (h : TypeUpto x y) :
    Rep Eq (Small.assertKind k x) (Small.assertKind k y) := by
  cases h with
  | refl => exact Same.assertKind _ _
  | «repeated» => exact Rep.panic

theorem Same.methodInput (p) : Same (Method.input p) := by
  unfold Method.input
  refine Same.read (by pfronts) fun r => ?_
  split
  · refine Rep.bind (getTypeByName_rep _ _) fun x y h => ?_
    refine Rep.bind (assertKind_upto _ h) ?_
    rintro z _ rfl
    exact Rep.pure rfl
  · exact Rep.panic
theorem Same.methodOutput (p) : Same (Method.output p) := by
  unfold Method.output
  refine Same.read (by pfronts) fun r => ?_
  split
  · refine Rep.bind (getTypeByName_rep _ _) fun x y h => ?_
    refine Rep.bind (assertKind_upto _ h) ?_
    rintro z _ rfl
    exact Rep.pure rfl
  · exact Rep.panic
theorem Same.mapKey (p) : Same (Map.key p) := by unfold Map.key; sp
macro_rules | `(tactic| sp_lemma) => `(tactic| with_reducible exact Same.mapKey _)
theorem Same.mapValue (p) : Same (Map.value p) := by unfold Map.value; sp
macro_rules | `(tactic| sp_lemma) => `(tactic| with_reducible exact Same.mapValue _)

/-! ### Option values -/

mutual
theorem Same.buildFromLiteral (F : FloatOps) (o : Option Ptr) (f : Ptr) (ig : Bool) :
    (l : Literal) → Same (Small.buildFromLiteral F o f ig l)
  | .mk pos source array om => by
    have ha := Same.buildArray F f array
    have hi := fun mp => Same.buildItems F mp om
    unfold Small.buildFromLiteral
    simp only
    refine Same.read (by pfronts) fun r => ?_
    split
    · split
      · exact Same.bind ha fun _ => Same.pure _
      · split
        · split <;> sp
        · split <;> sp
        · split <;> sp
        · split <;> sp
        · sp
        · sp
        · refine Rep.bind (getTypeByName_rep _ _) fun x y h => ?_
          cases h with
          | «repeated» => exact Rep.panic
          | refl =>
            show Same _
            split
            · refine Same.bind (Same.firstKid _ _ _) fun _ => ?_
              sp
            · exact Same.bind (hi _) fun _ => Same.pure _
            · exact Same.panic
    · exact Same.panic
theorem Same.buildArray (F : FloatOps) (f : Ptr) : (ls : List Literal) → Same (Small.buildArray F f ls)
  | [] => by unfold Small.buildArray; sp
  | l :: ls => by
    have h1 := Same.buildFromLiteral F none f true l
    have h2 := Same.buildArray F f ls
    unfold Small.buildArray
    sp
theorem Same.buildItems (F : FloatOps) (m : Ptr) :
    (ls : List (Str × Literal)) → Same (Small.buildItems F m ls)
  | [] => by unfold Small.buildItems; sp
  | nl :: rest => by
    have h1 := Same.buildItem F m nl
    have h2 := Same.buildItems F m rest
    unfold Small.buildItems
    sp
theorem Same.buildItem (F : FloatOps) (m : Ptr) : (nl : Str × Literal) → Same (Small.buildItem F m nl)
  | (name, lit) => by
    have h1 := fun fp => Same.buildFromLiteral F none fp false lit
    unfold Small.buildItem Message.field
    repeat' (first | exact h1 _ | sp_lemma | sp_rule | intro _ | split)
end
macro_rules | `(tactic| sp_lemma) => `(tactic| with_reducible exact Same.buildFromLiteral _ _ _ _ _)

theorem Same.optionValue (F o f) : Same (Option.value F o f) := by unfold Option.value; sp
macro_rules | `(tactic| sp_lemma) => `(tactic| with_reducible exact Same.optionValue _ _ _)

/-! ### Meta queries -/

theorem Same.nodeIndex (n) : Same (Small.nodeIndex n) := by unfold Small.nodeIndex; sp
macro_rules | `(tactic| sp_lemma) => `(tactic| with_reducible exact Same.nodeIndex _)
theorem Same.comment (n) : Same (Small.comment n) := by unfold Small.comment; sp
macro_rules | `(tactic| sp_lemma) => `(tactic| with_reducible exact Same.comment _)

theorem Same.nodeDescription : (n : Node) → Same (Small.nodeDescription n)
  | .repeated _ (some t) => by
    have := Same.nodeDescription t
    unfold Small.nodeDescription; sp
  | .repeated _ none => by unfold Small.nodeDescription; sp
  | .wrapped _ _ _ | .option _ _ _ _ | .oneof _ _ | .map _ _ | .builtin _ | .value _
  | .mapItem _ _ => by unfold Small.nodeDescription; sp
macro_rules | `(tactic| sp_lemma) => `(tactic| with_reducible exact Same.nodeDescription _)

theorem Same.typeName : (n : Node) → Same (Small.typeName n)
  | .repeated _ (some t) => by
    have := Same.typeName t
    unfold Small.typeName; sp
  | .repeated _ none => by unfold Small.typeName; sp
  | .wrapped _ _ _ | .option _ _ _ _ | .oneof _ _ | .map _ _ | .builtin _ | .value _
  | .mapItem _ _ => by unfold Small.typeName; sp
macro_rules | `(tactic| sp_lemma) => `(tactic| with_reducible exact Same.typeName _)

theorem Same.nodeParent : (n : Node) → Same (Small.nodeParent n)
  | .repeated _ (some t) => by
    have := Same.nodeParent t
    unfold Small.nodeParent; sp
  | .repeated _ none => by unfold Small.nodeParent; sp
  | .wrapped _ _ _ | .option _ _ _ _ | .oneof _ _ | .map _ _ | .builtin _ | .value _
  | .mapItem _ _ => by unfold Small.nodeParent; sp
macro_rules | `(tactic| sp_lemma) => `(tactic| with_reducible exact Same.nodeParent _)

theorem Same.nodeHierarchy (n : Nat) : ∀ o, Same (Small.nodeHierarchy n o) := by
  induction n with
  | zero =>
    intro o
    cases o with
    | none => rw [Small.nodeHierarchy]; exact Same.pure _
    | some n => exact Rep.timeout
  | succ n ih =>
    intro o
    cases o
    · rw [Small.nodeHierarchy]; exact Same.pure _
    · rw [Small.nodeHierarchy]
      refine Same.bind (Same.nodeParent _) fun a => Same.bind (ih a) fun _ => Same.pure _
macro_rules | `(tactic| sp_lemma) => `(tactic| with_reducible exact Same.nodeHierarchy _ _)

theorem Same.elemPos (p) : Same (Small.elemPos p) := by unfold Small.elemPos; sp
macro_rules | `(tactic| sp_lemma) => `(tactic| with_reducible exact Same.elemPos _)
theorem Same.filePos (p) : Same (Small.filePos p) := by unfold Small.filePos; sp
macro_rules | `(tactic| sp_lemma) => `(tactic| with_reducible exact Same.filePos _)

theorem Same.nodePos : (n : Node) → Same (Small.nodePos n)
  | .repeated _ (some t) => by
    have := Same.nodePos t
    unfold Small.nodePos; sp
  | .repeated _ none => by unfold Small.nodePos; sp
  | .wrapped _ k _ => by cases k <;> (unfold Small.nodePos; sp)
  | .option _ _ _ _ | .oneof _ _ | .map _ _ | .builtin _ | .value _
  | .mapItem _ _ => by unfold Small.nodePos; sp
macro_rules | `(tactic| sp_lemma) => `(tactic| with_reducible exact Same.nodePos _)

theorem Same.nodeFile (n) : Same (Small.nodeFile n) := by unfold Small.nodeFile; sp
macro_rules | `(tactic| sp_lemma) => `(tactic| with_reducible exact Same.nodeFile _)
theorem Same.posBody (n) : Same (Small.posBody n) := by unfold Small.posBody; sp
theorem Same.lastFile : (l : List Node) → Same (Small.lastFile l)
  | [] => Same.panic
  | [n] => by
    unfold Small.lastFile
    split
    · sp
    · sp
    · sp
    · next h => simp at h
  | _ :: b :: rest => by
    rw [Small.lastFile]
    exact Same.lastFile (b :: rest)
macro_rules | `(tactic| sp_lemma) => `(tactic| with_reducible exact Same.lastFile _)
theorem Same.fileName (p) : Same (File.name p) := by unfold File.name; sp
macro_rules | `(tactic| sp_lemma) => `(tactic| with_reducible exact Same.fileName _)
theorem Same.posDefer (a b c) : Same (Small.posDefer a b c) := by unfold Small.posDefer; sp

theorem ReadsTo.handle {α β : Type} {T : Reg} {Q : α → Prop} {Q' : β → Prop} {p : P α} {f : α → P β} {g : Panic → P β}
    (h : ReadsTo T Q p) (k : ∀ x, Q x → ReadsTo T Q' (f x)) : ReadsTo T Q' (p.handle f g) := by
  induction p with
  | ret x => exact k x h
  | read k' ih => exact fun r hr => ih r (h r hr)
  | alloc k' ih => exact fun n => ih n (h n)
  | _ => exact h.elim

theorem Same.pos (fuel n) : Same (Small.pos fuel n) := by
  constructor
  intro r x r1 e
  unfold Small.pos at e ⊢
  rw [alone_handle] at e
  rcases hb : (Small.posBody n).alone r with ⟨res, r2⟩
  rw [hb] at e
  cases res with
  | ok a =>
    simp only at e
    obtain ⟨h1, h2⟩ := (Same.posBody n).run r a r2 hb
    obtain ⟨h3, h4⟩ := (Same.posDefer fuel n a).run r2 x r1 e
    refine ⟨h1.trans h3, fun T hT => (h2 T (h3.trans hT)).handle ?_⟩
    rintro _ rfl
    exact h4 T hT
  | panic p =>
    exfalso
    simp only [alone_bind] at e
    rcases hd : (Small.posDefer fuel n {}).alone r2 with ⟨res, r3⟩
    rw [hd] at e
    cases res <;> cases e
  | timeout => cases e
macro_rules | `(tactic| sp_lemma) => `(tactic| with_reducible exact Same.pos _ _)

theorem Same.typeIsDefined (n s) : Same (Small.typeIsDefined n s) := by unfold Small.typeIsDefined; sp
macro_rules | `(tactic| sp_lemma) => `(tactic| with_reducible exact Same.typeIsDefined _ _)
theorem Same.goPackageOption (n) : Same (Small.goPackageOption n) := by unfold Small.goPackageOption; sp
macro_rules | `(tactic| sp_lemma) => `(tactic| with_reducible exact Same.goPackageOption _)
theorem Same.optionName (a b c) : Same (Option.name a b c) := by unfold Option.name; sp
macro_rules | `(tactic| sp_lemma) => `(tactic| with_reducible exact Same.optionName _ _ _)
theorem Same.optionIs (f s) : Same (Option.is f s) := by unfold Option.is; sp
macro_rules | `(tactic| sp_lemma) => `(tactic| with_reducible exact Same.optionIs _ _)

theorem goPackageBody_rep (s) {x y : Option Node} (h : UptoO x y) :
    Rep Eq (Small.goPackageBody s x) (Small.goPackageBody s y) := by
  have hs : ∀ x, Same (Small.goPackageBody s x) := by intro x; unfold Small.goPackageBody; sp
  cases h with
  | none => exact hs _
  | some h => cases h with
    | refl => exact hs _
    | option => exact hs _

theorem Same.goPackage (n) : Same (Small.goPackage n) := by
  unfold Small.goPackage
  refine Same.bind (Same.nodeFile n) fun f => ?_
  split
  · refine Same.bind (Rep.bind (everything_rep _ _) fun l1 l2 h => ?_) fun _ => ?_
    · exact Rep.runSteps (R := UptoO) (fun st x y e => goPackageBody_rep st e) h _
    · sp
  · exact Same.pure _
macro_rules | `(tactic| sp_lemma) => `(tactic| with_reducible exact Same.goPackage _)

/-! ### Calls -/

theorem nth_upto {q : Seq Node} (h : Rep (Steps Eq) q q) (i : Nat) : Rep UptoO (q.nth i) (q.nth i) :=
  (Rep.nth h i).mono fun x y e => by
    cases e with
    | none => exact .none
    | some e => subst e; exact .some (.refl _)

theorem nth_upto' {q q' : Seq Node} (h : Rep (Steps Upto) q q') (i : Nat) : Rep UptoO (q.nth i) (q'.nth i) :=
  (Rep.nth h i).mono fun x y e => by
    cases e with
    | none => exact .none
    | some e => exact .some e

theorem nth_flat {q : Seq (Option Node)} (h : Rep (Steps UptoO) q q) (i : Nat) :
    Rep UptoO (q.nth i >>= fun x => Pure.pure (flatOpt x)) (q.nth i >>= fun x => Pure.pure (flatOpt x)) :=
  Rep.bind (Rep.nth h i) fun x y e => by
    cases e with
    | none => exact Rep.pure .none
    | some e => exact Rep.pure e

theorem iter_rep (q : IterQ) (n : Node) (i : Nat) : Rep UptoO (IterQ.run q n i) (IterQ.run q n i) := by
  unfold IterQ.run
  split
  · exact nth_upto (fileImports_rep _) i
  · exact nth_upto (fileMessages_rep _) i
  · exact nth_upto (fileEnums_rep _) i
  · exact nth_upto (fileTypes_rep _) i
  · exact nth_upto (fileServices_rep _) i
  · exact nth_flat (everything_rep _ _) i
  · exact nth_upto (messageFields_rep _) i
  · exact nth_upto (messageMessages_rep _) i
  · exact nth_upto (messageTypes_rep _) i
  · exact nth_flat (everything_rep _ _) i
  · exact nth_upto (enumValues_rep _) i
  · exact nth_upto (enumEnums_rep _) i
  · exact nth_flat (everything_rep _ _) i
  · exact nth_upto (oneofBranches_rep _) i
  · exact nth_upto (serviceMethods_rep _) i
  · exact nth_flat (everything_rep _ _) i
  · exact nth_upto' (methodOptions_rep _) i
  · exact Rep.bind (options_rep _) fun s1 s2 h => nth_upto' h i
  · exact Rep.pure .none

theorem Same.fileType (p n) : Same (File.type p n) := by unfold File.type; sp
theorem Same.messageType (p n) : Same (Message.type p n) := by unfold Message.type; sp

theorem named_rep (q : NamedQ) (n : Node) (s : Str) : Rep UptoO (NamedQ.run q n s) (NamedQ.run q n s) := by
  have h : ∀ {m : P (Option Node)}, Same m → Rep UptoO m m := Rep.ofSame UptoO.refl
  unfold NamedQ.run
  split
  · exact h (Same.firstKid _ _ _)
  · exact h (Same.firstKid _ _ _)
  · exact h (Same.fileType _ _)
  · exact h (Same.firstKid _ _ _)
  · exact h (Same.firstKid _ _ _)
  · exact h (Same.firstKid _ _ _)
  · exact h (Same.messageType _ _)
  · exact h (Same.firstKid _ _ _)
  · exact h (Same.firstKid _ _ _)
  · exact h (Same.firstKid _ _ _)
  · exact h (Same.firstKid _ _ _)
  · exact optionNamed_rep _ _
  · exact Rep.pure .none

macro_rules | `(tactic| sp_lemma) => `(tactic| with_reducible exact Same.fieldType _ _)
macro_rules | `(tactic| sp_lemma) => `(tactic| with_reducible exact Same.branchType _)
macro_rules | `(tactic| sp_lemma) => `(tactic| with_reducible exact Same.methodInput _)
macro_rules | `(tactic| sp_lemma) => `(tactic| with_reducible exact Same.methodOutput _)

/-- Unfold the small accessors. -/
macro "smallp" : tactic => `(tactic| (
  try unfold Message.name
  try unfold Enum.name
  try unfold EnumValue.name
  try unfold MessageField.name
  try unfold OneOfBranch.name
  try unfold Service.name
  try unfold Method.name
  try unfold File.package
  try unfold Package.package
  try unfold Message.isExtension
  try unfold MessageField.value
  try unfold EnumValue.value
  try unfold OneOfBranch.value
  try unfold MessageField.optional
  try unfold Import.path
  try unfold Syntax.value))

theorem reservedValues_rep (p) : Rep (Steps Eq) (Reserved.values p) (Reserved.values p) := by
  unfold Reserved.values
  refine Rep.read (by pfronts) fun r => ?_
  split
  · exact Rep.pure ((AllRel.of_eq (fun _ => Same.pure _) _).append (AllRel.of_eq (fun _ => Same.pure _) _))
  · exact Rep.panic

theorem Same.attr (a : Attr) (n : Node) : Same (Attr.read a n) := by
  unfold Attr.read
  split
  all_goals smallp
  all_goals try (sp; done)
  refine Rep.bind (reservedValues_rep _) fun l1 l2 h => ?_
  exact Rep.bind (Same.collectSteps h) fun x y e => by subst e; exact Rep.pure rfl
macro_rules | `(tactic| sp_lemma) => `(tactic| with_reducible exact Same.attr _ _)

end Protoast.Small.Again
