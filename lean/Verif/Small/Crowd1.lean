import Verif.Small.Blur
import Verif.Small.Again
/-
  Programs that are interrupted by others which only fill the caches: a program logic with rely and guarantee.
  `T` is the registry at the start. A program is compared with what it comes to if it only ever sees `T` (`P.static`).
-/
namespace Protoast.Small.Crowd
open Protoast
open Protoast.Quiet (Front)

/-- What the program comes to if it always sees the registry `T`: writes are lost, new nodes all get the same address. -/
def static {α : Type} (T : Reg) : P α → Res α
  | .ret x => .ok x
  | .panic e => .panic e
  | .timeout => .timeout
  | .read k => static T (k T)
  | .alloc k => static T (k T.next)
  | .parse _ k => static T (k T.heap.length)
  | .write _ k => static T k

/-- Which address belongs to which field. (Other nodes get an arbitrary entry.) -/
abbrev Typing := Nat → Ptr → Prop

def Typing.le (s s' : Typing) : Prop := ∀ a p, s a p → s' a p
def Typing.add (s : Typing) (a : Nat) (p : Ptr) : Typing := fun b q => s b q ∨ (b = a ∧ q = p)

theorem Typing.le.refl (s : Typing) : s.le s := fun _ _ h => h
theorem Typing.le.trans {s s' s'' : Typing} (h : s.le s') (g : s'.le s'') : s.le s'' := fun a p e => g a p (h a p e)
theorem Typing.le_add (s : Typing) (a p) : s.le (s.add a p) := fun _ _ h => .inl h

/-- A handle in use: a field handle has the address of its field. -/
def Typed (T : Reg) (s : Typing) : Node → Prop
  | .wrapped a .messageField p => s a p ∧ T.wrapTarget (.at p) = some (.messageField, p)
  | .repeated _ (some t) => Typed T s t
  | _ => True

theorem Typed.mono {T : Reg} {s s' : Typing} (h : s.le s') : {n : Node} → Typed T s n → Typed T s' n
  | .wrapped a k p, g => by
    cases k <;> first | trivial | exact ⟨h _ _ g.1, g.2⟩
  | .repeated _ (some t), g => Typed.mono h (n := t) g
  | .repeated _ none, _ => trivial
  | .option .., _ | .oneof .., _ | .map .., _ | .builtin .., _ | .value .., _ | .mapItem .., _ => trivial

/-- `t` is the type of the field at `p`. -/
def TypeOf (T : Reg) (s : Typing) (p : Ptr) (t : Option Node) : Prop :=
  static T (fieldTypeBody p) = .ok (t.map (blur T.next)) ∧ ∀ n, t = some n → Typed T s n

theorem TypeOf.mono {T s s' p t} (h : Typing.le s s') (g : TypeOf T s p t) : TypeOf T s' p t :=
  ⟨g.1, fun n e => (g.2 n e).mono h⟩

/-- The registry differs from `T` only in correct new entries of the caches. -/
structure GoodReg (T : Reg) (s : Typing) (r : Reg) : Prop where
  front : Front T r
  next : T.next ≤ r.next
  dom : ∀ a p, s a p → a < r.next
  inj : ∀ a p q, s a p → s a q → p = q
  old : ∀ v n, T.cache v = some n → r.cache v = some n
  oldOk : ∀ v n, T.cache v = some (some n) → Typed T s n ∧ blur T.next n = n ∧ ∃ a k p, n = .wrapped a k p ∧
    T.wrapTarget v = some (k, p)
  new : ∀ v n, T.cache v = none → r.cache v = some n → ∃ a k p, T.wrapTarget v = some (k, p) ∧
    n = some (.wrapped a k p) ∧ T.next ≤ a ∧ Typed T s (.wrapped a k p)
  ftOld : ∀ a t, T.ftcache a = some t → r.ftcache a = some t
  ftOk : ∀ a t, T.ftcache a = some t → a < T.next ∧ ∀ n, t = some n → Typed T s n ∧ blur T.next n = n
  ftNew : ∀ a t, T.ftcache a = none → r.ftcache a = some t → ∀ p, s a p → TypeOf T s p t
  ftDom : ∀ a t, r.ftcache a = some t → a < r.next

/-- A write that keeps the registry good. -/
def WriteOk (T : Reg) (s : Typing) : Write → Prop
  | .node v n => T.cache v = none ∧ ∃ a k p, T.wrapTarget v = some (k, p) ∧ n = some (.wrapped a k p) ∧ T.next ≤ a ∧
      Typed T s (.wrapped a k p)
  | .fieldType a t => T.ftcache a = none ∧ ∃ p, s a p ∧ TypeOf T s p t
  | _ => False

theorem WriteOk.mono {T s s'} (h : Typing.le s s') {w} (g : WriteOk T s w) : WriteOk T s' w := by
  cases w with
  | node v n =>
    obtain ⟨g1, a, k, p, g2, g3, g4, g5⟩ := g
    exact ⟨g1, a, k, p, g2, g3, g4, g5.mono h⟩
  | fieldType a t =>
    obtain ⟨g1, p, g2, g3⟩ := g
    exact ⟨g1, p, h _ _ g2, g3.mono h⟩
  | _ => exact g

theorem GoodReg.write {T s r w} (h : GoodReg T s r) (g : WriteOk T s w) : GoodReg T s (w.apply r) := by
  cases w with
  | node v n =>
    obtain ⟨g1, a, k, p, g2, g3, g4, g5⟩ := g
    refine { h with front := ⟨h.front.heap, h.front.protos, h.front.names, h.front.scopes⟩, old := ?_, new := ?_ }
    · intro w m e
      have : w ≠ v := by intro e'; subst e'; rw [g1] at e; cases e
      simp only [Write.apply, upd, this, if_false]
      exact h.old _ _ e
    · intro w m e e'
      simp only [Write.apply, upd] at e'
      split at e'
      · rename_i hw
        subst hw
        cases e'
        exact ⟨a, k, p, g2, g3, g4, g5⟩
      · exact h.new _ _ e e'
  | fieldType a t =>
    obtain ⟨g1, p, g2, g3⟩ := g
    have hf : Front T ((Write.fieldType a t).apply r) := ⟨h.front.heap, h.front.protos, h.front.names, h.front.scopes⟩
    refine { h with front := hf, ftOld := ?_, ftNew := ?_, ftDom := ?_ }
    · intro b u e
      have : b ≠ a := by intro e'; subst e'; rw [g1] at e; cases e
      simp only [Write.apply, upd, this, if_false]
      exact h.ftOld _ _ e
    · intro b u e e' q hq
      simp only [Write.apply, upd] at e'
      split at e'
      · rename_i hb
        subst hb
        cases e'
        rw [h.inj _ _ _ hq g2]
        exact g3
      · exact h.ftNew _ _ e e' q hq
    · intro b u e
      simp only [Write.apply, upd] at e
      split at e
      · rename_i hb
        subst hb
        exact h.dom _ _ g2
      · exact h.ftDom _ _ e
  | _ => exact g.elim

theorem GoodReg.alloc {T s r} (h : GoodReg T s r) (p : Ptr) :
    GoodReg T (s.add r.next p) { r with next := r.next + 1 } where
  front := ⟨h.front.heap, h.front.protos, h.front.names, h.front.scopes⟩
  next := Nat.le_succ_of_le h.next
  dom a q e := by
    rcases e with e | ⟨rfl, -⟩
    · exact Nat.lt_succ_of_lt (h.dom _ _ e)
    · exact Nat.lt_succ_self _
  inj a q q' e e' := by
    rcases e with e | ⟨rfl, rfl⟩ <;> rcases e' with e' | ⟨e1, e2⟩
    · exact h.inj _ _ _ e e'
    · subst e1; exact absurd (h.dom _ _ e) (Nat.lt_irrefl _)
    · exact absurd (h.dom _ _ e') (Nat.lt_irrefl _)
    · exact e2.symm
  old := h.old
  oldOk v n e := ⟨(h.oldOk v n e).1.mono (Typing.le_add _ _ _), (h.oldOk v n e).2⟩
  new v n e e' := by
    obtain ⟨a, k, q, h1, h2, h3, h4⟩ := h.new v n e e'
    exact ⟨a, k, q, h1, h2, h3, h4.mono (Typing.le_add _ _ _)⟩
  ftOld := h.ftOld
  ftOk a t e := ⟨(h.ftOk a t e).1, fun n hn => ⟨((h.ftOk a t e).2 n hn).1.mono (Typing.le_add _ _ _), ((h.ftOk a t e).2 n hn).2⟩⟩
  ftNew a t e e' q hq := by
    rcases hq with hq | ⟨rfl, -⟩
    · exact (h.ftNew a t e e' q hq).mono (Typing.le_add _ _ _)
    · exact absurd (h.ftDom _ _ e') (Nat.lt_irrefl _)
  ftDom a t e := Nat.lt_succ_of_lt (h.ftDom a t e)

/-- Panics that leave a nil behind. -/
def Spoils (e : Panic) : Prop := e = .unsupportedType ∨ e = .notAType

/-- The program panics with `e`, after writes at most. -/
def Fails {α : Type} (e : Panic) : P α → Prop
  | .panic e' => e' = e
  | .write _ k => Fails e k
  | _ => False

/-- Among others that keep the registry good, the program keeps it good and comes to a result with the property `Q`,
    unless it panics and leaves a nil behind. -/
def Runs {α : Type} (T : Reg) (Q : Typing → Res α → Prop) : P α → Typing → Prop
  | .ret x, s => Q s (.ok x)
  | .panic e, s => Q s (.panic e)
  | .timeout, s => Q s .timeout
  | .read k, s => ∀ s', Typing.le s s' → ∀ r, GoodReg T s' r → Runs T Q (k r) s'
  | .alloc k, s => ∀ s', Typing.le s s' → ∀ a, T.next ≤ a → ∃ p, Runs T Q (k a) (s'.add a p)
  | .parse _ _, _ => False
  | .write w k, s => (WriteOk T s w ∧ Runs T Q k s) ∨ ∃ e, Spoils e ∧ Fails e k ∧ Q s (.panic e)

section
variable {α β γ δ : Type} {T : Reg}

theorem Runs.weaken {Q : Typing → Res α → Prop} (hQ : ∀ s s' x, Typing.le s s' → Q s x → Q s' x) {p : P α} {s s' : Typing}
    (hs : s.le s') (h : Runs T Q p s) : Runs T Q p s' := by
  induction p generalizing s s' with
  | ret x => exact hQ _ _ _ hs h
  | panic e => exact hQ _ _ _ hs h
  | timeout => exact hQ _ _ _ hs h
  | read k _ => exact fun s'' hs' r hr => h s'' (hs.trans hs') r hr
  | alloc k _ => exact fun s'' hs' a ha => h s'' (hs.trans hs') a ha
  | parse f k _ => exact h
  | write w k ih =>
    rcases h with ⟨h1, h2⟩ | ⟨e, h1, h2, h3⟩
    · exact .inl ⟨h1.mono hs, ih hs h2⟩
    · exact .inr ⟨e, h1, h2, hQ _ _ _ hs h3⟩

theorem Runs.mono {Q Q' : Typing → Res α → Prop} {p : P α} {s : Typing} (h : Runs T Q p s)
    (hQ : ∀ s' x, s.le s' → Q s' x → Q' s' x) : Runs T Q' p s := by
  induction p generalizing s with
  | ret x => exact hQ _ _ (.refl _) h
  | panic e => exact hQ _ _ (.refl _) h
  | timeout => exact hQ _ _ (.refl _) h
  | read k ih => exact fun s' hs r hr => ih r (h s' hs r hr) fun s'' x h' => hQ s'' x (hs.trans h')
  | alloc k ih =>
    intro s' hs a ha
    obtain ⟨p, h⟩ := h s' hs a ha
    exact ⟨p, ih a h fun s'' x h' => hQ s'' x ((hs.trans (Typing.le_add _ _ _)).trans h')⟩
  | parse f k _ => exact h
  | write w k ih =>
    rcases h with ⟨h1, h2⟩ | ⟨e, h1, h2, h3⟩
    · exact .inl ⟨h1, ih h2 hQ⟩
    · exact .inr ⟨e, h1, h2, hQ _ _ (.refl _) h3⟩

theorem Fails.handle {e : Panic} {p : P α} (h : Fails e p) {f : α → P β} {g : Panic → P β} (hg : Fails e (g e)) :
    Fails e (p.handle f g) := by
  induction p with
  | panic e' =>
    have : e' = e := h
    subst this
    exact hg
  | write w k ih => exact ih h
  | _ => exact h.elim

theorem Runs.handle {Q : Typing → Res α → Prop} {Q' : Typing → Res β → Prop} {p : P α} {f : α → P β} {g : Panic → P β}
    {s : Typing} (h : Runs T Q p s) (ok : ∀ s' x, s.le s' → Q s' (.ok x) → Runs T Q' (f x) s')
    (failed : ∀ s' e, s.le s' → Q s' (.panic e) → Runs T Q' (g e) s')
    (out : ∀ s', s.le s' → Q s' .timeout → Q' s' .timeout)
    (spoils : ∀ s' e, s.le s' → Spoils e → Q s' (.panic e) → Fails e (g e) ∧ Q' s' (.panic e)) :
    Runs T Q' (p.handle f g) s := by
  induction p generalizing s with
  | ret x => exact ok _ _ (.refl _) h
  | panic e => exact failed _ _ (.refl _) h
  | timeout => exact out _ (.refl _) h
  | read k ih =>
    exact fun s' hs r hr => ih r (h s' hs r hr) (fun s'' x h' => ok s'' x (hs.trans h'))
      (fun s'' x h' => failed s'' x (hs.trans h')) (fun s'' h' => out s'' (hs.trans h'))
      (fun s'' e h' => spoils s'' e (hs.trans h'))
  | alloc k ih =>
    intro s' hs a ha
    obtain ⟨p, h⟩ := h s' hs a ha
    have hs := hs.trans (Typing.le_add s' a p)
    exact ⟨p, ih a h (fun s'' x h' => ok s'' x (hs.trans h'))
      (fun s'' x h' => failed s'' x (hs.trans h')) (fun s'' h' => out s'' (hs.trans h'))
      (fun s'' e h' => spoils s'' e (hs.trans h'))⟩
  | parse f' k _ => exact h
  | write w k ih =>
    rcases h with ⟨h1, h2⟩ | ⟨e, h1, h2, h3⟩
    · exact .inl ⟨h1, ih h2 ok failed out spoils⟩
    · obtain ⟨h4, h5⟩ := spoils _ e (.refl _) h1 h3
      exact .inr ⟨e, h1, h2.handle h4, h5⟩

theorem static_handle (ok : α → P β) (failed : Panic → P β) (p : P α) :
    static T (p.handle ok failed) = match static T p with
      | .ok x => static T (ok x)
      | .panic e => static T (failed e)
      | .timeout => .timeout := by
  induction p with
  | ret x => rfl
  | panic e => rfl
  | timeout => rfl
  | read k ih => exact ih T
  | alloc k ih => exact ih _
  | parse f k ih => exact ih _
  | write w k ih => exact ih

theorem static_bind (p : P α) (f : α → P β) : static T (p >>= f) = match static T p with
    | .ok x => static T (f x)
    | .panic e => .panic e
    | .timeout => .timeout := static_handle f .panic p

/-- Among others, `p` comes to what `q` comes to when it always sees `T`. -/
def Sim (T : Reg) (s : Typing) (R : Typing → α → β → Prop) (p : P α) (q : P β) : Prop :=
  Runs T (fun s' x => Protoast.ResRel (R s') x (static T q)) p s

variable {s : Typing}

theorem Sim.pure {R : Typing → α → β → Prop} {x y} (h : R s x y) : Sim T s R (Pure.pure x) (Pure.pure y) := by
  show Protoast.ResRel (R s) (.ok x) (.ok y)
  exact h
theorem Sim.panic {R : Typing → α → β → Prop} {e} : Sim T s R (P.panic e) (P.panic e) := by
  show Protoast.ResRel (R s) (.panic e) (.panic e)
  rfl
theorem Sim.timeout {R : Typing → α → β → Prop} : Sim T s R P.timeout P.timeout := by
  show Protoast.ResRel (R s) .timeout .timeout
  trivial

theorem Sim.mono {R S : Typing → α → β → Prop} {m m'} (h : Sim T s R m m') (hRS : ∀ s' x y, s.le s' → R s' x y → S s' x y) :
    Sim T s S m m' :=
  Runs.mono h fun s' x hs hx => by
    revert hx
    cases x <;> cases static T m' <;> simp only [Protoast.ResRel] <;> first | exact id | exact hRS _ _ _ hs

theorem Sim.bind {R : Typing → α → β → Prop} {S : Typing → γ → δ → Prop} {m m'} {f : α → P γ} {g : β → P δ}
    (h : Sim T s R m m') (k : ∀ s' x y, s.le s' → R s' x y → Sim T s' S (f x) (g y)) :
    Sim T s S (m >>= f) (m' >>= g) := by
  unfold Sim at *
  rw [static_bind]
  refine Runs.handle h ?_ ?_ ?_ ?_
  · intro s' x hs hx
    cases hm : static T m' with
    | ok y => rw [hm] at hx; exact k s' x y hs hx
    | panic e => rw [hm] at hx; exact hx.elim
    | timeout => rw [hm] at hx; exact hx.elim
  · intro s' e hs hx
    cases hm : static T m' with
    | ok y => rw [hm] at hx; exact hx.elim
    | panic e' => rw [hm] at hx; exact hx
    | timeout => rw [hm] at hx; exact hx.elim
  · intro s' hs hx
    cases hm : static T m' with
    | ok y => rw [hm] at hx; exact hx.elim
    | panic e' => rw [hm] at hx; exact hx.elim
    | timeout => trivial
  · intro s' e hs _ hx
    refine ⟨rfl, ?_⟩
    cases hm : static T m' with
    | ok y => rw [hm] at hx; exact hx.elim
    | panic e' => rw [hm] at hx; exact hx
    | timeout => rw [hm] at hx; exact hx.elim

theorem Sim.get {S : Typing → γ → δ → Prop} {f : Reg → P γ} {g : Reg → P δ}
    (k : ∀ s' r, s.le s' → GoodReg T s' r → Sim T s' S (f r) (g T)) : Sim T s S (P.get >>= f) (P.get >>= g) :=
  fun s' hs r hr => k s' r hs hr

theorem Sim.read {S : Typing → γ → δ → Prop} {f : Reg → P γ} {g : Reg → P δ} (hf : ∀ r1 r2, Front r1 r2 → f r2 = f r1)
    (k : ∀ s', s.le s' → Sim T s' S (f T) (g T)) : Sim T s S (P.get >>= f) (P.get >>= g) :=
  Sim.get fun s' r hs hr => by rw [hf T r hr.front]; exact k s' hs

theorem Sim.alloc {S : Typing → γ → δ → Prop} {f : Nat → P γ} {g : Nat → P δ}
    (k : ∀ s' a, s.le s' → T.next ≤ a → ∃ p, Sim T (s'.add a p) S (f a) (g T.next)) :
    Sim T s S (P.new >>= f) (P.new >>= g) :=
  fun s' hs a ha => k s' a hs ha

end

/-! ### Related values -/

variable {T : Reg}

/-- Equal values. -/
abbrev EqR {α : Type} : Typing → α → α → Prop := fun _ x y => x = y
/-- The node, apart from its identity if it is new. -/
def NodeR (T : Reg) (s : Typing) (x y : Node) : Prop := y = blur T.next x ∧ Typed T s x
/-- The possibly nil node, apart from its identity if it is new. -/
def OptR (T : Reg) (s : Typing) (x y : Option Node) : Prop := y = x.map (blur T.next) ∧ ∀ n, x = some n → Typed T s n
/-- The value, apart from the identity of new nodes in it. -/
def ValR (T : Reg) (_ : Typing) (x y : OptVal) : Prop := y = blurVal T.next x

/-- What `wrap` gives. -/
def WrapR (T : Reg) (s : Typing) (x y : Option Node) : Prop :=
  OptR T s x y ∧ ∀ n, x = some n → ∃ a k p, n = .wrapped a k p

theorem NodeR.some {s x y} (h : NodeR T s x y) : OptR T s (some x) (some y) :=
  ⟨by rw [h.1]; rfl, fun n e => by cases e; exact h.2⟩
theorem OptR.none {s} : OptR T s none none := ⟨rfl, fun n e => by cases e⟩

theorem min_next {a : Nat} (h : T.next ≤ a) : min a T.next = T.next := Nat.min_eq_right h

theorem wrapTarget_ptr {r : Reg} {v k p} (h : r.wrapTarget v = some (k, p)) : v = .at p := (wrapTarget_deep h).1

theorem Sim.wrap {s : Typing} (v : Vis) : Sim T s (WrapR T) (Small.wrap v) (Small.wrap v) := by
  unfold Small.wrap
  refine Sim.get fun s' r hs hr => ?_
  cases hT : T.cache v with
  | some n =>
    rw [hr.old v n hT]
    refine Sim.pure ⟨⟨?_, ?_⟩, ?_⟩
    · cases n with
      | none => rfl
      | some n => simp [(hr.oldOk v n hT).2.1]
    · intro m e; subst e; exact (hr.oldOk v m hT).1
    · intro m e
      subst e
      obtain ⟨a, k, p, h1, -⟩ := (hr.oldOk v m hT).2.2
      exact ⟨a, k, p, h1⟩
  | none =>
    cases hc : r.cache v with
    | some n =>
      obtain ⟨a, k, p, h1, rfl, h3, h4⟩ := hr.new v n hT hc
      simp only [h1]
      exact ⟨⟨by simp [blur, min_next h3], fun n e => by cases e; exact h4⟩, fun n e => by cases e; exact ⟨_, _, _, rfl⟩⟩
    | none =>
      rw [hr.front.wrapTarget]
      cases ht : T.wrapTarget v with
      | none => exact .inr ⟨_, .inl rfl, rfl, rfl⟩
      | some kp =>
        rcases kp with ⟨k, p⟩
        intro s'' hs' a ha
        have hty : Typed T (s''.add a p) (.wrapped a k p) := by
          cases k <;> first | trivial | skip
          exact ⟨.inr ⟨rfl, rfl⟩, by rw [← wrapTarget_ptr ht]; exact ht⟩
        refine ⟨p, .inl ⟨⟨hT, a, k, p, ht, rfl, ha, hty⟩, ?_⟩⟩
        exact ⟨⟨by simp [blur, min_next ha], fun n e => by cases e; exact hty⟩, fun n e => by cases e; exact ⟨_, _, _, rfl⟩⟩

/-- A type assertion. -/
def KindR (T : Reg) (k : WKind) (s : Typing) (x y : Node) : Prop := NodeR T s x y ∧ ∃ a p, x = .wrapped a k p

theorem Sim.assertKind {s : Typing} (k : WKind) {x y} (h : OptR T s x y) :
    Sim T s (KindR T k) (Small.assertKind k x) (Small.assertKind k y) := by
  obtain ⟨rfl, hd⟩ := h
  cases x with
  | none => exact Sim.panic
  | some n =>
    have hd := hd n rfl
    cases n with
    | wrapped a k' p =>
      simp only [Option.map_some, blur, Small.assertKind]
      split
      · rename_i hk; subst hk; exact Sim.pure ⟨⟨rfl, hd⟩, _, _, rfl⟩
      · exact Sim.panic
    | «repeated» a t => cases t <;> exact Sim.panic
    | _ => exact Sim.panic

theorem Sim.wrapAs {s : Typing} (k p) : Sim T s (KindR T k) (Small.wrapAs k p) (Small.wrapAs k p) :=
  Sim.bind (Sim.wrap _) fun _ _ _ _ h => Sim.assertKind k h.1

theorem Sim.wrapNode {s : Typing} (k p) : Sim T s (NodeR T) (Small.wrapAs k p) (Small.wrapAs k p) :=
  (Sim.wrapAs k p).mono fun _ _ _ _ h => h.1

theorem Sim.some {s : Typing} {m m' : P Node} (h : Sim T s (NodeR T) m m') :
    Sim T s (OptR T) (m >>= fun n => Pure.pure (some n)) (m' >>= fun n => Pure.pure (some n)) :=
  Sim.bind h fun _ _ _ _ h => Sim.pure h.some

end Protoast.Small.Crowd
