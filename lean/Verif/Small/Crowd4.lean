import Verif.Small.Crowd3
import Verif.Props.Accessors
/-
  Goroutines that load nothing, compared with what their calls come to in the registry at the start.
-/
namespace Protoast.Small.Crowd
open Protoast
open Protoast.Props (LoadsNothing Settled Settles quiet_loaded call_alone client_pool)

variable {T : Reg}

/-! ### The start -/

mutual
theorem blurVal_old {o : Ghost} {r : Reg} (ho : ∀ a n, o a = some n → a < r.next) : (v : OptVal) → GoodVal o r v →
    blurVal r.next v = v
  | .bool .., _ | .int .., _ | .uint .., _ | .float .., _ | .string .., _ | .bytes .., _ => rfl
  | .enum p l a q, h => by
    have := ho _ _ h.2.owner
    simp only [blurVal, Nat.min_eq_left (Nat.le_of_lt this)]
  | .array p vs, h => by simp only [blurVal, blurVals_old ho vs h.2]
  | .map p l items, h => by simp only [blurVal, blurItems_old ho items h.2]
theorem blurVals_old {o : Ghost} {r : Reg} (ho : ∀ a n, o a = some n → a < r.next) : (vs : List OptVal) → GoodVals o r vs →
    blurVals r.next vs = vs
  | [], _ => rfl
  | v :: vs, h => by simp only [blurVals, blurVal_old ho v h.1, blurVals_old ho vs h.2]
theorem blurItems_old {o : Ghost} {r : Reg} (ho : ∀ a n, o a = some n → a < r.next) : (vs : List (Str × OptVal)) →
    GoodItems o r vs → blurItems r.next vs = vs
  | [], _ => rfl
  | v :: vs, h => by simp only [blurItems, blurItem_old ho v h.1, blurItems_old ho vs h.2]
theorem blurItem_old {o : Ghost} {r : Reg} (ho : ∀ a n, o a = some n → a < r.next) : (kv : Str × OptVal) →
    GoodItem o r kv → blurItem r.next kv = kv
  | (k, v), h => by simp only [blurItem, blurVal_old ho v h]
end

theorem blur_old {o : Ghost} {r : Reg} (ho : ∀ a n, o a = some n → a < r.next) : {n : Node} → Protoast.Good o r n →
    blur r.next n = n
  | .wrapped a k p, h => by simp only [blur, Nat.min_eq_left (Nat.le_of_lt (ho _ _ h.owner))]
  | .option a p c f, h => by simp only [blur, Nat.min_eq_left (Nat.le_of_lt (ho _ _ h.1))]
  | .oneof a p, h => by simp only [blur, Nat.min_eq_left (Nat.le_of_lt (ho _ _ h.1))]
  | .map a p, h => by simp only [blur, Nat.min_eq_left (Nat.le_of_lt (ho _ _ h.1))]
  | .repeated a none, h => by simp only [blur, Nat.min_eq_left (Nat.le_of_lt (ho _ _ h))]
  | .repeated a (some t), h => by
    simp only [blur, Nat.min_eq_left (Nat.le_of_lt (ho _ _ h.1)), blur_old ho h.2.2]
  | .builtin _, _ => rfl
  | .value v, h => by simp only [blur, blurVal_old ho v h]
  | .mapItem k v, h => by simp only [blur, blurVal_old ho v h]

/-- The addresses of the fields at the start. -/
def typing (o : Ghost) : Typing := fun a p => o a = some (.wrapped a .messageField p)

theorem typed_old {o : Ghost} {r : Reg} : {n : Node} → Protoast.Good o r n → Typed r (typing o) n
  | .wrapped a k p, h => by
    cases k
    case messageField => exact ⟨h.owner, h.target⟩
    all_goals trivial
  | .repeated _ (some t), h => typed_old (n := t) h.2.2
  | .repeated _ none, _ => trivial
  | .option .., _ | .oneof .., _ | .map .., _ | .builtin .., _ | .value .., _ | .mapItem .., _ => trivial

theorem goodReg_start {o : Ghost} (h : Inv o T) : GoodReg T (typing o) T where
  front := ⟨rfl, rfl, rfl, rfl⟩
  next := Nat.le_refl _
  dom a p e := h.fresh _ _ e
  inj a p q e e' := by
    simp only [typing] at e e'
    rw [e] at e'
    cases e'
    rfl
  old _ _ e := e
  oldOk v n e := by
    obtain ⟨a, k, p, rfl, rfl, h1, h2⟩ := h.cacheSome v n e
    refine ⟨?_, by simp only [blur, Nat.min_eq_left (Nat.le_of_lt (h.fresh _ _ h2))], a, k, p, rfl, h1⟩
    cases k
    case messageField => exact ⟨h2, h1⟩
    all_goals trivial
  new v n e e' := by rw [e] at e'; cases e'
  ftOld _ _ e := e
  ftOk a t e := by
    obtain ⟨p, h1, -⟩ := h.ftKey a t e
    refine ⟨h.fresh _ _ h1, ?_⟩
    rintro n rfl
    have := (h.ftGood a n e).2
    exact ⟨typed_old this, blur_old h.fresh this⟩
  ftNew a t e e' := by rw [e] at e'; cases e'
  ftDom a t e := by
    obtain ⟨p, h1, -⟩ := h.ftKey a t e
    exact h.fresh _ _ h1

/-! ### Steps -/

theorem Runs.step {α : Type} {Q : Typing → Res α → Prop} (hQ : ∀ s e, Spoils e → ¬ Q s (.panic e)) {p : P α} {s : Typing} {r : Reg}
    (h : Runs T Q p s) (hr : GoodReg T s r) : ∃ s', s.le s' ∧ GoodReg T s' (p.step r).2 ∧ Runs T Q (p.step r).1 s' := by
  cases p with
  | ret x => exact ⟨s, .refl _, hr, h⟩
  | panic e => exact ⟨s, .refl _, hr, h⟩
  | timeout => exact ⟨s, .refl _, hr, h⟩
  | read k => exact ⟨s, .refl _, hr, h s (.refl _) r hr⟩
  | alloc k =>
    obtain ⟨q, h⟩ := h s (.refl _) r.next hr.next
    exact ⟨_, Typing.le_add _ _ _, hr.alloc q, h⟩
  | parse f k => exact h.elim
  | write w k =>
    rcases h with ⟨h1, h2⟩ | ⟨e, h1, h2, h3⟩
    · exact ⟨s, .refl _, hr.write h1, h2⟩
    · exact absurd h3 (hQ _ _ h1)

theorem Fails.alone {α : Type} {e : Panic} {p : P α} : Fails e p → ∀ r, (p.alone r).1 = .panic e := by
  induction p with
  | panic e' => rintro rfl r; rfl
  | write w k ih => intro h r; exact ih h _
  | _ => intro h; exact h.elim

theorem Runs.alone {α : Type} {Q : Typing → Res α → Prop} {p : P α} : ∀ {s : Typing} {r : Reg}, Runs T Q p s → GoodReg T s r →
    ∃ s', s.le s' ∧ Q s' (p.alone r).1 ∧ ((∀ e, Spoils e → (p.alone r).1 ≠ .panic e) → GoodReg T s' (p.alone r).2) := by
  induction p with
  | ret x => intro s r h hr; exact ⟨s, .refl _, h, fun _ => hr⟩
  | panic e => intro s r h hr; exact ⟨s, .refl _, h, fun _ => hr⟩
  | timeout => intro s r h hr; exact ⟨s, .refl _, h, fun _ => hr⟩
  | read k ih => intro s r h hr; exact ih r (h s (.refl _) r hr) hr
  | alloc k ih =>
    intro s r h hr
    obtain ⟨q, h⟩ := h s (.refl _) r.next hr.next
    obtain ⟨s', h1, h2⟩ := ih _ h (hr.alloc q)
    exact ⟨s', (Typing.le_add _ _ _).trans h1, h2⟩
  | parse f k ih => intro s r h; exact h.elim
  | write w k ih =>
    intro s r h hr
    rcases h with ⟨h1, h2⟩ | ⟨e, h1, h2, h3⟩
    · exact ih h2 (hr.write h1)
    · have := h2.alone (w.apply r)
      refine ⟨s, .refl _, ?_, fun hn => absurd this (hn e h1)⟩
      show Q s (k.alone (w.apply r)).1
      rw [this]
      exact h3

/-! ### Calls in the registry at the start -/

/-- Handles and results. -/
abbrev Have := List Node × List (Res Reply)

/-- With one call more. -/
def Have.add (x : Have) : Res Reply → Have
  | .ok y => (x.1 ++ y.1, x.2 ++ [.ok y])
  | res => (x.1, x.2 ++ [res])

def Have.blur (N : Nat) (x : Have) : Have := (x.1.map (Small.blur N), x.2.map (blurResult N))

/-- The calls, one after the other, in a registry that does not change. -/
def still (T : Reg) (x : Have) (ops : List Op) : Have := ops.foldl (fun x op => x.add (static T (call x.1 op))) x

/-- None of them leaves a nil behind. -/
def StillSettles (T : Reg) (x : Have) : List Op → Prop
  | [] => True
  | op :: ops => (∀ e, Spoils e → static T (call x.1 op) ≠ .panic e) ∧ StillSettles T (x.add (static T (call x.1 op))) ops

theorem still_snoc (x : Have) (ops : List Op) (op : Op) :
    still T x (ops ++ [op]) = (still T x ops).add (static T (call (still T x ops).1 op)) := by
  simp [still, List.foldl_append]

theorem StillSettles.at : ∀ {ops : List Op} {x : Have} {op rest}, StillSettles T x (ops ++ op :: rest) →
    ∀ e, Spoils e → static T (call (still T x ops).1 op) ≠ .panic e
  | [], _, _, _, h => h.1
  | o :: ops, x, _, rest, h => StillSettles.at (ops := ops) (x := x.add (static T (call x.1 o))) (rest := rest) h.2

theorem add_blur {s : Typing} {x : Have} {res res' : Res Reply} (h : Protoast.ResRel (ReplyR T s) res res') :
    (x.add res).blur T.next = (x.blur T.next).add res' := by
  cases res <;> cases res' <;> simp only [Protoast.ResRel] at h
  · rename_i a b
    obtain ⟨a1, a2⟩ := a
    obtain ⟨b1, b2⟩ := b
    obtain ⟨⟨h1, -⟩, h2⟩ := h
    simp only at h1 h2
    subst h1 h2
    simp [Have.add, Have.blur, blurResult]
  · subst h
    simp [Have.add, Have.blur, blurResult]
  · simp [Have.add, Have.blur, blurResult]

theorem add_typed {s s' : Typing} (hs : s.le s') {x : Have} {res res' : Res Reply} (hx : ∀ n ∈ x.1, Typed T s n)
    (h : Protoast.ResRel (ReplyR T s') res res') : ∀ n ∈ (x.add res).1, Typed T s' n := by
  have old : ∀ n ∈ x.1, Typed T s' n := fun n hn => (hx n hn).mono hs
  cases res <;> cases res' <;> simp only [Protoast.ResRel] at h
  · intro n hn
    rcases List.mem_append.mp hn with hn | hn
    · exact old n hn
    · exact h.1.2 n hn
  · exact old
  · exact old

theorem settled_alone {pool : List Node} {op : Op} {r : Reg} (h : Settled (op.run pool r).1) :
    ∀ e, Spoils e → ((call pool op).alone r).1 ≠ .panic e := by
  intro e he hp
  have h1 := congrFun (call_handles pool op) r
  rw [Small.Again.alone_bind] at h1
  rcases hc : (call pool op).alone r with ⟨res, r'⟩
  rw [hc] at h1 hp
  simp only at hp
  subst hp
  simp only at h1
  rw [← h1] at h
  rcases he with rfl | rfl
  · exact h.1 rfl
  · exact h.2 rfl

theorem alone_still (ops : List Op) : ∀ {s : Typing} {r : Reg} {x : Have}, GoodReg T s r → (∀ n ∈ x.1, Typed T s n) →
    Settles ⟨r, x.1⟩ ops → (∀ op ∈ ops, LoadsNothing T op) →
    ∃ c, (Callers.exec ⟨r, [⟨x.1, x.2⟩]⟩ (ops.map fun op => (0, op))).all = [c] ∧
      Have.blur T.next (c.pool, c.results) = still T (x.blur T.next) ops ∧ StillSettles T (x.blur T.next) ops := by
  induction ops with
  | nil => intro s r x _ _ _ _; exact ⟨⟨x.1, x.2⟩, rfl, rfl, trivial⟩
  | cons op ops ih =>
    intro s r x hr hx hset hops
    have hsim := call_sim hx (quiet_loaded (hops op (by simp)))
    obtain ⟨s', h1, h2, h3⟩ := Runs.alone hsim hr
    have h4 := settled_alone hset.1
    have h3 := h3 h4
    rw [call_alone] at h2 h3 h4
    simp only at h2 h3 h4
    have hpool : (Client.step ⟨r, x.1⟩ op).pool = (x.add (reply x.1 op r)).1 := by
      rw [client_pool]; cases reply x.1 op r <;> rfl
    have hreg : (Client.step ⟨r, x.1⟩ op).reg = (op.run x.1 r).2 := Protoast.Again.step_reg _ _
    have hset' := hset.2
    have e : (Client.step ⟨r, x.1⟩ op) = ⟨(op.run x.1 r).2, (x.add (reply x.1 op r)).1⟩ := by rw [← hpool, ← hreg]
    rw [e] at hset'
    obtain ⟨c, g1, g2, g3⟩ := ih h3 (add_typed h1 hx h2) hset' fun o ho => hops o (by simp [ho])
    rw [add_blur h2] at g2 g3
    refine ⟨c, ?_, g2, ?_, g3⟩
    · rw [← g1]
      have : (x.add (reply x.1 op r)).2 = x.2 ++ [reply x.1 op r] := by cases reply x.1 op r <;> rfl
      simp only [List.map_cons, Callers.exec, List.foldl_cons, Callers.step, List.getElem?_cons_zero, List.set_cons_zero, e, this]
    · intro e he hp
      have hp : static T (call (x.1.map (blur T.next)) op) = .panic e := hp
      rw [hp] at h2
      cases hres : reply x.1 op r with
      | ok y => rw [hres] at h2; exact h2
      | panic e' =>
        rw [hres] at h2
        have h2 : e' = e := h2
        subst h2
        exact h4 _ he hres
      | timeout => rw [hres] at h2; exact h2

end Protoast.Small.Crowd
