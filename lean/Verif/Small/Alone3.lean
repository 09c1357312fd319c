import Verif.Small.Alone2
/-
  A call that runs alone does what the model says.
-/
namespace Protoast.Small
open Protoast

variable {α β γ : Type}

theorem Is.one {p : P α} {m : M α} {f : α → β} {g : β → γ} {h : α → γ} (e : Is p m) (hfg : ∀ x, g (f x) = h x) :
    Is ((p >>= fun x => (Pure.pure (f x) : P β)) >>= fun y => Pure.pure (g y)) (m >>= fun x => Pure.pure (h x)) :=
  Is.assoc (Is.bind e fun x => by rw [← hfg x]; exact Is.pure _)

theorem Is.two {δ : Type} {p : P α} {m : M α} {f : α → β} {g : β → γ} {k : γ → δ} {h : α → δ} (e : Is p m)
    (hfg : ∀ x, k (g (f x)) = h x) :
    Is (((p >>= fun x => (Pure.pure (f x) : P β)) >>= fun y => (Pure.pure (g y) : P γ)) >>= fun y => Pure.pure (k y))
      (m >>= fun x => Pure.pure (h x)) :=
  Is.assoc (Is.assoc (Is.bind e fun x => by rw [← hfg x]; exact Is.pure _))

theorem Is.id {p : P α} {m : M α} {f : α → β} {g : β → α} (e : Is p m) (hfg : ∀ x, g (f x) = x) :
    Is ((p >>= fun x => (Pure.pure (f x) : P β)) >>= fun y => Pure.pure (g y)) m := by
  have : Is ((p >>= fun x => (Pure.pure (f x) : P β)) >>= fun y => Pure.pure (g y)) (m >>= fun x => Pure.pure x) :=
    Is.one e hfg
  refine Eq.trans this (funext fun r => ?_)
  simp only [M.bind_apply]
  rcases m r with ⟨res, r'⟩
  cases res <;> rfl

local macro "at_once" : tactic => `(tactic| first
  | exact Is.pure _
  | exact Is.one (by is_lemma) fun _ => rfl
  | exact Is.two (by is_lemma) fun _ => rfl)

/-- Steps that touch no state. -/
theorem collect_pure {l : List (P α)} (h : ∀ s ∈ l, ∃ x, s = Pure.pure x) (r : Reg) :
    ∃ vs, (Small.collectSteps l).alone r = (.ok vs, r) := by
  induction l with
  | nil => exact ⟨[], rfl⟩
  | cons s l ih =>
    obtain ⟨x, rfl⟩ := h s (List.mem_cons_self ..)
    obtain ⟨vs, hvs⟩ := ih fun s hs => h s (List.mem_cons_of_mem _ hs)
    refine ⟨x :: vs, ?_⟩
    show ((Small.collectSteps l).handle (fun as => Pure.pure (x :: as)) .panic).alone r = _
    rw [alone_handle, hvs]
    rfl

/-- The handles of a call. -/
theorem Is.plainCall_handles (q n) : Is (do let x ← plainCall q n; Pure.pure x.1) (PlainQ.run q n) := by
  cases q
  case hierarchy f => exact Is.id (Is.nodeHierarchy _ _) fun _ => rfl
  all_goals cases n
  all_goals try (at_once; done)
  all_goals (rename_i a k p; cases k)
  all_goals try (at_once; done)
  funext r
  show (((Small.Reserved.values p >>= fun l => Small.collectSteps l >>= fun vs => Pure.pure (AttrVal.reserved vs)) >>=
    fun x => (Pure.pure (([], Answer.attr x) : Reply) : P Reply)) >>= fun x => Pure.pure x.1).alone r =
    (Protoast.Reserved.values p >>= fun _ => Pure.pure []) r
  unfold Small.Reserved.values Protoast.Reserved.values
  simp only [Bind.bind, P.bind, P.get, P.handle, P.alone, M.bind, M.get]
  cases hk : r.kind p with
  | none => rfl
  | some kd =>
    cases kd
    case reserved rs ns =>
      obtain ⟨vs, hvs⟩ := collect_pure (l := (rs.map fun g => (Pure.pure (reservedRange g) : P ReservedValue)) ++
        ns.map fun n => (Pure.pure (.name n) : P ReservedValue)) (by
          intro s hs
          simp only [List.mem_append, List.mem_map] at hs
          rcases hs with ⟨g, _, rfl⟩ | ⟨g, _, rfl⟩
          · exact ⟨_, rfl⟩
          · exact ⟨_, rfl⟩) r
      simp only [Pure.pure, P.handle, alone_handle] at hvs ⊢
      rw [hvs]
      rfl
    all_goals rfl

theorem M.assoc' (m : M α) (f : α → M β) (g : β → M γ) : (m >>= f) >>= g = m >>= fun x => f x >>= g := by
  funext r
  simp only [M.bind_apply]
  rcases m r with ⟨res, r'⟩
  cases res <;> rfl

theorem Is.three {δ : Type} {p : P α} {m : M α} {f : α → β} {g : β → γ} {f' : α → δ} {g' : δ → γ} (e : Is p m)
    (hfg : ∀ x, g (f x) = g' (f' x)) :
    Is ((p >>= fun x => (Pure.pure (f x) : P β)) >>= fun y => Pure.pure (g y))
      ((m >>= fun x => Pure.pure (f' x)) >>= fun x => Pure.pure (g' x)) := by
  rw [M.assoc']
  exact Is.one e hfg

local macro "at_once2" : tactic => `(tactic| first
  | exact Is.pure _
  | exact Is.one (by is_lemma) fun _ => rfl
  | exact Is.three (by is_lemma) fun _ => rfl)

/-- The answer of a call. -/
theorem Is.plainCall_answer (q n) : Is (do let x ← plainCall q n; Pure.pure x.2) (PlainQ.answer q n) := by
  cases q
  case hierarchy f => exact Is.one (Is.nodeHierarchy _ _) fun _ => rfl
  all_goals cases n
  all_goals try (at_once2; done)
  all_goals (rename_i a k p; cases k)
  all_goals try (at_once2; done)
  all_goals skip

/-- The handles of a call. -/
theorem call_handles (pool op) : Is (do let x ← call pool op; Pure.pure x.1) (Op.run pool op) := by
  unfold call Op.run
  cases op with
  | proto W fuel path =>
    refine Is.assoc (Is.bind (Is.proto _ _ _) fun x => ?_)
    cases x <;> exact Is.pure _
  | byName n => exact Is.one (Is.nodeByFullName _) fun _ => rfl
  | query h q =>
    dsimp only
    cases pool[h]? with
    | none => exact Is.pure _
    | some n =>
      cases q
      · exact Is.one (Is.IterQ_run _ _ _) fun _ => rfl
      · exact Is.one (Is.NamedQ_run _ _ _) fun _ => rfl
      · exact Is.plainCall_handles _ _

/-- The answer of a call. -/
theorem call_answer (pool op) : Is (do let x ← call pool op; Pure.pure x.2) (Op.answer pool op) := by
  unfold call Op.answer
  cases op with
  | proto W fuel path =>
    refine Is.assoc (Is.bind (Is.proto _ _ _) fun x => ?_)
    cases x <;> exact Is.pure _
  | byName n => exact Is.one (Is.nodeByFullName _) fun _ => rfl
  | query h q =>
    dsimp only
    cases pool[h]? with
    | none => exact Is.pure _
    | some n =>
      cases q
      · exact Is.one (Is.IterQ_run _ _ _) fun _ => rfl
      · exact Is.one (Is.NamedQ_run _ _ _) fun _ => rfl
      · exact Is.plainCall_answer _ _

end Protoast.Small
