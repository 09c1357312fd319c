import Verif.Proof.Again2
import Verif.Proof.Quiet6
/-
  Repeating a call of a history.
-/
namespace Protoast.Again

theorem collect_pure {α : Type} (l : List (M α)) (h : ∀ m ∈ l, ∃ x, m = Pure.pure x) (r : Reg) :
    sig (collectSteps l r) = (.ok (), r) := by
  induction l with
  | nil => rfl
  | cons m l ih =>
    obtain ⟨x, rfl⟩ := h m (by simp)
    have := ih fun m hm => h m (by simp [hm])
    simp only [collectSteps, M.bind_apply, M.pure_apply]
    rcases he : collectSteps l r with ⟨res, r'⟩
    rw [he] at this
    cases res <;> first | exact this | cases this

theorem reserved_state (p : Ptr) (r : Reg) :
    sig ((Reserved.values p >>= fun l => collectSteps l >>= fun vs => (Pure.pure (AttrVal.reserved vs) : M AttrVal)) r) =
      sig (Reserved.values p r) := by
  rw [M.bind_apply]
  rcases hv : Reserved.values p r with ⟨res, r'⟩
  cases res with
  | panic e => rfl
  | timeout => rfl
  | ok l =>
    simp only [bind_pure_sig]
    refine collect_pure l (fun m hm => ?_) r'
    simp only [Reserved.values, M.bind_apply, M.get_apply] at hv
    cases h : r.kind p with
    | none => rw [h] at hv; cases hv
    | some k =>
      rw [h] at hv
      cases k <;> cases hv
      simp only [List.mem_append, List.mem_map] at hm
      rcases hm with ⟨x, -, rfl⟩ | ⟨x, -, rfl⟩
      · exact ⟨_, rfl⟩
      · exact ⟨_, rfl⟩

local macro "attr_tac" n:ident : tactic => `(tactic| (
  cases $n:ident
  case wrapped a k p => cases k <;> first | rfl | exact (bind_pure_sig _ _ _).trans (bind_pure_sig _ _ _).symm
  all_goals rfl))

theorem name_state (n : Node) (r : Reg) : sig (Attr.name.read n r) = sig (PlainQ.name.run n r) := by attr_tac n
theorem package_state (n : Node) (r : Reg) : sig (Attr.package.read n r) = sig (PlainQ.package.run n r) := by attr_tac n
theorem isExtension_state (n : Node) (r : Reg) : sig (Attr.isExtension.read n r) = sig (PlainQ.isExtension.run n r) := by
  attr_tac n
theorem number_state (n : Node) (r : Reg) : sig (Attr.number.read n r) = sig (PlainQ.number.run n r) := by attr_tac n
theorem optional_state (n : Node) (r : Reg) : sig (Attr.optional.read n r) = sig (PlainQ.optional.run n r) := by attr_tac n
theorem importPath_state (n : Node) (r : Reg) : sig (Attr.importPath.read n r) = sig (PlainQ.importPath.run n r) := by
  attr_tac n
theorem syntaxValue_state (n : Node) (r : Reg) : sig (Attr.syntaxValue.read n r) = sig (PlainQ.syntaxValue.run n r) := by
  attr_tac n
theorem reservedValues_state (n : Node) (r : Reg) :
    sig (Attr.reservedValues.read n r) = sig (PlainQ.reservedValues.run n r) := by
  cases n
  case wrapped a k p =>
    cases k
    case reserved => exact (reserved_state p r).trans (bind_pure_sig _ _ _).symm
    all_goals rfl
  all_goals rfl

theorem answer_state (q : PlainQ) (n : Node) (r : Reg) : sig (q.answer n r) = sig (q.run n r) := by
  unfold PlainQ.answer
  split
  all_goals (try simp only [bind_pure_sig])
  all_goals first
    | exact name_state _ _ | exact package_state _ _ | exact isExtension_state _ _ | exact number_state _ _
    | exact optional_state _ _ | exact importPath_state _ _ | exact syntaxValue_state _ _
    | exact reservedValues_state _ _ | rfl
    | exact (bind_pure_sig _ _ _).symm
    | exact (bind_pure_sig _ _ _).trans (bind_pure_sig _ _ _).symm

theorem query_answer_sig (q : Query) (n : Node) (r : Reg) : sig (q.answer n r) = sig (q.run n r) := by
  cases q with
  | iter q i => simp only [Query.answer, Query.run, bind_pure_sig]
  | named q s => simp only [Query.answer, Query.run, bind_pure_sig]
  | plain q => exact answer_state q n r

theorem answer_ok {q : Query} {n : Node} {r : Reg} (h : ∃ x, (q.run n r).1 = .ok x) : ∃ a, (q.answer n r).1 = .ok a := by
  obtain ⟨x, hx⟩ := h
  have := query_answer_sig q n r
  rcases e : q.answer n r with ⟨res, r'⟩
  rcases e' : q.run n r with ⟨res', r''⟩
  rw [e, e'] at this
  rw [e'] at hx
  cases hx
  cases res with
  | ok a => exact ⟨a, rfl⟩
  | panic _ => cases this
  | timeout => cases this

/-! ### Histories that load nothing -/

theorem op_ext {op : Op} {pool : List Node} {r : Reg} (h : Quiet.Loaded' r op) : CacheExt r (op.run pool r).2 := by
  cases op with
  | proto W fuel path =>
    obtain ⟨i, e⟩ := Quiet.proto_loaded (W := W) (fuel := fuel) h
    have : (Op.run pool (.proto W fuel path) r).2 = { r with next := r.next + 1 } := by
      simp only [Op.run, M.bind_apply, e]; rfl
    rw [this]
    exact RO.alloc r
  | byName n =>
    have := RO.nodeByFullName n r
    rw [Op.run, bind_pure_state]
    exact this
  | query i q =>
    cases hp : pool[i]? with
    | none => simp only [Op.run, hp]; exact CacheExt.refl r
    | some n => simp only [Op.run, hp]; exact RO.queryRun q n r

theorem step_reg (c : Client) (op : Op) : (c.step op).reg = (op.run c.pool c.reg).2 := by
  unfold Client.step
  rcases op.run c.pool c.reg with ⟨res, r'⟩
  cases res <;> rfl

theorem step_pool (c : Client) (op : Op) : ∃ ns, (c.step op).pool = c.pool ++ ns := by
  unfold Client.step
  rcases op.run c.pool c.reg with ⟨res, r'⟩
  cases res
  · exact ⟨_, rfl⟩
  · exact ⟨[], by simp⟩
  · exact ⟨[], by simp⟩

theorem loaded_ext {r r' : Reg} (h : CacheExt r r') {op : Op} (hl : Quiet.Loaded' r op) : Quiet.Loaded' r' op := by
  cases op with
  | proto W fuel path =>
    show (r'.protos path).isSome = true
    rw [h.protos]
    exact hl
  | _ => trivial

theorem exec_ext : ∀ (ops : List Op) {c : Client}, (∀ op ∈ ops, Quiet.Loaded' c.reg op) →
    CacheExt c.reg (c.exec ops).reg := by
  intro ops
  induction ops with
  | nil => exact fun _ => CacheExt.refl _
  | cons op ops ih =>
    intro c h
    have h1 : CacheExt c.reg (c.step op).reg := by
      rw [step_reg]; exact op_ext (h op List.mem_cons_self)
    exact h1.trans (ih (c := c.step op) fun op' ho => loaded_ext h1 (h op' (List.mem_cons_of_mem _ ho)))

theorem exec_pool : ∀ (ops : List Op) (c : Client), ∃ ns, (c.exec ops).pool = c.pool ++ ns := by
  intro ops
  induction ops with
  | nil => exact fun c => ⟨[], by simp [Client.exec]⟩
  | cons op ops ih =>
    intro c
    obtain ⟨ns, h⟩ := step_pool c op
    obtain ⟨ms, g⟩ := ih (c.step op)
    exact ⟨ns ++ ms, by rw [← List.append_assoc, ← h, ← g]; rfl⟩

end Protoast.Again
