import Verif.Proof.Quiet4
import Verif.Proof.Rename5
/-
  Registries that differ in what was asked of them: loading files, and whole histories.
-/
namespace Protoast.Quiet

/-! ### Loading depends on the loaded files only -/

/-- The computation neither looks at nor returns anything but what files and names there are. -/
def Pres {α : Type} (m : M α) : Prop := ∀ r1 r2, Front r1 r2 → (m r2).1 = (m r1).1 ∧ Front (m r1).2 (m r2).2

theorem Pres.pure {α : Type} (a : α) : Pres (Pure.pure a : M α) := fun _ _ h => ⟨rfl, h⟩
theorem Pres.panic {α : Type} (e) : Pres (M.panic e : M α) := fun _ _ h => ⟨rfl, h⟩
theorem Pres.bind {α β : Type} {m : M α} {f : α → M β} (h : Pres m) (g : ∀ a, Pres (f a)) : Pres (m >>= f) := by
  intro r1 r2 hf
  have h1 := h r1 r2 hf
  simp only [M.bind_apply]
  rcases e1 : m r1 with ⟨res1, r1'⟩
  rcases e2 : m r2 with ⟨res2, r2'⟩
  rw [e1, e2] at h1
  obtain ⟨rfl, h2⟩ := h1
  cases res2 with
  | ok a => exact g a _ _ h2
  | panic e => exact ⟨rfl, h2⟩
  | timeout => exact ⟨rfl, h2⟩

theorem Pres.read {α : Type} {f : Reg → M α} (hf : ∀ r1 r2, Front r1 r2 → f r2 = f r1) (k : ∀ r, Pres (f r)) :
    Pres (M.get >>= f) := by
  intro r1 r2 h
  have := k r1 r1 r2 h
  simp only [M.bind_apply, M.get_apply]
  rw [hf r1 r2 h]
  exact this

theorem protoFile_pres (W : World) (path : Str) : Pres (protoFile W path) := by
  intro r1 r2 h
  unfold protoFile
  rw [h.protos]
  cases r1.protos path with
  | some i => exact ⟨rfl, h⟩
  | none =>
    simp only
    split
    · exact ⟨rfl, h⟩
    · split
      · exact ⟨rfl, h⟩
      · split
        · exact ⟨rfl, h⟩
        · refine ⟨by simp only [h.heap], ⟨?_, ?_, h.names, h.scopes⟩⟩
          · show r2.heap ++ [_] = r1.heap ++ [_]
            rw [h.heap]
          · show upd r1.protos path r2.heap.length = upd r1.protos path r1.heap.length
            rw [h.heap]

theorem runActs_pres {imp : Str → M Unit} (hi : ∀ f, Pres (imp f)) : ∀ as, Pres (runActs imp as) := by
  intro as
  induction as with
  | nil => exact Pres.pure ()
  | cons a as ih =>
    refine Pres.bind ?_ fun _ => ih
    cases a with
    | name n p =>
      intro r1 r2 h
      refine ⟨rfl, h.heap, h.protos, ?_, h.scopes⟩
      show upd r2.registry n p = upd r1.registry n p
      rw [h.names]
    | scope v t =>
      intro r1 r2 h
      refine ⟨rfl, h.heap, h.protos, h.names, ?_⟩
      show upd r2.scopes v t = upd r1.scopes v t
      rw [h.scopes]
    | imp f => exact hi f

theorem acceptFile_pres {imp : Str → M Unit} (hi : ∀ f, Pres (imp f)) (key : Vis) (i : Nat) : Pres (acceptFile imp key i) := by
  intro r1 r2 h
  rw [acceptFile_run, acceptFile_run, h.children]
  exact runActs_pres hi _ r1 r2 h

theorem visitImport_pres (W : World) : ∀ n path, Pres (visitImport W n path) := by
  intro n
  induction n with
  | zero => intro path r1 r2 h; exact ⟨rfl, h⟩
  | succ n ih =>
    intro path
    refine Pres.read (fun r1 r2 h => by simp only [h.protos]) fun r => ?_
    split
    · exact Pres.pure ()
    · refine Pres.bind (protoFile_pres W path) fun x => ?_
      split
      · exact Pres.panic _
      · exact acceptFile_pres ih _ _

theorem demarkFile_pres (W : World) (fuel : Nat) (path : Str) : Pres (demarkFile W fuel path) := by
  refine Pres.bind (protoFile_pres W path) fun x => ?_
  split
  · exact Pres.pure _
  · exact Pres.bind (acceptFile_pres (visitImport_pres W fuel) _ _) fun _ => Pres.pure _

/-- The outcome of a `Proto` call on registries with the same files. -/
theorem proto_front (W : World) (fuel : Nat) (path : Str) {r1 r2 : Reg} (h : Front r1 r2) :
    Front (proto W fuel path r1).2 (proto W fuel path r2).2 ∧
    ((∃ i, (proto W fuel path r1).1 = .ok (.ok (.wrapped r1.next .file ⟨i, []⟩)) ∧
        (proto W fuel path r2).1 = .ok (.ok (.wrapped r2.next .file ⟨i, []⟩)) ∧
        (proto W fuel path r1).2.next = r1.next + 1 ∧ (proto W fuel path r2).2.next = r2.next + 1) ∨
      ((proto W fuel path r2).1 = (proto W fuel path r1).1 ∧ (∀ n, (proto W fuel path r1).1 ≠ .ok (.ok n)) ∧
        (proto W fuel path r1).2.next = r1.next ∧ (proto W fuel path r2).2.next = r2.next)) := by
  have hd := demarkFile_pres W fuel path r1 r2 h
  have hnext : ∀ r : Reg, (demarkFile W fuel path r).2.next = r.next := by
    intro r
    have h1 := protoFile_lext W path r
    unfold demarkFile
    simp only [M.bind_apply]
    rcases e : protoFile W path r with ⟨res, r'⟩
    rw [e] at h1
    cases res with
    | ok x =>
      cases x with
      | error e => exact h1.next
      | ok i =>
        have h2 : LExt r' (acceptFile (visitImport W fuel) (.at ⟨i, []⟩) i r').2 := by
          rw [acceptFile_run]
          exact runActs_lext _ (fun f _ r => visitImport_lext W fuel f r) _
        simp only [M.bind_apply]
        rcases e' : acceptFile (visitImport W fuel) (.at ⟨i, []⟩) i r' with ⟨res, r''⟩
        rw [e'] at h2
        cases res <;> exact h2.next.trans h1.next
    | panic e => exact h1.next
    | timeout => exact h1.next
  have hn1 := hnext r1
  have hn2 := hnext r2
  unfold proto
  simp only [M.bind_apply, M.get_apply]
  rw [h.protos]
  cases r1.protos path with
  | some i => exact ⟨⟨h.heap, h.protos, h.names, h.scopes⟩, .inl ⟨i, rfl, rfl, rfl, rfl⟩⟩
  | none =>
    simp only [M.bind_apply]
    rcases e1 : demarkFile W fuel path r1 with ⟨res1, r1'⟩
    rcases e2 : demarkFile W fuel path r2 with ⟨res2, r2'⟩
    rw [e1, e2] at hd
    rw [e1] at hn1
    rw [e2] at hn2
    simp only at hd hn1 hn2
    obtain ⟨rfl, hf⟩ := hd
    cases res2 with
    | panic e => exact ⟨hf, .inr ⟨rfl, (fun n e => by cases e), hn1, hn2⟩⟩
    | timeout => exact ⟨hf, .inr ⟨rfl, (fun n e => by cases e), hn1, hn2⟩⟩
    | ok x =>
      cases x with
      | error e => exact ⟨hf, .inr ⟨rfl, (fun n e => by cases e), hn1, hn2⟩⟩
      | ok u =>
        simp only [M.bind_apply, M.get_apply]
        rw [hf.protos]
        cases r1'.protos path with
        | none => exact ⟨hf, .inr ⟨rfl, (fun n e => by cases e), hn1, hn2⟩⟩
        | some i =>
          refine ⟨⟨hf.heap, hf.protos, hf.names, hf.scopes⟩, .inl ⟨i, ?_, ?_, ?_, ?_⟩⟩
          · show Res.ok (Except.ok (Node.wrapped r1'.next .file ⟨i, []⟩)) = _
            rw [hn1]
          · show Res.ok (Except.ok (Node.wrapped r2'.next .file ⟨i, []⟩)) = _
            rw [hn2]
          · show r1'.next + 1 = _
            rw [hn1]
          · show r2'.next + 1 = _
            rw [hn2]

end Protoast.Quiet
