import Verif.Proof.NamesInv
/-
  An induction principle for the reachable states of a registry.
-/
namespace Protoast

/-- What must be shown for a property of states to be kept by every call: it is kept by calls that only fill caches,
    by recording a new file, and by the two kinds of actions of visiting a recorded file. -/
structure KeepInv (P : Str → List Elem → Prop) (Q : Reg → Prop) : Prop where
  query : ∀ r r', CacheExt r r' → Q r → Q r'
  add : ∀ r path elems, P path elems → r.protos path = none → Q r → Q (addFile r path elems)
  name : ∀ (r : Reg) (i : Nat) (f : ProtoFile) key s p, r.heap[i]? = some f → KeyOK key i → Act.name s p ∈ fileActs key i f.elems →
    Q r → Q (setName s p r).2
  scope : ∀ (r : Reg) (i : Nat) (f : ProtoFile) key v s, r.heap[i]? = some f → KeyOK key i →
    Act.scope v s ∈ fileActs key i f.elems → Q r → Q (setScope v s r).2

/-- What must be shown for a property of states to hold in all reachable states. -/
structure StepInv (P : Str → List Elem → Prop) (Q : Reg → Prop) : Prop extends KeepInv P Q where
  empty : Q Reg.empty

variable {P : Str → List Elem → Prop} {Q : Reg → Prop}

theorem runActs_inv (h : KeepInv P Q) {imp : Str → M Unit} {f : ProtoFile} {key : Vis} {i : Nat} (hk : KeyOK key i)
    (himp : ∀ g r, Q r → Q (imp g r).2) (hl : ∀ g r, LExt r (imp g r).2) :
    ∀ (as : List Act), (∀ a ∈ as, a ∈ fileActs key i f.elems) → ∀ r, Q r → r.heap[i]? = some f →
      Q (runActs imp as r).2 := by
  intro as
  induction as with
  | nil => intro _ r hr _; exact hr
  | cons a as ih =>
    intro hall r hr hf
    have h0 := hall a (by simp)
    have ha : Q (a.run imp r).2 ∧ (a.run imp r).2.heap[i]? = some f := by
      cases a with
      | name s p => exact ⟨h.name r i f key s p hf hk h0 hr, hf⟩
      | scope v s => exact ⟨h.scope r i f key v s hf hk h0 hr, hf⟩
      | imp g => exact ⟨himp g r hr, (hl g r).file hf⟩
    simp only [runActs, M.bind_apply]
    rcases hrun : a.run imp r with ⟨res, r'⟩
    rw [hrun] at ha
    cases res with
    | ok u => exact ih (fun b hb => hall b (List.mem_cons_of_mem _ hb)) r' ha.1 ha.2
    | panic p => exact ha.1
    | timeout => exact ha.1

theorem visitImport_inv (h : KeepInv P Q) {W : World} (hW : W.Sat P) : ∀ n path r, Q r →
    Q (visitImport W n path r).2 := by
  intro n
  induction n with
  | zero => intro path r hr; exact hr
  | succ n ih =>
    intro path r hr
    unfold visitImport
    simp only [M.bind_apply, M.get_apply]
    cases hp : r.protos path with
    | some i => exact hr
    | none =>
      simp only [M.bind_apply]
      rcases protoFile_cases W path r with ⟨i, hi, e⟩ | ⟨_, er, e⟩ | ⟨hn, nm, elems, _, hload, e⟩
      · rw [hi] at hp; cases hp
      · rw [e]; exact hr
      · rw [e]
        simp only
        have hw := hW _ _ _ hload
        rw [acceptFile_eq (f := ⟨path, elems⟩) (by simp [Protoast.addFile])]
        exact runActs_inv h (f := ⟨path, elems⟩) (.inl rfl) ih (visitImport_lext W n) _
          (fun a ha => ha) _ (h.add r path elems hw hn hr) (by simp [addFile])

theorem proto_inv (h : KeepInv P Q) {W : World} (hW : W.Sat P) {fuel path r} (hr : Q r) :
    Q (proto W fuel path r).2 := by
  have hnext : ∀ r' : Reg, Q r' → Q { r' with next := r'.next + 1 } := fun r' hq =>
    h.query r' _ ⟨rfl, rfl, rfl, rfl, fun _ _ e => e, fun _ _ e => e, by simp, fun _ _ _ _ h => .inl h⟩ hq
  rcases proto_cases W path r with ⟨i, hi, e⟩ | ⟨_, er, e⟩ | ⟨hn, nm, elems, _, hload, e⟩
  · rw [e]; exact hnext r hr
  · rw [e]; exact hr
  · rw [e]
    have := runActs_inv h (f := ⟨path, elems⟩) (key := .at ⟨r.heap.length, []⟩) (i := r.heap.length)
      (.inr rfl) (visitImport_inv h hW fuel) (visitImport_lext W fuel) _
      (fun a ha => ha) _ (h.add r path elems (hW _ _ _ hload) hn hr) (by simp [addFile])
    unfold protoNew
    rcases hr : runActs (visitImport W fuel) (fileActs (.at ⟨r.heap.length, []⟩) r.heap.length elems)
        (addFile r path elems) with ⟨res, r'⟩
    rw [hr] at this
    cases res with
    | ok u => exact hnext r' this
    | panic p => exact this
    | timeout => exact this

theorem opRun_inv (h : KeepInv P Q) {pool : List Node} {op : Op} (hop : Op.Sat P op) {r : Reg} (hr : Q r) :
    Q (op.run pool r).2 := by
  cases op with
  | proto W fuel path =>
    have := proto_inv h hop (fuel := fuel) (path := path) hr
    simp only [Op.run, M.bind_apply]
    rcases hr : proto W fuel path r with ⟨res, r'⟩
    rw [hr] at this
    cases res with
    | ok x => cases x <;> exact this
    | panic p => exact this
    | timeout => exact this
  | byName name =>
    have := h.query _ _ ((RO.nodeByFullName name).ext r) hr
    simp only [Op.run, M.bind_apply]
    rcases hr : nodeByFullName name r with ⟨res, r'⟩
    rw [hr] at this
    cases res <;> exact this
  | query hd q =>
    simp only [Op.run]
    cases hp : pool[hd]? with
    | none => exact hr
    | some n => exact h.query _ _ ((RO.queryRun q n).ext r) hr

theorem exec_keeps (h : KeepInv P Q) : ∀ (ops : List Op) (c : Client), (∀ op ∈ ops, Op.Sat P op) → Q c.reg →
    Q (c.exec ops).reg := by
  intro ops
  induction ops with
  | nil => intro c _ h; exact h
  | cons op ops ih =>
    intro c hs hq
    refine ih (c.step op) (fun o ho => hs o (List.mem_cons_of_mem _ ho)) ?_
    rw [step_reg]
    exact opRun_inv h (hs op (by simp)) hq

theorem reachable_induct (h : StepInv P Q) {c} (hc : Reachable P c) : Q c.reg := by
  obtain ⟨W, fuel, r, ops, hW, hn, hops, rfl⟩ := hc
  have h0 : Q r := by
    obtain ⟨nm, elems, _, hload, hr⟩ := newRegistry_ok hn
    have := runActs_inv h.toKeepInv (f := ⟨descriptorPath, elems⟩) (key := .at ⟨0, []⟩) (i := 0)
      (.inr rfl) (visitImport_inv h.toKeepInv hW fuel) (visitImport_lext W fuel) _
      (fun a ha => ha) _ (h.add Reg.empty descriptorPath elems (hW _ _ _ hload) rfl h.empty)
      (by simp [addFile, Reg.empty])
    rw [hr] at this
    exact this
  exact exec_keeps h.toKeepInv ops _ hops h0

end Protoast
