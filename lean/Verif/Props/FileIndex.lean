import Verif.Props.Names2
/-
  C65: the index of a file is fixed by the way it was first loaded.
-/
namespace Protoast.Props
open Protoast

/-- No file from `b` on has a recorded scope. -/
def NoFileScope (b : Nat) (r : Reg) : Prop := ∀ j, b ≤ j → r.scopes (.at ⟨j, []⟩) = none

theorem runActs_noFileScope {imp : Str → M Unit} {b : Nat} (himp : ∀ g r, NoFileScope b r → NoFileScope b (imp g r).2) :
    ∀ (as : List Act), (∀ v s, Act.scope v s ∈ as → ∀ j, b ≤ j → v ≠ .at ⟨j, []⟩) → ∀ r, NoFileScope b r →
      NoFileScope b (runActs imp as r).2 := by
  intro as
  induction as with
  | nil => intro _ r h; exact h
  | cons a as ih =>
    intro hs r h
    have ha : NoFileScope b (a.run imp r).2 := by
      cases a with
      | name s p => exact h
      | scope v s =>
        intro j hj
        simp only [Act.run, setScope, M.modify_apply, upd]
        rw [if_neg (fun e => hs v s (by simp) j hj e.symm)]
        exact h j hj
      | imp g => exact himp g r h
    simp only [runActs, M.bind_apply]
    rcases hr : a.run imp r with ⟨res, r'⟩
    rw [hr] at ha
    cases res with
    | ok u => exact ih (fun v s hm => hs v s (List.mem_cons_of_mem _ hm)) r' ha
    | panic p => exact ha
    | timeout => exact ha

theorem fileActs_scopes {f : ProtoFile} {path : Str} {key : Vis} {i : Nat} (hw : WFFile path f.elems) {v s}
    (h : Act.scope v s ∈ fileActs key i f.elems) : v = key ∨ ∃ q : Ptr, v = .at q ∧ q.path ≠ [] := by
  rcases fileActs_fine (path := path) hw _ h with ⟨q, h1, h2, h3⟩ | h1 | ⟨g, h1⟩
  · refine .inr ⟨q, h1, ?_⟩
    intro h0
    rw [h0] at h3
    simp [ProtoFile.fqn] at h3
  · cases h1; exact .inl rfl
  · cases h1

theorem visitImport_noFileScope {W : World} (hW : W.Sat WFFile) (b : Nat) : ∀ n path r, NoFileScope b r →
    NoFileScope b (visitImport W n path r).2 := by
  intro n
  induction n with
  | zero => intro path r h; exact h
  | succ n ih =>
    intro path r h
    unfold visitImport
    simp only [M.bind_apply, M.get_apply]
    cases hp : r.protos path with
    | some i => exact h
    | none =>
      simp only [M.bind_apply]
      rcases protoFile_cases W path r with ⟨i, hi, e⟩ | ⟨_, er, e⟩ | ⟨hn, nm, elems, _, hload, e⟩
      · rw [hi] at hp; cases hp
      · rw [e]; exact h
      · rw [e]
        simp only
        rw [acceptFile_eq (f := ⟨path, elems⟩) (by simp [Protoast.addFile])]
        refine runActs_noFileScope ih _ ?_ _ h
        intro v s hm j _ hv
        rcases fileActs_scopes (f := ⟨path, elems⟩) (path := path) (hW _ _ _ hload) hm with h1 | ⟨q, h1, h2⟩
        · rw [h1] at hv; cases hv
        · rw [h1] at hv; cases hv; exact h2 rfl

/-- C65: a file that a `Proto` call loads only because it is imported has an empty index, from then on in every
    state, also when it is passed to `Proto` later. (A file that is the argument of the call has its package as
    index, C17.) -/
theorem C65_imported_file_index {c W fuel path q i} (hr : Reachable WFFile c) (hW : W.Sat WFFile)
    (hnew : c.reg.protos q = none) (hne : q ≠ path) (hi : (proto W fuel path c.reg).2.protos q = some i)
    (pool : List Node) (ops : List Op) (a : Nat) :
    let c2 := Client.exec ⟨(proto W fuel path c.reg).2, pool⟩ ops
    nodeIndex (.wrapped a .file ⟨i, []⟩) c2.reg = (.ok [], c2.reg) := by
  intro c2
  have hl : Later (proto W fuel path c.reg).2 c2.reg := exec_later ops ⟨_, pool⟩
  obtain ⟨o, hinv, -⟩ := reachable_inv hr
  have hsound := reachable_sound hr
  have hbase : ∀ b, c.reg.heap.length ≤ b → NoFileScope b c.reg := by
    intro b hb j hj
    cases hs : c.reg.scopes (.at ⟨j, []⟩) with
    | none => rfl
    | some s =>
      obtain ⟨f, hf, _⟩ := hsound.fileScopes _ _ hs
      have := (List.getElem?_eq_some_iff.mp hf).1
      omega
  have hr' : Reachable WFFile (c.step (.proto W fuel path)) :=
    reachable_exec hr [.proto W fuel path] (by simpa [Op.Sat] using hW)
  have hreg : (c.step (.proto W fuel path)).reg = (proto W fuel path c.reg).2 := by
    rw [step_reg]
    simp only [Op.run, M.bind_apply]
    rcases proto W fuel path c.reg with ⟨res, r1⟩
    cases res with
    | ok x => cases x <;> rfl
    | panic p => rfl
    | timeout => rfl
  obtain ⟨o', hinv', -⟩ := reachable_inv hr'
  rw [hreg] at hinv'
  obtain ⟨f, hf, hfn⟩ := hinv'.protosHeap _ _ hi
  have hlater := proto_later W fuel path c.reg
  have hge : c.reg.heap.length ≤ i := by
    by_cases hlt : i < c.reg.heap.length
    · rw [hlater.file hlt] at hf
      have := hinv.heapProtos _ _ hf
      rw [hfn, hnew] at this
      cases this
    · omega
  have hnone : (proto W fuel path c.reg).2.scopes (.at ⟨i, []⟩) = none := by
    rcases proto_cases W path c.reg with ⟨j, hj, e⟩ | ⟨_, er, e⟩ | ⟨hn, name, elems, _, hload, e⟩
    · rw [e]; exact hbase _ (Nat.le_refl _) i hge
    · rw [e]; exact hbase _ (Nat.le_refl _) i hge
    · have key : NoFileScope (c.reg.heap.length + 1) (runActs (visitImport W fuel)
          (fileActs (.at ⟨c.reg.heap.length, []⟩) c.reg.heap.length elems) (addFile c.reg path elems)).2 := by
        refine runActs_noFileScope (visitImport_noFileScope hW _ fuel) _ ?_ _ (hbase _ (by omega))
        intro v s hm j hj hv
        rcases fileActs_scopes (f := ⟨path, elems⟩) (path := path) (hW _ _ _ hload) hm with h1 | ⟨p, h1, h2⟩
        · rw [h1] at hv; cases hv; omega
        · rw [h1] at hv; cases hv; exact h2 rfl
      have hx := runActs_lext (imp := visitImport W fuel)
        (fileActs (.at ⟨c.reg.heap.length, []⟩) c.reg.heap.length elems)
        (fun f _ r => visitImport_lext W fuel f r) (addFile c.reg path elems)
      have hfile : (addFile c.reg path elems).heap[c.reg.heap.length]? = some ⟨path, elems⟩ := by simp [addFile]
      rw [e] at hf ⊢
      unfold protoNew at hf ⊢
      rcases hrun : runActs (visitImport W fuel)
        (fileActs (.at ⟨c.reg.heap.length, []⟩) c.reg.heap.length elems)
        (addFile c.reg path elems) with ⟨res, r1⟩
      rw [hrun] at hf key hx
      have hf1 := hx.file hfile
      have hne' : i ≠ c.reg.heap.length := by
        rintro rfl
        have : f = ⟨path, elems⟩ := by
          cases res <;> (simp only at hf hf1; rw [hf1] at hf; cases hf; rfl)
        rw [this] at hfn
        exact hne hfn.symm
      cases res <;> exact key i (by omega)
  show (Res.ok (c2.reg.scope (.at ⟨i, []⟩)), c2.reg) = _
  unfold Reg.scope
  rw [hl.scopes _ (List.getElem?_eq_some_iff.mp hf).1, hnone]
  rfl

/-- `b.proto` of the example is loaded through the import of `a.proto`. -/
example : Ex.r0.protos Ex.pb = none ∧ Ex.pb ≠ Ex.pa ∧ (proto Ex.W 5 Ex.pa Ex.r0).2.protos Ex.pb = some 2 := by
  decide +kernel

end Protoast.Props
