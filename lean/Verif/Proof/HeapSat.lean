import Verif.Proof.NewFiles
/-
  Every loaded file satisfies what is assumed about the parser.
-/
namespace Protoast

/-- All loaded files satisfy `P`. -/
def HeapSat (P : Str → List Elem → Prop) (r : Reg) : Prop :=
  ∀ (i : Nat) (f : ProtoFile), r.heap[i]? = some f → P f.filename f.elems

theorem readable_sat {P} {W : World} (hW : W.Sat P) {path elems} (h : Readable W path elems) : P path elems := by
  obtain ⟨R, loc, _, _, _, h⟩ := h
  exact hW _ _ _ h

theorem newRegistry_newFrom {W fuel r} (h : newRegistry W fuel = (.ok (.ok ()), r)) : NewFrom W 0 r := by
  unfold newRegistry demarkFile at h
  simp only [M.bind_apply] at h
  rcases protoFile_cases W descriptorPath Reg.empty with ⟨i, hi, e⟩ | ⟨_, er, e⟩ | ⟨hn, nm, elems, hloc, hload, e⟩
  · cases hi
  · rw [e] at h; simp at h
  · have hrd := protoFile_readable hn e
    rw [e] at h
    simp only [M.bind_apply] at h
    rw [acceptFile_eq (f := ⟨descriptorPath, elems⟩) (by simp [Protoast.addFile])] at h
    have := runActs_newFrom (visitImport_lext W fuel) (visitImport_newFrom W fuel)
      (fileActs (.at ⟨Reg.empty.heap.length, []⟩) Reg.empty.heap.length elems) _ _
      (addFile_newFrom (r := Reg.empty) hrd)
    rcases hr : runActs (visitImport W fuel)
      (fileActs (.at ⟨Reg.empty.heap.length, []⟩) Reg.empty.heap.length elems)
      (addFile Reg.empty descriptorPath elems) with ⟨res, r'⟩
    have h0 : Reg.empty.heap.length = 0 := rfl
    rw [hr] at h this
    cases res <;> simp at h
    rw [← h]
    exact this

theorem heapSat_cacheExt {P r r'} (h : HeapSat P r) (hx : CacheExt r r') : HeapSat P r' := by
  intro i f hf
  rw [hx.heap] at hf
  exact h i f hf

theorem opRun_heapSat {P pool op} (hop : Op.Sat P op) {r : Reg} (h : HeapSat P r) :
    HeapSat P (op.run pool r).2 := by
  cases op with
  | proto W fuel path =>
    have hn := proto_newFrom W fuel path r
    have hl := proto_later W fuel path r
    have : HeapSat P (proto W fuel path r).2 := by
      intro i f hf
      by_cases hlt : i < r.heap.length
      · rw [hl.file hlt] at hf; exact h i f hf
      · exact readable_sat hop (hn i f (by omega) hf)
    simp only [Op.run, M.bind_apply]
    rcases hr : proto W fuel path r with ⟨res, r'⟩
    rw [hr] at this
    cases res with
    | ok x => cases x <;> exact this
    | panic p => exact this
    | timeout => exact this
  | byName name =>
    have := heapSat_cacheExt h ((RO.nodeByFullName name).ext r)
    simp only [Op.run, M.bind_apply]
    rcases hr : nodeByFullName name r with ⟨res, r'⟩
    rw [hr] at this
    cases res <;> exact this
  | query hd q =>
    simp only [Op.run]
    cases hp : pool[hd]? with
    | none => exact h
    | some n => exact heapSat_cacheExt h ((RO.queryRun q n).ext r)

theorem exec_heapSat {P} : ∀ (ops : List Op) {c : Client}, (∀ op ∈ ops, Op.Sat P op) → HeapSat P c.reg →
    HeapSat P (c.exec ops).reg := by
  intro ops
  induction ops with
  | nil => intro c _ h; exact h
  | cons op ops ih =>
    intro c hs h
    refine ih (c := c.step op) (fun o ho => hs o (List.mem_cons_of_mem _ ho)) ?_
    rw [step_reg]
    exact opRun_heapSat (hs op (by simp)) h

theorem reachable_heapSat {P c} (h : Reachable P c) : HeapSat P c.reg := by
  obtain ⟨W, fuel, r, ops, hW, hn, hops, rfl⟩ := h
  exact exec_heapSat ops hops (c := ⟨r, []⟩)
    (fun i f hf => readable_sat hW (newRegistry_newFrom hn i f (Nat.zero_le _) hf))

end Protoast
