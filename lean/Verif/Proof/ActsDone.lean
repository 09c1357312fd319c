import Verif.Proof.Induct
/-
  In states reached without a panicking load, every action of every loaded file has had its effect. No assumption about
  the files.
-/
namespace Protoast

/-- The action has had its effect: the name, the scope or the file is recorded. -/
def Act.done (r : Reg) : Act → Prop
  | .name s _ => (r.registry s).isSome = true
  | .scope v _ => (r.scopes v).isSome = true
  | .imp g => (r.protos g).isSome = true

theorem Act.done_lext {r r' : Reg} {a : Act} (h : a.done r) (hx : LExt r r') : a.done r' := by
  cases a with
  | name s p => exact hx.names _ h
  | scope v s => exact hx.scopes _ h
  | imp g => exact protos_isSome hx.protos h

/-- All actions of the file have had their effect. -/
def ActsDone (r : Reg) (i : Nat) (f : ProtoFile) : Prop :=
  ∃ key, KeyOK key i ∧ ∀ a ∈ fileActs key i f.elems, a.done r

theorem ActsDone.lext {r r' : Reg} {i f} (h : ActsDone r i f) (hx : LExt r r') : ActsDone r' i f := by
  obtain ⟨key, hk, h⟩ := h
  exact ⟨key, hk, fun a ha => Act.done_lext (h a ha) hx⟩

def ActsFrom (b : Nat) (r : Reg) : Prop := ∀ i f, b ≤ i → r.heap[i]? = some f → ActsDone r i f

theorem ActsFrom.trans {r r' : Reg} {b : Nat} (h : ActsFrom b r) (hx : LExt r r')
    (h' : ActsFrom r.heap.length r') : ActsFrom b r' := by
  intro j g hj hg
  by_cases hlt : j < r.heap.length
  · rw [hx.file_eq hlt] at hg
    exact (h j g hj hg).lext hx
  · exact h' j g (by omega) hg

theorem actsFrom_same {r r' : Reg} (e : r'.heap = r.heap) : ActsFrom r.heap.length r' := by
  intro j g hj hg
  rw [e, List.getElem?_eq_none (by omega)] at hg
  cases hg

theorem act_lext {imp : Str → M Unit} (hl : ∀ g r, LExt r (imp g r).2) (a : Act) (r : Reg) :
    LExt r (a.run imp r).2 := by
  cases a with
  | name s p => exact LExt.setName s p r
  | scope v s => exact LExt.setScope v s r
  | imp f => exact hl f r

theorem runActs_actsDone {imp : Str → M Unit} (hl : ∀ g r, LExt r (imp g r).2)
    (himp : ∀ g r r', imp g r = (.ok (), r') → (r'.protos g).isSome = true ∧ ActsFrom r.heap.length r') :
    ∀ (as : List Act) r r', runActs imp as r = (.ok (), r') →
      (∀ a ∈ as, a.done r') ∧ ActsFrom r.heap.length r' := by
  intro as
  induction as with
  | nil => intro r r' h; cases h; exact ⟨by simp, actsFrom_same rfl⟩
  | cons a as ih =>
    intro r r' h
    have hx1 := act_lext hl a r
    simp only [runActs, M.bind_apply] at h
    rcases hrun : a.run imp r with ⟨res, r1⟩
    rw [hrun] at h hx1
    cases res with
    | panic p => cases h
    | timeout => cases h
    | ok u =>
      simp only at h hx1
      have hx2 := runActs_lext (imp := imp) as (fun f _ r => hl f r) r1
      rw [h] at hx2
      obtain ⟨i1, i2⟩ := ih r1 r' h
      have ha : a.done r1 ∧ ActsFrom r.heap.length r1 := by
        cases a with
        | name s p =>
          simp only [Act.run, setName, M.modify_apply] at hrun
          cases hrun
          exact ⟨by simp [Act.done, upd], actsFrom_same rfl⟩
        | scope v s =>
          simp only [Act.run, setScope, M.modify_apply] at hrun
          cases hrun
          exact ⟨by simp [Act.done, upd], actsFrom_same rfl⟩
        | imp g => exact himp g r r1 hrun
      refine ⟨?_, ha.2.trans hx2 i2⟩
      intro b hb
      rcases List.mem_cons.mp hb with rfl | hb
      · exact Act.done_lext ha.1 hx2
      · exact i1 b hb

theorem visitFile_actsDone {imp : Str → M Unit} (hl : ∀ g r, LExt r (imp g r).2)
    (himp : ∀ g r r', imp g r = (.ok (), r') → (r'.protos g).isSome = true ∧ ActsFrom r.heap.length r')
    {key : Vis} {r r' : Reg} {path elems} (hk : KeyOK key r.heap.length)
    (h : runActs imp (fileActs key r.heap.length elems) (addFile r path elems) = (.ok (), r')) :
    ActsFrom r.heap.length r' := by
  have hfile : (addFile r path elems).heap[r.heap.length]? = some ⟨path, elems⟩ := by simp [addFile]
  obtain ⟨h1, h2⟩ := runActs_actsDone hl himp _ _ _ h
  have hx := runActs_lext (imp := imp) (fileActs key r.heap.length elems) (fun f _ r => hl f r)
      (addFile r path elems)
  rw [h] at hx
  intro j g hj hg
  by_cases hlt : j < (addFile r path elems).heap.length
  · have : j = r.heap.length := by simp [addFile] at hlt; omega
    subst this
    rw [hx.file hfile] at hg
    cases hg
    exact ⟨key, hk, h1⟩
  · exact h2 j g (by omega) hg

theorem visitImport_actsDone (W : World) : ∀ n path r r', visitImport W n path r = (.ok (), r') →
    (r'.protos path).isSome = true ∧ ActsFrom r.heap.length r' := by
  intro n
  induction n with
  | zero => intro path r r' h; cases h
  | succ n ih =>
    intro path r r' h
    unfold visitImport at h
    simp only [M.bind_apply, M.get_apply] at h
    cases hp : r.protos path with
    | some i =>
      rw [hp] at h
      cases h
      exact ⟨by rw [hp]; rfl, actsFrom_same rfl⟩
    | none =>
      rw [hp] at h
      simp only [M.bind_apply] at h
      rcases protoFile_cases W path r with ⟨i, hi, e⟩ | ⟨_, er, e⟩ | ⟨hn, nm, elems, _, hload, e⟩
      · rw [hi] at hp; cases hp
      · rw [e] at h; cases h
      · rw [e] at h
        simp only at h
        rw [acceptFile_eq (f := ⟨path, elems⟩) (by simp [Protoast.addFile])] at h
        have hd := visitFile_actsDone (visitImport_lext W n) ih (.inl rfl) h
        have hx := runActs_lext (imp := visitImport W n) (fileActs .nilProto r.heap.length elems)
          (fun f _ r => visitImport_lext W n f r) (addFile r path elems)
        rw [h] at hx
        refine ⟨?_, hd⟩
        rw [hx.protos path r.heap.length (by simp [addFile, upd])]
        rfl

theorem ActsFrom.cacheExt {r r' : Reg} {b} (h : ActsFrom b r) (hx : CacheExt r r') : ActsFrom b r' := by
  intro j f hj hf
  rw [hx.heap] at hf
  obtain ⟨key, hk, h⟩ := h j f hj hf
  refine ⟨key, hk, fun a ha => ?_⟩
  have := h a ha
  cases a with
  | name s p => simpa only [Act.done, hx.registry] using this
  | scope v s => simpa only [Act.done, hx.scopes] using this
  | imp g => simpa only [Act.done, hx.protos] using this

theorem proto_actsDone {W : World} {fuel path r x r'} (hc : ActsFrom 0 r)
    (h : proto W fuel path r = (.ok x, r')) : ActsFrom 0 r' := by
  have hnext : ∀ r' : Reg, ActsFrom 0 r' → ActsFrom 0 { r' with next := r'.next + 1 } := fun r' hq =>
    hq.cacheExt ⟨rfl, rfl, rfl, rfl, fun _ _ e => e, fun _ _ e => e, by simp, fun _ _ _ _ h => .inl h⟩
  rcases proto_cases W path r with ⟨i, hi, e⟩ | ⟨_, er, e⟩ | ⟨hn, nm, elems, _, hload, e⟩
  · rw [e] at h; cases h; exact hnext _ hc
  · rw [e] at h; cases h; exact hc
  · rw [e] at h
    unfold protoNew at h
    rcases hr : runActs (visitImport W fuel) (fileActs (.at ⟨r.heap.length, []⟩) r.heap.length elems)
      (addFile r path elems) with ⟨res, r1⟩
    rw [hr] at h
    cases res with
    | panic p => cases h
    | timeout => cases h
    | ok u =>
      have hd := visitFile_actsDone (visitImport_lext W fuel) (visitImport_actsDone W fuel) (.inr rfl) hr
      have hx := (LExt.addFile (elems := elems) hn).trans
        (runActs_lext (imp := visitImport W fuel)
          (fileActs (.at ⟨r.heap.length, []⟩) r.heap.length elems)
          (fun f _ r => visitImport_lext W fuel f r) (addFile r path elems))
      rw [hr] at hx
      cases h
      exact hnext _ (hc.trans hx hd)

/-- In a state reached without a panicking load, every action of every loaded file has had its effect. -/
theorem clean_actsDone {P c} (h : CleanReachable P c) : ∀ (i : Nat) (f : ProtoFile), c.reg.heap[i]? = some f → ActsDone c.reg i f := by
  obtain ⟨W, fuel, r, ops, hW, hn, hops, hl, rfl⟩ := h
  have h0 : ActsFrom 0 r := by
    obtain ⟨nm, elems, _, hload, hr⟩ := newRegistry_ok hn
    exact visitFile_actsDone (r := Reg.empty) (path := descriptorPath) (visitImport_lext W fuel)
      (visitImport_actsDone W fuel) (.inr rfl) hr
  suffices ∀ (ops : List Op) (c : Client), LoadsOK c ops → ActsFrom 0 c.reg → ActsFrom 0 (c.exec ops).reg from
    fun i f hf => this ops ⟨r, []⟩ hl h0 i f (Nat.zero_le _) hf
  intro ops
  induction ops with
  | nil => intro c _ h; exact h
  | cons op ops ih =>
    intro c hl hc
    refine ih (c.step op) hl.2 ?_
    rw [step_reg]
    cases op with
    | proto W fuel path =>
      obtain ⟨x, hx⟩ := hl.1
      simp only [Op.run, M.bind_apply]
      rcases hr : proto W fuel path c.reg with ⟨res, r'⟩
      rw [hr] at hx
      simp only at hx
      subst hx
      have := proto_actsDone (W := W) hc hr
      cases x <;> exact this
    | byName name =>
      have := hc.cacheExt ((RO.nodeByFullName name).ext c.reg)
      simp only [Op.run, M.bind_apply]
      rcases hr : nodeByFullName name c.reg with ⟨res, r'⟩
      rw [hr] at this
      cases res <;> exact this
    | query hd q =>
      simp only [Op.run]
      cases hp : c.pool[hd]? with
      | none => exact hc
      | some n => exact hc.cacheExt ((RO.queryRun q n).ext c.reg)

end Protoast
