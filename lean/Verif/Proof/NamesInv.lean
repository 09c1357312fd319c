import Verif.Proof.Names
/-
  Soundness of the registered names in every reachable state, completeness in states reached without
  panics while loading.
-/
namespace Protoast

/-- The heap of `r'` extends the heap of `r`. -/
def HeapLe (r r' : Reg) : Prop := ∃ l, r'.heap = r.heap ++ l

theorem HeapLe.file {r r' : Reg} (h : HeapLe r r') {i : Nat} {f : ProtoFile} (e : r.heap[i]? = some f) :
    r'.heap[i]? = some f := by
  obtain ⟨l, hl⟩ := h
  rw [hl, List.getElem?_append_left (List.getElem?_eq_some_iff.mp e).1]
  exact e

theorem HeapLe.declared {r r' : Reg} (h : HeapLe r r') {s p} : Declared r s p → Declared r' s p
  | ⟨f, hf, hn⟩ => ⟨f, h.file hf, hn⟩

/-- Everything the registry has recorded about names is right. -/
structure Sound (r : Reg) : Prop where
  wf : ∀ (i : Nat) (f : ProtoFile), r.heap[i]? = some f → WFFile f.filename f.elems
  names : ∀ name p, r.registry name = some p → Declared r name p
  scopes : ∀ p s, r.scopes (.at p) = some s → p.path ≠ [] → Declared r s p
  fileScopes : ∀ i s, r.scopes (.at ⟨i, []⟩) = some s →
    ∃ f, r.heap[i]? = some f ∧ s = packageDot f.elems
  holders : ∀ p s, r.scopes (.at p) = some s → p.path ≠ [] →
    ∃ f e, r.heap[p.file]? = some f ∧ f.elemAt p.path = some e ∧ e.kind.isEnumField = false

theorem Sound.cacheExt {r r' : Reg} (h : Sound r) (hx : CacheExt r r') : Sound r' := by
  have hd : ∀ s p, Declared r s p → Declared r' s p := fun s p => by
    unfold Declared; rw [hx.heap]; exact id
  refine ⟨?_, ?_, ?_, ?_, ?_⟩
  · rw [hx.heap]; exact h.wf
  · rw [hx.registry]; exact fun n p e => hd _ _ (h.names n p e)
  · rw [hx.scopes]; exact fun n p e g => hd _ _ (h.scopes n p e g)
  · rw [hx.scopes, hx.heap]; exact h.fileScopes
  · rw [hx.scopes, hx.heap]; exact h.holders

/-- Keys a visitor of file `i` uses for the package scope. -/
def KeyOK (key : Vis) (i : Nat) : Prop := key = .nilProto ∨ key = .at ⟨i, []⟩

/-- What the visitor of file `f` at index `i` may do. -/
def ActFine (f : ProtoFile) (key : Vis) (i : Nat) (a : Act) : Prop :=
  ActOK f i a ∨ a = .scope key (packageDot f.elems) ∨ ∃ g, a = .imp g

theorem runActs_sound {imp : Str → M Unit} {f : ProtoFile} {key : Vis} {i : Nat} (hk : KeyOK key i)
    (himp : ∀ g r, Sound r → Sound (imp g r).2) (hl : ∀ g r, LExt r (imp g r).2) :
    ∀ (as : List Act), (∀ a ∈ as, ActFine f key i a) → ∀ r, Sound r → r.heap[i]? = some f →
      Sound (runActs imp as r).2 := by
  intro as
  induction as with
  | nil => intro _ r hr _; exact hr
  | cons a as ih =>
    intro h r hr hf
    have h0 := h a (by simp)
    have ha : Sound (a.run imp r).2 ∧ (a.run imp r).2.heap[i]? = some f := by
      cases a with
      | name s p =>
        rcases h0 with h1 | h1 | ⟨g, h1⟩
        · refine ⟨⟨hr.wf, ?_, hr.scopes, hr.fileScopes, hr.holders⟩, hf⟩
          intro n q hq
          simp only [Act.run, setName, M.modify_apply, upd] at hq
          split at hq
          · next hs =>
            cases hq
            subst hs
            exact ⟨f, by rw [h1.1]; exact hf, h1.2⟩
          · exact hr.names n q hq
        · cases h1
        · cases h1
      | scope v s =>
        refine ⟨⟨hr.wf, hr.names, ?_, ?_, ?_⟩, hf⟩
        · intro q t hq hne
          simp only [Act.run, setScope, M.modify_apply, upd] at hq
          split at hq
          · next hs =>
            cases hq
            rcases h0 with ⟨q', h1, h2, h3, _⟩ | h1 | ⟨g, h1⟩
            · rw [h1] at hs
              cases hs
              exact ⟨f, by rw [h2]; exact hf, h3⟩
            · cases h1
              rcases hk with h1 | h1
              · rw [h1] at hs; cases hs
              · rw [h1] at hs; cases hs; exact absurd rfl hne
            · cases h1
          · exact hr.scopes q t hq hne
        · intro j t hq
          simp only [Act.run, setScope, M.modify_apply, upd] at hq
          split at hq
          · next hs =>
            cases hq
            rcases h0 with ⟨q', h1, h2, h3, _⟩ | h1 | ⟨g, h1⟩
            · rw [h1] at hs
              cases hs
              simp [ProtoFile.fqn] at h3
            · cases h1
              rcases hk with h1 | h1
              · rw [h1] at hs; cases hs
              · rw [h1] at hs; cases hs; exact ⟨f, hf, rfl⟩
            · cases h1
          · exact hr.fileScopes j t hq
        · intro q t hq hne
          simp only [Act.run, setScope, M.modify_apply, upd] at hq
          split at hq
          · next hs =>
            cases hq
            rcases h0 with ⟨q', h1, h2, _, e, h3, h4⟩ | h1 | ⟨g, h1⟩
            · rw [h1] at hs
              cases hs
              exact ⟨f, e, by rw [h2]; exact hf, h3, h4⟩
            · cases h1
              rcases hk with h1 | h1
              · rw [h1] at hs; cases hs
              · rw [h1] at hs; cases hs; exact absurd rfl hne
            · cases h1
          · exact hr.holders q t hq hne
      | imp g => exact ⟨himp g r hr, (hl g r).file hf⟩
    simp only [runActs, M.bind_apply]
    rcases hrun : a.run imp r with ⟨res, r'⟩
    rw [hrun] at ha
    cases res with
    | ok u => exact ih (fun b hb => h b (List.mem_cons_of_mem _ hb)) r' ha.1 ha.2
    | panic p => exact ha.1
    | timeout => exact ha.1

theorem addFile_sound {r : Reg} (h : Sound r) {path elems} (hw : WFFile path elems) :
    Sound (addFile r path elems) := by
  have hle : HeapLe r (addFile r path elems) := ⟨_, rfl⟩
  refine ⟨?_, ?_, ?_, ?_, ?_⟩
  · intro i f hf
    simp only [addFile] at hf
    by_cases hi : i < r.heap.length
    · rw [List.getElem?_append_left hi] at hf
      exact h.wf i f hf
    · rw [List.getElem?_append_right (by omega)] at hf
      cases hk : i - r.heap.length with
      | zero => rw [hk] at hf; simp at hf; subst hf; exact hw
      | succ k => rw [hk] at hf; simp at hf
  · intro n p e
    exact hle.declared (h.names n p e)
  · intro p s e g
    exact hle.declared (h.scopes p s e g)
  · intro i s e
    obtain ⟨f, hf, hs⟩ := h.fileScopes i s e
    exact ⟨f, hle.file hf, hs⟩
  · intro p s e g
    obtain ⟨f, el, hf, hs⟩ := h.holders p s e g
    exact ⟨f, el, hle.file hf, hs⟩

theorem fileActs_fine {f : ProtoFile} {path : Str} {key : Vis} {i : Nat} (hw : WFFile path f.elems) :
    ∀ a ∈ fileActs key i f.elems, ActFine f key i a := by
  intro a ha
  rcases fileActs_ok hw a ha with h | h | ⟨g, h, _⟩
  · exact .inl h
  · exact .inr (.inl h)
  · exact .inr (.inr ⟨g, h⟩)

theorem visitImport_sound {W : World} (hW : W.Sat WFFile) : ∀ n path r, Sound r →
    Sound (visitImport W n path r).2 := by
  intro n
  induction n with
  | zero => intro path r h; exact h
  | succ n ih =>
    intro path r h
    unfold visitImport
    simp only [M.bind_apply, M.get_apply]
    cases hp : r.protos path with
    | some i => exact h
    | none =>
      simp only [M.bind_apply]
      rcases protoFile_cases W path r with ⟨i, hi, e⟩ | ⟨_, er, e⟩ | ⟨hn, nm, elems, _, hload, e⟩
      · rw [hi] at hp; cases hp
      · rw [e]; exact h
      · rw [e]
        simp only
        have hw := hW _ _ _ hload
        rw [acceptFile_eq (f := ⟨path, elems⟩) (by simp [Protoast.addFile])]
        exact runActs_sound (f := ⟨path, elems⟩) (.inl rfl) ih (visitImport_lext W n) _
          (fileActs_fine (path := path) hw) _ (addFile_sound h hw) (by simp [addFile])

theorem protoNew_sound {W : World} (hW : W.Sat WFFile) {fuel path elems r} (h : Sound r)
    (hw : WFFile path elems) : Sound (protoNew W fuel path elems r).2 := by
  have := runActs_sound (f := ⟨path, elems⟩) (key := .at ⟨r.heap.length, []⟩) (i := r.heap.length)
    (.inr rfl) (visitImport_sound hW fuel) (visitImport_lext W fuel) _
    (fileActs_fine (path := path) hw) _ (addFile_sound h hw) (by simp [addFile])
  unfold protoNew
  rcases hr : runActs (visitImport W fuel) (fileActs (.at ⟨r.heap.length, []⟩) r.heap.length elems)
      (addFile r path elems) with ⟨res, r'⟩
  rw [hr] at this
  cases res with
  | ok u => exact ⟨this.wf, this.names, this.scopes, this.fileScopes, this.holders⟩
  | panic p => exact this
  | timeout => exact this

theorem proto_sound {W : World} (hW : W.Sat WFFile) {fuel path r} (h : Sound r) :
    Sound (proto W fuel path r).2 := by
  rcases proto_cases W path r with ⟨i, hi, e⟩ | ⟨_, er, e⟩ | ⟨hn, nm, elems, _, hload, e⟩
  · rw [e]; exact ⟨h.wf, h.names, h.scopes, h.fileScopes, h.holders⟩
  · rw [e]; exact h
  · rw [e]; exact protoNew_sound hW h (hW _ _ _ hload)

theorem opRun_sound {pool : List Node} {op : Op} (hop : Op.Sat WFFile op) {r : Reg} (h : Sound r) :
    Sound (op.run pool r).2 := by
  cases op with
  | proto W fuel path =>
    have := proto_sound hop (fuel := fuel) (path := path) h
    simp only [Op.run, M.bind_apply]
    rcases hr : proto W fuel path r with ⟨res, r'⟩
    rw [hr] at this
    cases res with
    | ok x => cases x <;> exact this
    | panic p => exact this
    | timeout => exact this
  | byName name =>
    have := h.cacheExt ((RO.nodeByFullName name).ext r)
    simp only [Op.run, M.bind_apply]
    rcases hr : nodeByFullName name r with ⟨res, r'⟩
    rw [hr] at this
    cases res <;> exact this
  | query hd q =>
    simp only [Op.run]
    cases hp : pool[hd]? with
    | none => exact h
    | some n => exact h.cacheExt ((RO.queryRun q n).ext r)

theorem step_reg (c : Client) (op : Op) : (c.step op).reg = (op.run c.pool c.reg).2 := by
  unfold Client.step
  rcases op.run c.pool c.reg with ⟨res, r'⟩
  cases res <;> rfl

theorem exec_sound : ∀ (ops : List Op) {c : Client}, (∀ op ∈ ops, Op.Sat WFFile op) → Sound c.reg →
    Sound (c.exec ops).reg := by
  intro ops
  induction ops with
  | nil => intro c _ h; exact h
  | cons op ops ih =>
    intro c hs h
    refine ih (c := c.step op) (fun o ho => hs o (List.mem_cons_of_mem _ ho)) ?_
    rw [step_reg]
    exact opRun_sound (hs op (by simp)) h

theorem sound_empty : Sound Reg.empty :=
  ⟨(by intro i f h; simp [Reg.empty] at h), (by intro n p h; cases h), (by intro p s h; cases h),
    (by intro i s h; cases h), (by intro p s h; cases h)⟩

/-- The state after `NewRegistry`, described through `protoNew`. -/
theorem newRegistry_ok {W fuel r} (h : newRegistry W fuel = (.ok (.ok ()), r)) :
    ∃ name elems, locate descriptorPath W.resolvers = .ok name ∧ W.load name descriptorPath = .ok elems ∧
      runActs (visitImport W fuel) (fileActs (.at ⟨0, []⟩) 0 elems)
        (addFile Reg.empty descriptorPath elems) = (.ok (), r) := by
  unfold newRegistry demarkFile at h
  simp only [M.bind_apply] at h
  rcases protoFile_cases W descriptorPath Reg.empty with ⟨i, hi, e⟩ | ⟨_, er, e⟩ | ⟨hn, nm, elems, hloc, hload, e⟩
  · cases hi
  · rw [e] at h; simp at h
  · refine ⟨nm, elems, hloc, hload, ?_⟩
    rw [e] at h
    simp only [M.bind_apply] at h
    rw [acceptFile_eq (f := ⟨descriptorPath, elems⟩) (by simp [Protoast.addFile])] at h
    have h0 : Reg.empty.heap.length = 0 := rfl
    rw [h0] at h
    rcases hr : runActs (visitImport W fuel) (fileActs (.at ⟨0, []⟩) 0 elems)
      (addFile Reg.empty descriptorPath elems) with ⟨res, r'⟩
    rw [hr] at h
    cases res <;> simp at h
    rw [h]

theorem newRegistry_sound {W fuel r} (hW : W.Sat WFFile) (h : newRegistry W fuel = (.ok (.ok ()), r)) :
    Sound r := by
  obtain ⟨nm, elems, _, hload, hr⟩ := newRegistry_ok h
  have hw := hW _ _ _ hload
  have := runActs_sound (f := ⟨descriptorPath, elems⟩) (key := .at ⟨0, []⟩) (i := 0)
    (.inr rfl) (visitImport_sound hW fuel) (visitImport_lext W fuel) _
    (fileActs_fine (path := descriptorPath) hw) _ (addFile_sound sound_empty hw) (by simp [addFile, Reg.empty])
  rw [hr] at this
  exact this

theorem reachable_sound {c} (h : Reachable WFFile c) : Sound c.reg := by
  obtain ⟨W, fuel, r, ops, hW, hn, hops, rfl⟩ := h
  exact exec_sound ops hops (newRegistry_sound hW hn)

/-! ### Completeness -/

/-- File `f` at index `i` is fully registered. -/
structure FileDone (r : Reg) (i : Nat) (f : ProtoFile) : Prop where
  names : ∀ path name, f.fqn path = some name → (r.registry name).isSome = true
  scopes : ∀ path name, f.fqn path = some name →
    (∀ e, f.elemAt path = some e → ∀ n v, e.kind ≠ .enumField n v) →
    (r.scopes (.at ⟨i, path⟩)).isSome = true
  imports : ∀ g ∈ topImports f.elems, (r.protos g).isSome = true

theorem protos_isSome {r r' : Reg} (h : ∀ s i, r.protos s = some i → r'.protos s = some i) {g}
    (e : (r.protos g).isSome = true) : (r'.protos g).isSome = true := by
  obtain ⟨i, hi⟩ := Option.isSome_iff_exists.mp e
  rw [h _ _ hi]; rfl

theorem FileDone.lext {r r' i f} (h : FileDone r i f) (hx : LExt r r') : FileDone r' i f :=
  ⟨fun p n e => hx.names _ (h.names p n e), fun p n e g => hx.scopes _ (h.scopes p n e g),
    fun g hg => protos_isSome hx.protos (h.imports g hg)⟩

theorem FileDone.cacheExt {r r' i f} (h : FileDone r i f) (hx : CacheExt r r') : FileDone r' i f :=
  ⟨fun p n e => by rw [hx.registry]; exact h.names p n e,
    fun p n e g => by rw [hx.scopes]; exact h.scopes p n e g,
    fun g hg => by rw [hx.protos]; exact h.imports g hg⟩

/-- The files from index `b` on are fully registered. -/
def DoneFrom (b : Nat) (r : Reg) : Prop := ∀ i f, b ≤ i → r.heap[i]? = some f → FileDone r i f

/-- After a successful run every action has had its effect and all files loaded meanwhile are done. -/
theorem runActs_done {imp : Str → M Unit} (hl : ∀ g r, LExt r (imp g r).2)
    (himp : ∀ g r r', Sound r → imp g r = (.ok (), r') → (r'.protos g).isSome = true ∧
      DoneFrom r.heap.length r' ∧ Sound r') {f : ProtoFile} {key : Vis} {i : Nat} (hk : KeyOK key i)
    (hs : ∀ g r, Sound r → Sound (imp g r).2) :
    ∀ (as : List Act), (∀ a ∈ as, ActFine f key i a) → ∀ r r', Sound r → r.heap[i]? = some f →
      runActs imp as r = (.ok (), r') →
      (∀ s p, Act.name s p ∈ as → (r'.registry s).isSome = true) ∧
      (∀ v s, Act.scope v s ∈ as → (r'.scopes v).isSome = true) ∧
      (∀ g, Act.imp g ∈ as → (r'.protos g).isSome = true) ∧ DoneFrom r.heap.length r' := by
  intro as
  induction as with
  | nil =>
    intro _ r r' _ _ h
    cases h
    refine ⟨by simp, by simp, by simp, ?_⟩
    intro j g hj hg
    rw [List.getElem?_eq_none (by omega)] at hg
    cases hg
  | cons a as ih =>
    intro hfine r r' hr hf h
    have h1 := runActs_sound hk hs hl [a] (by
      intro b hb; simp only [List.mem_singleton] at hb; subst hb; exact hfine _ (by simp)) r hr hf
    simp only [runActs, M.bind_apply] at h h1
    rcases hrun : a.run imp r with ⟨res, r1⟩
    rw [hrun] at h h1
    cases res with
    | panic p => cases h
    | timeout => cases h
    | ok u =>
      simp only [M.pure_apply] at h h1
      have hx1 : LExt r r1 := by
        have : LExt r (a.run imp r).2 := by
          cases a with
          | name s p => exact LExt.setName s p r
          | scope v s => exact LExt.setScope v s r
          | imp f => exact hl f r
        rw [hrun] at this
        exact this
      have hx2 : LExt r1 r' := by
        have := runActs_lext (imp := imp) as (fun f _ r => hl f r) r1
        rw [h] at this
        exact this
      obtain ⟨i1, i2, i3, i4⟩ := ih (fun b hb => hfine b (List.mem_cons_of_mem _ hb)) r1 r' h1
        (hx1.file hf) h
      have ha : (∀ s p, Act.name s p = a → (r1.registry s).isSome = true) ∧
          (∀ v s, Act.scope v s = a → (r1.scopes v).isSome = true) ∧
          (∀ g, Act.imp g = a → (r1.protos g).isSome = true) ∧ DoneFrom r.heap.length r1 := by
        have hno : r1.heap = r.heap → DoneFrom r.heap.length r1 := by
          intro e j g hj hg
          rw [e, List.getElem?_eq_none (by omega)] at hg
          cases hg
        cases a with
        | name s p =>
          simp only [Act.run, setName, M.modify_apply] at hrun
          cases hrun
          refine ⟨?_, by simp, by simp, hno rfl⟩
          intro s' p' e; cases e; simp [upd]
        | scope v s =>
          simp only [Act.run, setScope, M.modify_apply] at hrun
          cases hrun
          refine ⟨by simp, ?_, by simp, hno rfl⟩
          intro s' p' e; cases e; simp [upd]
        | imp g =>
          obtain ⟨j1, j2, _⟩ := himp g r r1 hr hrun
          refine ⟨by simp, by simp, ?_, j2⟩
          intro g' e; cases e; exact j1
      refine ⟨?_, ?_, ?_, ?_⟩
      · intro s p hm
        rcases List.mem_cons.mp hm with e | e
        · exact hx2.names _ (ha.1 s p e)
        · exact i1 s p e
      · intro v s hm
        rcases List.mem_cons.mp hm with e | e
        · exact hx2.scopes _ (ha.2.1 v s e)
        · exact i2 v s e
      · intro g hm
        rcases List.mem_cons.mp hm with e | e
        · exact protos_isSome hx2.protos (ha.2.2.1 g e)
        · exact i3 g e
      · intro j g hj hg
        by_cases hlt : j < r1.heap.length
        · rw [hx2.file_eq hlt] at hg
          exact (ha.2.2.2 j g hj hg).lext hx2
        · exact i4 j g (by omega) hg

/-- After a successful visit of a new file, it and everything loaded meanwhile is done. -/
theorem visitFile_done {imp : Str → M Unit} (hl : ∀ g r, LExt r (imp g r).2)
    (himp : ∀ g r r', Sound r → imp g r = (.ok (), r') → (r'.protos g).isSome = true ∧
      DoneFrom r.heap.length r' ∧ Sound r') (hs : ∀ g r, Sound r → Sound (imp g r).2)
    {key : Vis} {r r' : Reg} {path elems} (hw : WFFile path elems) (hk : KeyOK key r.heap.length)
    (hr : Sound r) (h : runActs imp (fileActs key r.heap.length elems) (addFile r path elems) = (.ok (), r')) :
    DoneFrom r.heap.length r' ∧
      (packageDot elems ≠ [] → (r'.scopes key).isSome = true) := by
  have hfile : (addFile r path elems).heap[r.heap.length]? = some ⟨path, elems⟩ := by simp [addFile]
  obtain ⟨h1, h2, h3, h4⟩ := runActs_done hl himp (f := ⟨path, elems⟩) hk hs _
    (fileActs_fine (path := path) hw) (addFile r path elems) r' (addFile_sound hr hw) hfile h
  have hx : LExt (addFile r path elems) r' := by
    have := runActs_lext (imp := imp) (fileActs key r.heap.length elems) (fun f _ r => hl f r)
      (addFile r path elems)
    rw [h] at this
    exact this
  constructor
  · intro j g hj hg
    by_cases hlt : j < (addFile r path elems).heap.length
    · have : j = r.heap.length := by simp [addFile] at hlt; omega
      subst this
      rw [hx.file hfile] at hg
      cases hg
      refine ⟨?_, ?_, ?_⟩
      · intro p n e
        exact h1 _ _ (fileActs_complete (f := ⟨path, elems⟩) (key := key) (i := r.heap.length) hw e).1
      · intro p n e hne
        exact h2 _ _ ((fileActs_complete (f := ⟨path, elems⟩) (key := key) (i := r.heap.length) hw e).2 hne)
      · intro g hg
        exact h3 _ (fileActs_imports (f := ⟨path, elems⟩) hw hg)
    · exact h4 j g (by omega) hg
  · intro hne
    exact h2 _ _ (fileActs_package (f := ⟨path, elems⟩) hw hne)

theorem visitImport_done {W : World} (hW : W.Sat WFFile) : ∀ n path r r', Sound r →
    visitImport W n path r = (.ok (), r') →
    (r'.protos path).isSome = true ∧ DoneFrom r.heap.length r' ∧ Sound r' := by
  intro n
  induction n with
  | zero => intro path r r' _ h; cases h
  | succ n ih =>
    intro path r r' hr h
    have hsound : Sound r' := by
      have := visitImport_sound hW (n + 1) path r hr
      rw [h] at this
      exact this
    unfold visitImport at h
    simp only [M.bind_apply, M.get_apply] at h
    cases hp : r.protos path with
    | some i =>
      rw [hp] at h
      cases h
      refine ⟨by rw [hp]; rfl, ?_, hsound⟩
      intro j g hj hg
      rw [List.getElem?_eq_none (by omega)] at hg
      cases hg
    | none =>
      rw [hp] at h
      simp only [M.bind_apply] at h
      rcases protoFile_cases W path r with ⟨i, hi, e⟩ | ⟨_, er, e⟩ | ⟨hn, nm, elems, _, hload, e⟩
      · rw [hi] at hp; cases hp
      · rw [e] at h; cases h
      · rw [e] at h
        simp only at h
        have hw := hW _ _ _ hload
        rw [acceptFile_eq (f := ⟨path, elems⟩) (by simp [Protoast.addFile])] at h
        have hd := visitFile_done (visitImport_lext W n) ih (visitImport_sound hW n) hw (.inl rfl) hr h
        have hx := runActs_lext (imp := visitImport W n) (fileActs .nilProto r.heap.length elems)
          (fun f _ r => visitImport_lext W n f r) (addFile r path elems)
        rw [h] at hx
        refine ⟨?_, hd.1, hsound⟩
        rw [hx.protos path r.heap.length (by simp [addFile, upd])]
        rfl

/-- All loaded files are fully registered. -/
def Complete (r : Reg) : Prop := DoneFrom 0 r

theorem proto_done {W : World} (hW : W.Sat WFFile) {fuel path r x r'} (hs : Sound r) (hc : Complete r)
    (h : proto W fuel path r = (.ok x, r')) : Complete r' := by
  rcases proto_cases W path r with ⟨i, hi, e⟩ | ⟨_, er, e⟩ | ⟨hn, nm, elems, _, hload, e⟩
  · rw [e] at h; cases h
    exact fun j f hj hf => let d := hc j f hj hf; ⟨d.names, d.scopes, d.imports⟩
  · rw [e] at h; cases h; exact hc
  · rw [e] at h
    unfold protoNew at h
    rcases hr : runActs (visitImport W fuel) (fileActs (.at ⟨r.heap.length, []⟩) r.heap.length elems)
      (addFile r path elems) with ⟨res, r1⟩
    rw [hr] at h
    cases res with
    | panic p => cases h
    | timeout => cases h
    | ok u =>
      have hd := (visitFile_done (visitImport_lext W fuel) (visitImport_done hW fuel)
        (visitImport_sound hW fuel) (hW _ _ _ hload) (.inr rfl) hs hr).1
      have hx := (LExt.addFile (elems := elems) hn).trans
        (runActs_lext (imp := visitImport W fuel)
          (fileActs (.at ⟨r.heap.length, []⟩) r.heap.length elems)
          (fun f _ r => visitImport_lext W fuel f r) (addFile r path elems))
      rw [hr] at hx
      cases h
      intro j f hj hf
      have : FileDone r1 j f := by
        by_cases hlt : j < r.heap.length
        · have hf' : r1.heap[j]? = some f := hf
          rw [hx.file_eq hlt] at hf'
          exact (hc j f hj hf').lext hx
        · exact hd j f (by omega) hf
      exact ⟨this.names, this.scopes, this.imports⟩

theorem Complete.cacheExt {r r' : Reg} (h : Complete r) (hx : CacheExt r r') : Complete r' := by
  intro j f hj hf
  rw [hx.heap] at hf
  exact (h j f hj hf).cacheExt hx

theorem exec_complete : ∀ (ops : List Op) {c : Client}, (∀ op ∈ ops, Op.Sat WFFile op) → LoadsOK c ops →
    Sound c.reg → Complete c.reg → Complete (c.exec ops).reg := by
  intro ops
  induction ops with
  | nil => intro c _ _ _ h; exact h
  | cons op ops ih =>
    intro c hops hl hs hc
    have hs' : Sound (c.step op).reg := by rw [step_reg]; exact opRun_sound (hops op (by simp)) hs
    refine ih (c := c.step op) (fun o ho => hops o (List.mem_cons_of_mem _ ho)) hl.2 hs' ?_
    rw [step_reg]
    cases op with
    | proto W fuel path =>
      obtain ⟨x, hx⟩ := hl.1
      simp only [Op.run, M.bind_apply]
      rcases hr : proto W fuel path c.reg with ⟨res, r'⟩
      rw [hr] at hx
      simp only at hx
      subst hx
      have := proto_done (W := W) (hops (.proto W fuel path) (by simp)) hs hc hr
      cases x <;> exact this
    | byName name =>
      have := hc.cacheExt ((RO.nodeByFullName name).ext c.reg)
      simp only [Op.run, M.bind_apply]
      rcases hr : nodeByFullName name c.reg with ⟨res, r'⟩
      rw [hr] at this
      cases res <;> exact this
    | query hd q =>
      simp only [Op.run]
      cases hp : c.pool[hd]? with
      | none => exact hc
      | some n => exact hc.cacheExt ((RO.queryRun q n).ext c.reg)

theorem newRegistry_complete {W fuel r} (hW : W.Sat WFFile)
    (h : newRegistry W fuel = (.ok (.ok ()), r)) : Complete r := by
  obtain ⟨nm, elems, _, hload, hr⟩ := newRegistry_ok h
  exact (visitFile_done (r := Reg.empty) (path := descriptorPath) (visitImport_lext W fuel)
    (visitImport_done hW fuel) (visitImport_sound hW fuel) (hW _ _ _ hload) (.inr rfl) sound_empty hr).1

theorem clean_reachable {P c} (h : CleanReachable P c) : Reachable P c := by
  obtain ⟨W, fuel, r, ops, h1, h2, h3, _, h5⟩ := h
  exact ⟨W, fuel, r, ops, h1, h2, h3, h5⟩

theorem clean_complete {c} (h : CleanReachable WFFile c) : Complete c.reg := by
  obtain ⟨W, fuel, r, ops, hW, hn, hops, hl, rfl⟩ := h
  exact exec_complete ops hops hl (newRegistry_sound hW hn) (newRegistry_complete hW hn)

end Protoast
