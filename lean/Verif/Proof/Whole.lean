import Verif.Proof.Stuck
import Verif.Proof.ActsDone
/-
  In every reachable state, what is recorded of a file is what a number of its first statements declare.
-/
namespace Protoast

/-- Of every file exactly what a number of its first statements declare is recorded; the next statement is an import, or
    there is none. -/
def Stand (r : Reg) : Prop :=
  ∀ (i : Nat) f, r.heap[i]? = some f → ∃ k, HalfDone r i f k ∧ (k = f.elems.length ∨ ∃ m, ImportAt f k m)

theorem HalfDone.congr {r r' : Reg} {i f k} (h : HalfDone r i f k) (h1 : r'.protos = r.protos)
    (h2 : r'.registry = r.registry) (h3 : r'.scopes = r.scopes) : HalfDone r' i f k := by
  obtain ⟨a, b, c, d, e⟩ := h
  exact ⟨by rw [h2]; exact a, by rw [h3]; exact b, by rw [h1]; exact c, by rw [h2]; exact d, by rw [h3]; exact e⟩

theorem Stand.congr {r r' : Reg} (h : Stand r) (h0 : r'.heap = r.heap) (h1 : r'.protos = r.protos)
    (h2 : r'.registry = r.registry) (h3 : r'.scopes = r.scopes) : Stand r' := by
  intro i f hf
  rw [h0] at hf
  obtain ⟨k, hk, hs⟩ := h i f hf
  exact ⟨k, hk.congr h1 h2 h3, hs⟩

theorem InFront.mono {p : List Nat} {k k' : Nat} (h : InFront p k) (hk : k ≤ k') : InFront p k' := by
  obtain ⟨j, hj, hlt⟩ := h
  exact ⟨j, hj, by omega⟩

/-- What is recorded after a run of actions without imports. -/
theorem runActs_entries {imp : Str → M Unit} : ∀ (as : List Act), (∀ g, Act.imp g ∉ as) → ∀ r,
    (∀ s q, (runActs imp as r).2.registry s = some q → r.registry s = some q ∨ Act.name s q ∈ as) ∧
    (∀ v, ((runActs imp as r).2.scopes v).isSome = true → (r.scopes v).isSome = true ∨ ∃ s, Act.scope v s ∈ as) ∧
    (∀ s q, Act.name s q ∈ as → ((runActs imp as r).2.registry s).isSome = true) ∧
    (∀ v s, Act.scope v s ∈ as → ((runActs imp as r).2.scopes v).isSome = true) ∧
    (runActs imp as r).2.heap = r.heap := by
  intro as
  induction as with
  | nil =>
    intro _ r
    exact ⟨fun _ _ h => .inl h, fun _ h => .inl h, fun _ _ h => (by cases h), fun _ _ h => (by cases h), rfl⟩
  | cons a as ih =>
    intro h r
    have h' : ∀ g, Act.imp g ∉ as := fun g hg => h g (List.mem_cons_of_mem _ hg)
    have hlx : ∀ r, LExt r (runActs imp as r).2 :=
      fun r => runActs_lext as (fun g hg => absurd hg (h' g)) r
    cases a with
    | name s0 p0 =>
      obtain ⟨i1, j1, i3, j3, i4⟩ := ih h' (setName s0 p0 r).2
      have e : runActs imp (.name s0 p0 :: as) r = runActs imp as (setName s0 p0 r).2 := rfl
      rw [e]
      refine ⟨fun s q hq => ?_, fun v hv => ?_, fun s q hq => ?_, fun v s hv => ?_, i4⟩
      · rcases i1 s q hq with g | g
        · simp only [setName, M.modify_apply, upd] at g
          by_cases hs : s = s0
          · subst hs; simp at g; subst g; exact .inr (by simp)
          · rw [if_neg hs] at g; exact .inl g
        · exact .inr (List.mem_cons_of_mem _ g)
      · rcases j1 v hv with g | ⟨s, g⟩
        · exact .inl g
        · exact .inr ⟨s, List.mem_cons_of_mem _ g⟩
      · rcases List.mem_cons.mp hq with g | g
        · cases g
          exact (hlx _).names _ (by simp [setName, upd])
        · exact i3 s q g
      · rcases List.mem_cons.mp hv with g | g
        · cases g
        · exact j3 v s g
    | scope v0 s0 =>
      obtain ⟨i1, j1, i3, j3, i4⟩ := ih h' (setScope v0 s0 r).2
      have e : runActs imp (.scope v0 s0 :: as) r = runActs imp as (setScope v0 s0 r).2 := rfl
      rw [e]
      refine ⟨fun s q hq => ?_, fun v hv => ?_, fun s q hq => ?_, fun v s hv => ?_, i4⟩
      · rcases i1 s q hq with g | g
        · exact .inl g
        · exact .inr (List.mem_cons_of_mem _ g)
      · rcases j1 v hv with g | ⟨s, g⟩
        · simp only [setScope, M.modify_apply, upd] at g
          by_cases hs : v = v0
          · subst hs; exact .inr ⟨s0, by simp⟩
          · rw [if_neg hs] at g; exact .inl g
        · exact .inr ⟨s, List.mem_cons_of_mem _ g⟩
      · rcases List.mem_cons.mp hq with g | g
        · cases g
        · exact i3 s q g
      · rcases List.mem_cons.mp hv with g | g
        · cases g
          exact (hlx _).scopes _ (by simp [setScope, upd])
        · exact j3 v s g
    | imp g => exact absurd (by simp) (h g)

/-- Visiting the statements of a file one after the other, as far as it goes. -/
theorem runElems_stand {imp : Str → M Unit} (hl : ∀ g r, LExt r (imp g r).2) (hlat : ∀ g r, Later r (imp g r).2)
    (hnm : ∀ g r, OldNames r (imp g r).2) (hs : ∀ g r, Sound r → Sound (imp g r).2)
    (hp : ∀ g r r', imp g r = (.ok (), r') → (r'.protos g).isSome = true)
    (hw' : ∀ g r, Sound r → Stand r → Stand (imp g r).2)
    {key : Vis} {i : Nat} {f : ProtoFile} {fp : Str} (hk : KeyOK key i) (hw : WFFile fp f.elems) :
    ∀ (es pre : List Elem) (r : Reg), f.elems = pre ++ es → Sound r → r.heap[i]? = some f →
      (∀ (i' : Nat) f', i' ≠ i → r.heap[i']? = some f' →
        ∃ k, HalfDone r i' f' k ∧ (k = f'.elems.length ∨ ∃ m, ImportAt f' k m)) →
      HalfDone r i f pre.length →
      Stand (runActs imp (actsAll key es ⟨i, []⟩ pre.length (actsAll key pre ⟨i, []⟩ 0 []).2).1 r).2 := by
  intro es
  induction es with
  | nil =>
    intro pre r hes _ hf ho h i' f' hf'
    by_cases hi : i' = i
    · subst hi
      have hf'' : r.heap[i']? = some f' := hf'
      rw [hf] at hf''; cases hf''
      exact ⟨pre.length, h, .inl (by rw [hes]; simp)⟩
    · exact ho i' f' hi hf'
  | cons e es ih =>
    intro pre r hes hr hf ho h
    have hscope : (actsAll key (pre ++ [e]) ⟨i, []⟩ 0 []).2 =
        (acts key e ((⟨i, []⟩ : Ptr).child pre.length) (actsAll key pre ⟨i, []⟩ 0 []).2).2 := by
      have : ∀ (pre : List Elem) (n : Nat) (s : Str), (actsAll key (pre ++ [e]) ⟨i, []⟩ n s).2 =
          (acts key e ((⟨i, []⟩ : Ptr).child (n + pre.length)) (actsAll key pre ⟨i, []⟩ n s).2).2 := by
        intro pre
        induction pre with
        | nil => intro n s; simp [actsAll]
        | cons x pre ih =>
          intro n s
          simp only [List.cons_append, actsAll, ih, List.length_cons]
          rw [show n + 1 + pre.length = n + (pre.length + 1) by omega]
      simpa using this pre 0 []
    have hsplit : fileActs key i f.elems = (actsAll key pre ⟨i, []⟩ 0 []).1 ++
        ((acts key e ((⟨i, []⟩ : Ptr).child pre.length) (actsAll key pre ⟨i, []⟩ 0 []).2).1 ++
        (actsAll key es ⟨i, []⟩ (pre.length + 1)
          (acts key e ((⟨i, []⟩ : Ptr).child pre.length) (actsAll key pre ⟨i, []⟩ 0 []).2).2).1) := by
      unfold fileActs
      rw [hes, actsAll_append]
      simp [actsAll]
    have hfine : ∀ a ∈ (acts key e ((⟨i, []⟩ : Ptr).child pre.length) (actsAll key pre ⟨i, []⟩ 0 []).2).1,
        ActFine f key i a :=
      fun a ha => fileActs_fine (path := fp) hw a (by rw [hsplit]; simp [ha])
    have hflat : e.flat = true := hw.1 e (by rw [hes]; simp)
    have hat : f.elems[pre.length]? = some e := by rw [hes]; simp
    simp only [actsAll, runActs_append, M.bind_apply]
    have hsound := runActs_sound hk hs hl _ hfine r hr hf
    have hext := runActs_lext (imp := imp)
      (acts key e ((⟨i, []⟩ : Ptr).child pre.length) (actsAll key pre ⟨i, []⟩ 0 []).2).1 (fun f _ r => hl f r) r
    have hplace : ∀ path', path'.getLast? = some pre.length → ∀ a ∈ fileActs key i f.elems,
        ((∃ s, a = .name s ⟨i, path'⟩) ∨ ∃ s, a = .scope (.at ⟨i, path'⟩) s) →
        a ∈ (acts key e ((⟨i, []⟩ : Ptr).child pre.length) (actsAll key pre ⟨i, []⟩ 0 []).2).1 := by
      intro path' hj' a ha hform
      have hkey : Vis.at ⟨i, path'⟩ ≠ key := by
        rintro rfl
        rcases hk with e | e
        · cases e
        · cases e; simp at hj'
      have hne : ∀ (es : List Elem) n s, a ∈ (actsAll key es ⟨i, []⟩ n s).1 →
          ∃ j', j' < es.length ∧ pre.length = n + j' := by
        intro es n s ha
        obtain ⟨b1, b2⟩ := actsAll_below _ _ _ _ _ ha
        have : ∃ l j', j' < es.length ∧ (⟨i, path'⟩ : Ptr) = ⟨i, l ++ [n + j']⟩ := by
          rcases hform with ⟨s, e⟩ | ⟨s, e⟩
          · exact b1 s _ e
          · rcases b2 _ s e with h | ⟨l, j', h0, h⟩
            · exact absurd h hkey
            · exact ⟨l, j', h0, Vis.at.inj h⟩
        obtain ⟨l, j', h0, h⟩ := this
        cases h
        rw [getLast_below] at hj'
        exact ⟨j', h0, (Option.some.inj hj').symm⟩
      rw [hsplit, List.mem_append, List.mem_append] at ha
      rcases ha with ha | ha | ha
      · obtain ⟨j', h1, h2⟩ := hne _ _ _ ha; omega
      · exact ha
      · obtain ⟨j', h1, h2⟩ := hne _ _ _ ha; omega
    have hcut : ∀ {p : List Nat}, InFront p (pre.length + 1) → InFront p pre.length ∨ p.getLast? = some pre.length := by
      rintro p ⟨j, hj, hlt⟩
      by_cases hj' : j < pre.length
      · exact .inl ⟨j, hj, hj'⟩
      · exact .inr (by rw [hj]; congr 1; omega)
    by_cases hk' : ∃ g, e.kind = .importK g
    · obtain ⟨g, hk'⟩ := hk'
      have hstand : Stand r := by
        intro i' f' hf'
        by_cases hi : i' = i
        · subst hi
          rw [hf] at hf'; cases hf'
          exact ⟨pre.length, h, .inr ⟨g, e, hat, hk'⟩⟩
        · exact ho i' f' hi hf'
      rcases e with ⟨pos, c, k, cs⟩
      simp only [Elem.kind_mk] at hk'
      subst hk'
      have hgs := hw' g r hr hstand
      have hgn := hnm g r
      have hgl := hlat g r
      have hgp := hp g r
      have hgx := hl g r
      have hgso := hs g r hr
      simp only [acts, runActs, Act.run, M.bind_apply, M.pure_apply] at hscope hplace ⊢
      rcases hi : imp g r with ⟨res, r1⟩
      rw [hi] at hgs hgn hgl hgp hgx hgso
      cases res with
      | panic x => exact hgs
      | timeout => exact hgs
      | ok u =>
        have hlt : i < r.heap.length := (List.getElem?_eq_some_iff.mp hf).1
        have h1 := h.lext hgx hgn hgl hlt
        have := ih (pre ++ [Elem.mk pos c (Kind.importK g) cs]) r1 (by rw [hes]; simp) hgso (hgx.file hf) (fun i' f' _ hf' => hgs i' f' hf') (by
          rw [List.length_append, List.length_singleton]
          refine ⟨fun p n hq hfr => ?_, fun p n hq hne hfr => ?_, fun j g' hj hg' => ?_,
            fun p n hn => (h1.noName p n hn).mono (by omega), fun p s hs hp => (h1.noScope p s hs hp).mono (by omega)⟩
          · rcases hcut hfr with hfr | hfr
            · exact h1.names p n hq hfr
            · have := hplace p hfr _ (fileActs_complete (key := key) (i := i) hw hq).1 (.inl ⟨_, rfl⟩)
              simp at this
          · rcases hcut hfr with hfr | hfr
            · exact h1.scopes p n hq hne hfr
            · have := hplace p hfr _ (fileActs_complete (key := key) (i := i) hw hq).1 (.inl ⟨_, rfl⟩)
              simp at this
          · by_cases hj' : j < pre.length
            · exact h1.imports j g' hj' hg'
            · have hjj : j = pre.length := by omega
              subst hjj
              obtain ⟨e', he', hk'⟩ := hg'
              rw [hat] at he'; cases he'
              simp only [Elem.kind_mk] at hk'
              cases hk'
              exact hgp r1 rfl)
        rw [hscope] at this
        simpa using this
    · obtain ⟨e1, g1, e3, g3, e4⟩ := runActs_entries (imp := imp) _
        (acts_noImp (key := key) e ((⟨i, []⟩ : Ptr).child pre.length) (actsAll key pre ⟨i, []⟩ 0 []).2 hflat
          fun g hg => hk' ⟨g, hg⟩) r
      have hquiet := runActs_quiet (imp := imp) _
        (acts_noImp (key := key) e ((⟨i, []⟩ : Ptr).child pre.length) (actsAll key pre ⟨i, []⟩ 0 []).2 hflat
          fun g hg => hk' ⟨g, hg⟩) r
      rcases hrun : runActs imp
        (acts key e ((⟨i, []⟩ : Ptr).child pre.length) (actsAll key pre ⟨i, []⟩ 0 []).2).1 r with ⟨res, r1⟩
      rw [hrun] at hsound hext e1 g1 e3 g3 e4 hquiet
      simp only at hquiet
      subst hquiet
      -- new entries belong to this statement of this file
      have hnewName : ∀ s q, r1.registry s = some q → r.registry s = some q ∨
          (q.file = i ∧ q.path.getLast? = some pre.length) := by
        intro s q hq
        rcases e1 _ _ hq with g | g
        · exact .inl g
        · obtain ⟨l, rfl⟩ := (acts_below _ _ _ _ g).1 _ _ rfl
          exact .inr ⟨rfl, by simp [Ptr.child]⟩
      have hnewScope : ∀ q : Ptr, q.path ≠ [] → (r1.scopes (.at q)).isSome = true → (r.scopes (.at q)).isSome = true ∨
          (q.file = i ∧ q.path.getLast? = some pre.length) := by
        intro q hq0 hq
        rcases g1 _ hq with g | ⟨s, g⟩
        · exact .inl g
        · rcases (acts_below _ _ _ _ g).2 _ _ rfl with hl' | ⟨l, hl'⟩
          · rcases hk with hk0 | hk0
            · rw [hk0] at hl'; cases hl'
            · rw [hk0] at hl'; cases hl'; simp at hq0
          · cases hl'
            exact .inr ⟨rfl, by simp [Ptr.child]⟩
      have := ih (pre ++ [e]) r1 (by rw [hes]; simp) hsound (hext.file hf) (by
        intro i' f' hne hf'
        rw [e4] at hf'
        obtain ⟨k, hd, hst⟩ := ho i' f' hne hf'
        refine ⟨k, ⟨fun p n hq hfr => hext.names _ (hd.names p n hq hfr),
          fun p n hq hn hfr => hext.scopes _ (hd.scopes p n hq hn hfr),
          fun j g hj hg => protos_isSome hext.protos (hd.imports j g hj hg), fun p n hn => ?_, fun p s hs hp => ?_⟩, hst⟩
        · rcases hnewName _ _ hn with g | ⟨g, _⟩
          · exact hd.noName p n g
          · exact absurd g hne
        · rcases hnewScope ⟨i', p⟩ hp (by rw [hs]; rfl) with g | ⟨g, _⟩
          · obtain ⟨s', hs'⟩ := Option.isSome_iff_exists.mp g
            exact hd.noScope p s' hs' hp
          · exact absurd g hne) (by
        rw [List.length_append, List.length_singleton]
        refine ⟨fun p n hq hfr => ?_, fun p n hq hne hfr => ?_, fun j g' hj hg' => ?_, fun p n hn => ?_,
          fun p s hs hp => ?_⟩
        · rcases hcut hfr with hfr | hfr
          · exact hext.names _ (h.names p n hq hfr)
          · exact e3 _ _ (hplace p hfr _ (fileActs_complete (key := key) (i := i) hw hq).1 (.inl ⟨_, rfl⟩))
        · rcases hcut hfr with hfr | hfr
          · exact hext.scopes _ (h.scopes p n hq hne hfr)
          · exact g3 _ _ (hplace p hfr _ ((fileActs_complete (key := key) (i := i) hw hq).2 hne) (.inr ⟨_, rfl⟩))
        · by_cases hj' : j < pre.length
          · exact protos_isSome hext.protos (h.imports j g' hj' hg')
          · have hjj : j = pre.length := by omega
            subst hjj
            obtain ⟨e', he', hk0⟩ := hg'
            rw [hat] at he'; cases he'
            exact absurd ⟨g', hk0⟩ hk'
        · rcases hnewName _ _ hn with g | ⟨_, g⟩
          · exact (h.noName p n g).mono (by omega)
          · exact ⟨_, g, by omega⟩
        · rcases hnewScope ⟨i, p⟩ hp (by rw [hs]; rfl) with g | ⟨_, g⟩
          · obtain ⟨s', hs'⟩ := Option.isSome_iff_exists.mp g
            exact (h.noScope p s' hs' hp).mono (by omega)
          · exact ⟨_, g, by omega⟩)
      rw [hscope] at this
      simpa using this

theorem visitFile_stand {imp : Str → M Unit} (hl : ∀ g r, LExt r (imp g r).2) (hlat : ∀ g r, Later r (imp g r).2)
    (hnm : ∀ g r, OldNames r (imp g r).2) (hs : ∀ g r, Sound r → Sound (imp g r).2)
    (hp : ∀ g r r', imp g r = (.ok (), r') → (r'.protos g).isSome = true)
    (hw' : ∀ g r, Sound r → Stand r → Stand (imp g r).2)
    {key : Vis} {r : Reg} {path elems} (hn : r.protos path = none) (hk : KeyOK key r.heap.length)
    (hw : WFFile path elems) (hr : Sound r) (h : Stand r) :
    Stand (runActs imp (fileActs key r.heap.length elems) (addFile r path elems)).2 := by
  refine runElems_stand hl hlat hnm hs hp hw' (f := ⟨path, elems⟩) hk hw elems [] _ rfl (addFile_sound hr hw)
    (by simp [addFile]) ?_ ?_
  · intro i' f' hne hf'
    have hi : i' < r.heap.length := by
      have := (List.getElem?_eq_some_iff.mp hf').1
      simp [addFile] at this
      omega
    simp only [addFile] at hf'
    rw [List.getElem?_append_left hi] at hf'
    obtain ⟨k, hd, hst⟩ := h i' f' hf'
    have hx : LExt r (addFile r path elems) := LExt.addFile hn
    exact ⟨k, ⟨hd.names, hd.scopes, fun j g hj hg => protos_isSome hx.protos (hd.imports j g hj hg), hd.noName,
      hd.noScope⟩, hst⟩
  · refine ⟨?_, ?_, ?_, ?_, ?_⟩
    · rintro p n _ ⟨j, _, hj⟩; simp at hj
    · rintro p n _ _ ⟨j, _, hj⟩; simp at hj
    · intro j g hj; simp at hj
    · intro p n e
      obtain ⟨f, hf, _⟩ := hr.names n _ e
      exact absurd (List.getElem?_eq_some_iff.mp hf).1 (by simp)
    · intro p s e hp
      obtain ⟨f, hf, _⟩ := hr.scopes _ s e hp
      exact absurd (List.getElem?_eq_some_iff.mp hf).1 (by simp)

theorem visitImport_loaded {W : World} : ∀ n path r r', visitImport W n path r = (.ok (), r') →
    (r'.protos path).isSome = true := by
  intro n path r r' h
  exact (visitImport_actsDone W n path r r' h).1

theorem visitImport_stand {W : World} (hW : W.Sat WFFile) : ∀ n path r, Sound r → Stand r →
    Stand (visitImport W n path r).2 := by
  intro n
  induction n with
  | zero => intro path r _ h; exact h
  | succ n ih =>
    intro path r hr h
    unfold visitImport
    simp only [M.bind_apply, M.get_apply]
    cases hp : r.protos path with
    | some i => exact h
    | none =>
      simp only [M.bind_apply]
      rcases protoFile_cases W path r with ⟨i, hi, e⟩ | ⟨_, er, e⟩ | ⟨hn, nm, elems, _, hload, e⟩
      · rw [hi] at hp; cases hp
      · rw [e]; exact h
      · rw [e]
        simp only
        rw [acceptFile_eq (f := ⟨path, elems⟩) (by simp [Protoast.addFile])]
        exact visitFile_stand (visitImport_lext W n) (visitImport_later W n) (visitImport_names W n)
          (visitImport_sound hW n) (visitImport_loaded n) ih hp (.inl rfl) (hW _ _ _ hload) hr h

theorem proto_stand {W : World} (hW : W.Sat WFFile) {fuel path r} (hr : Sound r) (h : Stand r) :
    Stand (proto W fuel path r).2 := by
  rcases proto_cases W path r with ⟨i, hi, e⟩ | ⟨_, er, e⟩ | ⟨hn, nm, elems, _, hload, e⟩
  · rw [e]; exact h.congr rfl rfl rfl rfl
  · rw [e]; exact h
  · rw [e]
    have := visitFile_stand (visitImport_lext W fuel) (visitImport_later W fuel) (visitImport_names W fuel)
      (visitImport_sound hW fuel) (visitImport_loaded fuel) (visitImport_stand hW fuel)
      (key := .at ⟨r.heap.length, []⟩) hn (.inr rfl) (hW _ _ _ hload) hr h
    unfold protoNew
    rcases hrun : runActs (visitImport W fuel) (fileActs (.at ⟨r.heap.length, []⟩) r.heap.length elems)
        (addFile r path elems) with ⟨res, r'⟩
    rw [hrun] at this
    cases res with
    | ok u => exact this.congr rfl rfl rfl rfl
    | panic p => exact this
    | timeout => exact this

theorem Stand.cacheExt {r r' : Reg} (h : Stand r) (hx : CacheExt r r') : Stand r' :=
  h.congr hx.heap hx.protos hx.registry hx.scopes

theorem opRun_stand {pool : List Node} {op : Op} (hop : Op.Sat WFFile op) {r : Reg} (hr : Sound r) (h : Stand r) :
    Stand (op.run pool r).2 := by
  cases op with
  | proto W fuel path =>
    have := proto_stand hop (fuel := fuel) (path := path) hr h
    simp only [Op.run, M.bind_apply]
    rcases hr : proto W fuel path r with ⟨res, r'⟩
    rw [hr] at this
    cases res with
    | ok x => cases x <;> exact this
    | panic p => exact this
    | timeout => exact this
  | byName name =>
    have := h.cacheExt ((RO.nodeByFullName name).ext r)
    simp only [Op.run, M.bind_apply]
    rcases hr : nodeByFullName name r with ⟨res, r'⟩
    rw [hr] at this
    cases res <;> exact this
  | query hd q =>
    simp only [Op.run]
    cases hp : pool[hd]? with
    | none => exact h
    | some n => exact h.cacheExt ((RO.queryRun q n).ext r)

theorem exec_stand : ∀ (ops : List Op) {c : Client}, (∀ op ∈ ops, Op.Sat WFFile op) → Sound c.reg → Stand c.reg →
    Stand (c.exec ops).reg := by
  intro ops
  induction ops with
  | nil => intro c _ _ h; exact h
  | cons op ops ih =>
    intro c hs hr h
    refine ih (c := c.step op) (fun o ho => hs o (List.mem_cons_of_mem _ ho)) ?_ ?_
    · rw [step_reg]; exact opRun_sound (hs op (by simp)) hr
    · rw [step_reg]; exact opRun_stand (hs op (by simp)) hr h

theorem newRegistry_stand {W fuel r} (hW : W.Sat WFFile) (h : newRegistry W fuel = (.ok (.ok ()), r)) : Stand r := by
  obtain ⟨nm, elems, _, hload, hr⟩ := newRegistry_ok h
  have := visitFile_stand (visitImport_lext W fuel) (visitImport_later W fuel) (visitImport_names W fuel)
    (visitImport_sound hW fuel) (visitImport_loaded fuel) (visitImport_stand hW fuel)
    (key := .at ⟨0, []⟩) (r := Reg.empty) rfl (.inr rfl) (hW _ _ _ hload) sound_empty
    (by intro i f h; simp [Reg.empty] at h)
  have h0 : Reg.empty.heap.length = 0 := rfl
  rw [h0, hr] at this
  exact this

theorem reachable_stand {c} (h : Reachable WFFile c) : Stand c.reg := by
  obtain ⟨W, fuel, r, ops, hW, hn, hops, rfl⟩ := h
  exact exec_stand ops hops (newRegistry_sound hW hn) (newRegistry_stand hW hn)

end Protoast
