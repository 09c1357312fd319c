import Verif.Spec.Stuck
import Verif.Proof.NewFiles
/-
  What a load that panics leaves behind.
-/
namespace Protoast

/-! ### Where the actions of a list of elements point -/

mutual
theorem acts_below {key : Vis} : (e : Elem) → (p : Ptr) → (scope : Str) → ∀ a ∈ (acts key e p scope).1,
    (∀ s q, a = .name s q → ∃ l, q = ⟨p.file, l ++ p.path⟩) ∧
    (∀ v s, a = .scope v s → v = key ∨ ∃ l, v = .at ⟨p.file, l ++ p.path⟩)
  | .mk pos c k cs, p, scope, a, ha => by

    have hcs := fun sc => actsAll_below (key := key) cs p 0 sc a
    have hn : ∀ s, a = .name s p → (∀ s q, a = .name s q → ∃ l, q = ⟨p.file, l ++ p.path⟩) ∧
        (∀ v s, a = .scope v s → v = key ∨ ∃ l, v = .at ⟨p.file, l ++ p.path⟩) := by
      rintro s rfl
      exact ⟨fun _ _ e => (by cases e; exact ⟨[], rfl⟩), fun _ _ e => by cases e⟩
    have hs : ∀ s, a = .scope (.at p) s → (∀ s q, a = .name s q → ∃ l, q = ⟨p.file, l ++ p.path⟩) ∧
        (∀ v s, a = .scope v s → v = key ∨ ∃ l, v = .at ⟨p.file, l ++ p.path⟩) := by
      rintro s rfl
      exact ⟨fun _ _ e => (by cases e), fun _ _ e => by cases e; exact .inr ⟨[], rfl⟩⟩
    have hc : ∀ sc, a ∈ (actsAll key cs p 0 sc).1 → (∀ s q, a = .name s q → ∃ l, q = ⟨p.file, l ++ p.path⟩) ∧
        (∀ v s, a = .scope v s → v = key ∨ ∃ l, v = .at ⟨p.file, l ++ p.path⟩) := by
      intro sc h
      obtain ⟨h1, h2⟩ := hcs sc h
      refine ⟨fun s q e => ?_, fun v s e => ?_⟩
      · obtain ⟨l, j, _, hq⟩ := h1 s q e
        exact ⟨l ++ [0 + j], by rw [hq]; simp⟩
      · rcases h2 v s e with h | ⟨l, j, _, hq⟩
        · exact .inl h
        · exact .inr ⟨l ++ [0 + j], by rw [hq]; simp⟩
    cases k with
    | message n ext =>
      cases ext with
      | true => simp [acts] at ha; exact hc _ ha
      | false =>
        simp [acts] at ha
        rcases ha with h | h | h
        · exact hn _ h
        · exact hs _ h
        · exact hc _ h
    | service n =>
      simp [acts] at ha
      rcases ha with h | h | h
      · exact hn _ h
      · exact hs _ h
      · exact hc _ h
    | enum n =>
      simp [acts] at ha
      rcases ha with h | h | h
      · exact hn _ h
      · exact hs _ h
      · exact hc _ h
    | oneof n =>
      simp [acts] at ha
      rcases ha with h | h | h
      · exact hn _ h
      · exact hs _ h
      · exact hc _ h
    | packageK n =>
      simp [acts] at ha
      subst ha
      exact ⟨fun _ _ e => (by cases e), fun _ _ e => by cases e; exact .inl rfl⟩
    | importK g =>
      simp [acts] at ha
      subst ha
      exact ⟨fun _ _ e => (by cases e), fun _ _ e => by cases e⟩
    | enumField n v => simp [acts] at ha; exact hn _ ha
    | normalField n _ _ _ _ => simp [acts] at ha; exact ha.elim (hn _) (hs _)
    | mapField n _ _ _ => simp [acts] at ha; exact ha.elim (hn _) (hs _)
    | oneofField n _ _ => simp [acts] at ha; exact ha.elim (hn _) (hs _)
    | rpc n _ _ _ _ => simp [acts] at ha; exact ha.elim (hn _) (hs _)
    | _ => simp [acts] at ha
theorem actsAll_below {key : Vis} : (es : List Elem) → (p : Ptr) → (n : Nat) → (scope : Str) →
    ∀ a ∈ (actsAll key es p n scope).1,
    (∀ s q, a = .name s q → ∃ l j, j < es.length ∧ q = ⟨p.file, l ++ (n + j) :: p.path⟩) ∧
    (∀ v s, a = .scope v s → v = key ∨ ∃ l j, j < es.length ∧ v = .at ⟨p.file, l ++ (n + j) :: p.path⟩)
  | [], p, n, scope, a, h => by simp [actsAll] at h
  | e :: es, p, n, scope, a, h => by
    simp only [actsAll, List.mem_append] at h
    rcases h with h | h
    · obtain ⟨h1, h2⟩ := acts_below e (p.child n) _ a h
      refine ⟨fun s q e => ?_, fun v s e => ?_⟩
      · obtain ⟨l, hq⟩ := h1 s q e
        exact ⟨l, 0, by simp, by simpa [Ptr.child] using hq⟩
      · rcases h2 v s e with h | ⟨l, hq⟩
        · exact .inl h
        · exact .inr ⟨l, 0, by simp, by simpa [Ptr.child] using hq⟩
    · obtain ⟨h1, h2⟩ := actsAll_below es p (n + 1) _ a h
      refine ⟨fun s q e => ?_, fun v s e => ?_⟩
      · obtain ⟨l, j, hj, hq⟩ := h1 s q e
        exact ⟨l, j + 1, by simpa using hj, by rw [hq, show n + 1 + j = n + (j + 1) by omega]⟩
      · rcases h2 v s e with h | ⟨l, j, hj, hq⟩
        · exact .inl h
        · exact .inr ⟨l, j + 1, by simpa using hj, by rw [hq, show n + 1 + j = n + (j + 1) by omega]⟩
end

/-! ### Where a run of actions stops -/

/-- Only imports can stop a run of actions. -/
theorem runActs_quiet {imp : Str → M Unit} : ∀ (as : List Act), (∀ g, Act.imp g ∉ as) → ∀ r,
    (runActs imp as r).1 = .ok () := by
  intro as
  induction as with
  | nil => intro _ r; rfl
  | cons a as ih =>
    intro h r
    have h' : ∀ g, Act.imp g ∉ as := fun g hg => h g (List.mem_cons_of_mem _ hg)
    cases a with
    | name s p => exact ih h' _
    | scope v s => exact ih h' _
    | imp g => exact absurd (by simp) (h g)

mutual
/-- No imports among the actions of an element that is not an import. -/
theorem acts_noImp {key : Vis} : (e : Elem) → (p : Ptr) → (s : Str) → e.flat = true →
    (∀ g, e.kind ≠ .importK g) → ∀ g, Act.imp g ∉ (acts key e p s).1
  | .mk pos c k cs, p, s, hf, hk, g => by
    have hcs := fun sc => actsAll_noImp (key := key) cs p 0 sc (by simpa [Elem.flat] using hf) g
    cases k with
    | message n ext => cases ext <;> simp [acts, hcs]
    | importK g => exact absurd rfl (hk g)
    | _ => simp [acts, hcs]
theorem actsAll_noImp {key : Vis} : (es : List Elem) → (p : Ptr) → (n : Nat) → (s : Str) →
    flatAll es = true → ∀ g, Act.imp g ∉ (actsAll key es p n s).1
  | [], p, n, s, _, g => by simp [actsAll]
  | e :: es, p, n, s, hf, g => by
    have h0 := flatAll_mem hf e (by simp)
    simp only [flatAll, Bool.and_eq_true] at hf
    simp only [actsAll, List.mem_append, not_or]
    exact ⟨acts_noImp e _ _ h0.1 h0.2.2 g, actsAll_noImp es _ _ _ hf.2 g⟩
end

/-- A run of the actions of a list of top-level statements that panics does so in one of its import statements. -/
theorem runElems_panic {imp : Str → M Unit} {key : Vis} {p : Ptr} {x : Panic} {r' : Reg} :
    ∀ (es : List Elem) (n : Nat) (s : Str) (r : Reg), (∀ e ∈ es, e.flat = true) →
    runActs imp (actsAll key es p n s).1 r = (.panic x, r') →
    ∃ pre e post g r1, es = pre ++ e :: post ∧ e.kind = .importK g ∧
      runActs imp (actsAll key pre p n s).1 r = (.ok (), r1) ∧ imp g r1 = (.panic x, r') := by
  intro es
  induction es with
  | nil => intro n s r _ h; cases h
  | cons e es ih =>
    intro n s r hf h
    simp only [actsAll, runActs_append, M.bind_apply] at h
    by_cases hk : ∃ g, e.kind = .importK g
    · obtain ⟨g, hk⟩ := hk
      rcases e with ⟨pos, c, k, cs⟩
      simp only [Elem.kind_mk] at hk
      subst hk
      simp only [acts, runActs, Act.run, M.bind_apply, M.pure_apply] at h
      rcases hi : imp g r with ⟨res, r1⟩
      rw [hi] at h
      cases res with
      | panic y =>
        cases h
        exact ⟨[], _, es, g, r, rfl, rfl, rfl, hi⟩
      | timeout => cases h
      | ok u =>
        obtain ⟨pre, e', post, g', r2, h1, h2, h3, h4⟩ := ih (n + 1) _ r1 (fun e he => hf e (by simp [he])) h
        refine ⟨_ :: pre, e', post, g', r2, by rw [h1]; rfl, h2, ?_, h4⟩
        simp only [actsAll, acts, runActs_append, runActs, Act.run, M.bind_apply, M.pure_apply, hi]
        exact h3
    · have hq := runActs_quiet (imp := imp) (acts key e (p.child n) s).1
        (acts_noImp e _ _ (hf e (by simp)) fun g hg => hk ⟨g, hg⟩) r
      rcases hi : runActs imp (acts key e (p.child n) s).1 r with ⟨res, r1⟩
      rw [hi] at h hq
      simp only at hq
      subst hq
      obtain ⟨pre, e', post, g', r2, h1, h2, h3, h4⟩ := ih (n + 1) _ r1 (fun e he => hf e (by simp [he])) h
      refine ⟨e :: pre, e', post, g', r2, by rw [h1]; rfl, h2, ?_, h4⟩
      simp only [actsAll, runActs_append, M.bind_apply, hi]
      exact h3

/-! ### Names of files that were there before -/

/-- Names that point to the files of `r` are those of `r`. -/
def OldNames (r r' : Reg) : Prop :=
  ∀ s p, r'.registry s = some p → p.file < r.heap.length → r.registry s = some p

theorem OldNames.refl (r) : OldNames r r := fun _ _ h _ => h

theorem OldNames.trans {a b c} (h : OldNames a b) (g : OldNames b c) (hl : a.heap.length ≤ b.heap.length) :
    OldNames a c := fun s p e hp => h s p (g s p e (by omega)) hp

theorem runActs_names {imp : Str → M Unit} (hl : ∀ g r, LExt r (imp g r).2) (himp : ∀ g r, OldNames r (imp g r).2) :
    ∀ (as : List Act) (r : Reg) s q, (runActs imp as r).2.registry s = some q → q.file < r.heap.length →
      r.registry s = some q ∨ Act.name s q ∈ as := by
  intro as
  induction as with
  | nil => intro r s q h _; exact .inl h
  | cons a as ih =>
    intro r s q h hq
    have ha : ∀ q', (a.run imp r).2.registry s = some q' → q'.file < r.heap.length →
        r.registry s = some q' ∨ Act.name s q' = a := by
      intro q' h' hq'
      cases a with
      | name t p =>
        simp only [Act.run, setName, M.modify_apply, upd] at h'
        split at h'
        · next e => cases h'; subst e; exact .inr rfl
        · exact .inl h'
      | scope v t => exact .inl h'
      | imp g => exact .inl (himp g r _ _ h' hq')
    have hlen : r.heap.length ≤ (a.run imp r).2.heap.length := by
      cases a with
      | name t p => exact (LExt.setName t p r).length
      | scope v t => exact (LExt.setScope v t r).length
      | imp g => exact (hl g r).length
    simp only [runActs, M.bind_apply] at h
    rcases hr : a.run imp r with ⟨res, r1⟩
    rw [hr] at h ha hlen
    have fin : ∀ q', r1.registry s = some q' → q'.file < r.heap.length →
        r.registry s = some q' ∨ Act.name s q' ∈ a :: as := fun q' h' hq' =>
      (ha q' h' hq').imp id fun e => by rw [e]; simp
    cases res with
    | ok u =>
      rcases ih r1 s q h (by simp only at hlen; omega) with h' | h'
      · exact fin q h' hq
      · exact .inr (List.mem_cons_of_mem _ h')
    | panic p => exact fin q h hq
    | timeout => exact fin q h hq

theorem runActs_scopes {imp : Str → M Unit} (hl : ∀ g r, LExt r (imp g r).2) (himp : ∀ g r, Later r (imp g r).2) :
    ∀ (as : List Act) (r : Reg) (q : Ptr) s, (runActs imp as r).2.scopes (.at q) = some s → q.file < r.heap.length →
      r.scopes (.at q) = some s ∨ ∃ t, Act.scope (.at q) t ∈ as := by
  intro as
  induction as with
  | nil => intro r q s h _; exact .inl h
  | cons a as ih =>
    intro r q s h hq
    have ha : (a.run imp r).2.scopes (.at q) = some s → r.scopes (.at q) = some s ∨ ∃ t, Act.scope (.at q) t = a := by
      intro h'
      cases a with
      | name t p => exact .inl h'
      | scope v t =>
        simp only [Act.run, setScope, M.modify_apply, upd] at h'
        split at h'
        · next e => subst e; exact .inr ⟨_, rfl⟩
        · exact .inl h'
      | imp g => rw [(show (Act.imp g).run imp r = imp g r from rfl), (himp g r).scopes q hq] at h'; exact .inl h'
    have hlen : r.heap.length ≤ (a.run imp r).2.heap.length := by
      cases a with
      | name t p => exact (LExt.setName t p r).length
      | scope v t => exact (LExt.setScope v t r).length
      | imp g => exact (hl g r).length
    simp only [runActs, M.bind_apply] at h
    rcases hr : a.run imp r with ⟨res, r1⟩
    rw [hr] at h ha hlen
    have fin : r1.scopes (.at q) = some s → r.scopes (.at q) = some s ∨ ∃ t, Act.scope (.at q) t ∈ a :: as := fun h' =>
      (ha h').imp id fun ⟨t, e⟩ => ⟨t, by rw [e]; simp⟩
    cases res with
    | ok u =>
      rcases ih r1 q s h (by simp only at hlen; omega) with h' | ⟨t, h'⟩
      · exact fin h'
      · exact .inr ⟨t, List.mem_cons_of_mem _ h'⟩
    | panic p => exact fin h
    | timeout => exact fin h

theorem addVisit_names {imp : Str → M Unit} {key : Vis} {r : Reg} {path elems} (hl : ∀ g r, LExt r (imp g r).2)
    (himp : ∀ g r, OldNames r (imp g r).2) :
    OldNames r (runActs imp (fileActs key r.heap.length elems) (addFile r path elems)).2 := by
  intro s p h hp
  rcases runActs_names hl himp _ _ s p h (by simp [addFile]; omega) with h | h
  · exact h
  · obtain ⟨l, j, _, e⟩ := (actsAll_below _ _ _ _ _ h).1 s p rfl
    rw [e] at hp
    simp at hp

theorem visitImport_names (W : World) : ∀ n path r, OldNames r (visitImport W n path r).2 := by
  intro n
  induction n with
  | zero => intro path r; exact OldNames.refl r
  | succ n ih =>
    intro path r
    unfold visitImport
    simp only [M.bind_apply, M.get_apply]
    cases hp : r.protos path with
    | some i => exact OldNames.refl r
    | none =>
      simp only [M.bind_apply]
      rcases protoFile_cases W path r with ⟨i, hi, h⟩ | ⟨_, e, h⟩ | ⟨hn, nm, elems, _, _, h⟩
      · rw [hi] at hp; cases hp
      · rw [h]; exact OldNames.refl r
      · rw [h]
        simp only
        rw [acceptFile_eq (f := ⟨path, elems⟩) (by simp [Protoast.addFile])]
        exact addVisit_names (visitImport_lext W n) ih

/-- Loading files does not give names to declarations of files that were there before. -/
theorem proto_names (W : World) (fuel : Nat) (path : Str) (r : Reg) : OldNames r (proto W fuel path r).2 := by
  rcases proto_cases W path r with ⟨i, hi, e⟩ | ⟨_, er, e⟩ | ⟨hn, nm, elems, _, hload, e⟩
  · rw [e]; exact OldNames.refl r
  · rw [e]; exact OldNames.refl r
  · rw [e]
    have := addVisit_names (r := r) (path := path) (elems := elems) (key := .at ⟨r.heap.length, []⟩)
      (visitImport_lext W fuel) (visitImport_names W fuel)
    unfold protoNew
    rcases hr : runActs (visitImport W fuel) (fileActs (.at ⟨r.heap.length, []⟩) r.heap.length elems)
      (addFile r path elems) with ⟨res, r1⟩
    rw [hr] at this
    cases res <;> exact this

theorem opRun_names (pool : List Node) (op : Op) (r : Reg) : OldNames r (op.run pool r).2 := by
  cases op with
  | proto W fuel path =>
    simp only [Op.run, M.bind_apply]
    have := proto_names W fuel path r
    rcases hr : proto W fuel path r with ⟨res, r'⟩
    rw [hr] at this
    cases res with
    | ok x => cases x <;> exact this
    | panic p => exact this
    | timeout => exact this
  | byName name =>
    have := ((RO.nodeByFullName name).ext r).registry
    simp only [Op.run, M.bind_apply]
    rcases hr : nodeByFullName name r with ⟨res, r'⟩
    rw [hr] at this
    intro s p h _
    rw [← this]
    cases res <;> exact h
  | query hd q =>
    simp only [Op.run]
    cases hp : pool[hd]? with
    | none => exact OldNames.refl r
    | some n =>
      intro s p h _
      rw [← ((RO.queryRun q n).ext r).registry]
      exact h

theorem exec_names : ∀ (ops : List Op) (c : Client), OldNames c.reg (c.exec ops).reg := by
  intro ops
  induction ops with
  | nil => intro c; exact OldNames.refl _
  | cons op ops ih =>
    intro c
    have h1 : OldNames c.reg (c.step op).reg := by rw [step_reg]; exact opRun_names _ _ _
    exact h1.trans (ih (c.step op)) (step_later c op).length

/-! ### The state after a panic -/

/-- The visit of the file broke off at statement number `k`: what is in front of it is recorded, nothing else is. -/
structure HalfDone (r : Reg) (i : Nat) (f : ProtoFile) (k : Nat) : Prop where
  names : ∀ p n, f.fqn p = some n → InFront p k → (r.registry n).isSome = true
  scopes : ∀ p n, f.fqn p = some n → (∀ e, f.elemAt p = some e → ∀ n v, e.kind ≠ .enumField n v) → InFront p k →
    (r.scopes (.at ⟨i, p⟩)).isSome = true
  imports : ∀ j g, j < k → ImportAt f j g → (r.protos g).isSome = true
  noName : ∀ p n, r.registry n = some ⟨i, p⟩ → InFront p k
  noScope : ∀ p s, r.scopes (.at ⟨i, p⟩) = some s → p ≠ [] → InFront p k

/-- The state after a load that broke off, as far as the files from number `b` on are concerned. -/
structure Broken (b : Nat) (r : Reg) (m : Str) (path : Str) (way : List (Nat × Nat)) : Prop where
  isWay : Way r m path way
  missing : r.protos m = none
  new : ∀ x ∈ way, b ≤ x.1
  old : ∀ x ∈ way, x.1 < r.heap.length
  nodup : (way.map (·.1)).Nodup
  done : ∀ (i : Nat) f, b ≤ i → r.heap[i]? = some f → i ∉ way.map (·.1) → FileDone r i f
  half : ∀ x ∈ way, ∃ f, r.heap[x.1]? = some f ∧ HalfDone r x.1 f x.2

theorem getLast_below {l : List Nat} {j : Nat} : (l ++ [j]).getLast? = some j := by simp

theorem HalfDone.lext {r r' : Reg} {i f k} (h : HalfDone r i f k) (hx : LExt r r') (hn : OldNames r r')
    (hs : Later r r') (hi : i < r.heap.length) : HalfDone r' i f k := by
  refine ⟨fun p n e hp => hx.names _ (h.names p n e hp), fun p n e he hp => hx.scopes _ (h.scopes p n e he hp),
    fun j g hj hg => protos_isSome hx.protos (h.imports j g hj hg), fun p n e => h.noName p n (hn _ _ e hi),
    fun p s e hp => h.noScope p s ?_ hp⟩
  rw [hs.scopes _ hi] at e
  exact e

/-- Visiting a new file breaks off. -/
theorem visitFile_broken {imp : Str → M Unit} (hl : ∀ g r, LExt r (imp g r).2) (hlat : ∀ g r, Later r (imp g r).2)
    (hnm : ∀ g r, OldNames r (imp g r).2)
    (himp : ∀ g r r', Sound r → imp g r = (.ok (), r') → (r'.protos g).isSome = true ∧
      DoneFrom r.heap.length r' ∧ Sound r') (hs : ∀ g r, Sound r → Sound (imp g r).2)
    (hbr : ∀ g r x r', Sound r → imp g r = (.panic x, r') → ∃ m e, x = .importFailed m e ∧
      ((m = g ∧ r' = r ∧ r.protos m = none) ∨ ∃ way, Broken r.heap.length r' m g way))
    {key : Vis} {r r' : Reg} {path elems x} (hw : WFFile path elems) (hk : KeyOK key r.heap.length) (hr : Sound r)
    (h : runActs imp (fileActs key r.heap.length elems) (addFile r path elems) = (.panic x, r')) :
    ∃ m e way, x = .importFailed m e ∧ Broken r.heap.length r' m path way := by
  have hfile : (addFile r path elems).heap[r.heap.length]? = some ⟨path, elems⟩ := by simp [addFile]
  have hadd := addFile_sound hr hw
  obtain ⟨pre, e0, post, g, r1, hes, hek, hrun, hpan⟩ := runElems_panic elems 0 [] _ hw.1 h
  -- the actions of the statements in front of the import
  have hsplit : fileActs key r.heap.length elems = (actsAll key pre ⟨r.heap.length, []⟩ 0 []).1 ++
      (actsAll key (e0 :: post) ⟨r.heap.length, []⟩ (0 + pre.length) (actsAll key pre ⟨r.heap.length, []⟩ 0 []).2).1 := by
    unfold fileActs
    rw [hes, actsAll_append]
  have hfine : ∀ a ∈ (actsAll key pre ⟨r.heap.length, []⟩ 0 []).1, ActFine ⟨path, elems⟩ key r.heap.length a :=
    fun a ha => fileActs_fine (f := ⟨path, elems⟩) (path := path) hw a (by rw [hsplit]; simp [ha])
  obtain ⟨d1, d2, d3, d4⟩ := runActs_done hl himp (f := ⟨path, elems⟩) hk hs _ hfine _ r1 hadd hfile hrun
  have hs1 : Sound r1 := by
    have := runActs_sound hk hs hl _ hfine _ hadd hfile
    rw [hrun] at this
    exact this
  have hx1 : LExt (addFile r path elems) r1 := by
    have := runActs_lext (imp := imp) (actsAll key pre ⟨r.heap.length, []⟩ 0 []).1 (fun f _ r => hl f r)
      (addFile r path elems)
    rw [hrun] at this
    exact this
  have hx2 : LExt r1 r' := by have := hl g r1; rw [hpan] at this; exact this
  have hl2 : Later r1 r' := by have := hlat g r1; rw [hpan] at this; exact this
  have hn2 : OldNames r1 r' := by have := hnm g r1; rw [hpan] at this; exact this
  have hlen1 : r.heap.length + 1 ≤ r1.heap.length := by
    have := hx1.length
    simpa [addFile] using this
  have hfile1 := hx1.file hfile
  -- a declaration in front has its actions in front
  have hfront : ∀ (a : Act) (p : List Nat), a ∈ fileActs key r.heap.length elems → InFront p pre.length →
      ((∃ s, a = .name s ⟨r.heap.length, p⟩) ∨ ∃ s, a = .scope (.at ⟨r.heap.length, p⟩) s) →
      a ∈ (actsAll key pre ⟨r.heap.length, []⟩ 0 []).1 := by
    rintro a p ha ⟨j, hj, hlt⟩ hform
    rw [hsplit, List.mem_append] at ha
    rcases ha with ha | ha
    · exact ha
    · exfalso
      obtain ⟨b1, b2⟩ := actsAll_below _ _ _ _ _ ha
      have hkey : key ≠ .at ⟨r.heap.length, p⟩ := by
        rintro rfl
        rcases hk with e | e
        · cases e
        · cases e; simp at hj
      have : ∃ l j', (⟨r.heap.length, p⟩ : Ptr) = ⟨r.heap.length, l ++ [0 + pre.length + j']⟩ := by
        rcases hform with ⟨s, e⟩ | ⟨s, e⟩
        · obtain ⟨l, j', _, h⟩ := b1 s _ e
          exact ⟨l, j', h⟩
        · rcases b2 _ s e with h | ⟨l, j', _, h⟩
          · exact absurd h.symm hkey
          · exact ⟨l, j', Vis.at.inj h⟩
      obtain ⟨l, j', h⟩ := this
      cases h
      rw [getLast_below] at hj
      cases hj
      omega
  -- the new file
  have hhalf1 : HalfDone r1 r.heap.length ⟨path, elems⟩ pre.length := by
    refine ⟨?_, ?_, ?_, ?_, ?_⟩
    · intro p n e hp
      exact d1 _ _ (hfront _ p
        (fileActs_complete (f := ⟨path, elems⟩) (key := key) (i := r.heap.length) hw e).1 hp (.inl ⟨_, rfl⟩))
    · intro p n e hne hp
      exact d2 _ _ (hfront _ p
        ((fileActs_complete (f := ⟨path, elems⟩) (key := key) (i := r.heap.length) hw e).2 hne) hp (.inr ⟨_, rfl⟩))
    · rintro j g' hj ⟨e, he, hg'⟩
      refine d3 g' ?_
      have he' : pre[j]? = some e := by
        simp only [hes] at he
        rw [List.getElem?_append_left hj] at he
        exact he
      obtain ⟨l1, l2, hpre⟩ := List.append_of_mem (List.mem_of_getElem? he')
      rw [hpre, actsAll_append]
      rcases e with ⟨pos, c, k, cs⟩
      simp only [Elem.kind_mk] at hg'
      subst hg'
      simp [actsAll, acts]
    · intro p n e
      have hrun' : (runActs imp (actsAll key pre ⟨r.heap.length, []⟩ 0 []).1 (addFile r path elems)).2.registry n =
          some ⟨r.heap.length, p⟩ := by rw [hrun]; exact e
      rcases runActs_names hl hnm _ _ _ _ hrun' (by simp [addFile]) with h | h
      · obtain ⟨f, hf, _⟩ := hr.names n ⟨r.heap.length, p⟩ h
        simp at hf
      · obtain ⟨l, j, hj, hq⟩ := (actsAll_below _ _ _ _ _ h).1 _ _ rfl
        cases hq
        exact ⟨j, by simp, hj⟩
    · intro p s e hp
      have hrun' : (runActs imp (actsAll key pre ⟨r.heap.length, []⟩ 0 []).1 (addFile r path elems)).2.scopes
          (.at ⟨r.heap.length, p⟩) = some s := by rw [hrun]; exact e
      rcases runActs_scopes hl hlat _ _ _ _ hrun' (by simp [addFile]) with h | ⟨t, h⟩
      · obtain ⟨f, hf, _⟩ := hr.scopes ⟨r.heap.length, p⟩ s h hp
        simp at hf
      · rcases (actsAll_below _ _ _ _ _ h).2 _ _ rfl with h | ⟨l, j, hj, hq⟩
        · exfalso
          rcases hk with e | e
          · rw [e] at h; cases h
          · rw [e] at h; cases h; exact hp rfl
        · cases hq
          exact ⟨j, by simp, hj⟩
  have hhalf : HalfDone r' r.heap.length ⟨path, elems⟩ pre.length := hhalf1.lext hx2 hn2 hl2 (by omega)
  have hp' : r'.protos path = some r.heap.length :=
    hx2.protos _ _ (hx1.protos _ _ (by simp [addFile, upd]))
  have hf' : r'.heap[r.heap.length]? = some ⟨path, elems⟩ := hx2.file hfile1
  have himpAt : ImportAt ⟨path, elems⟩ pre.length g := ⟨e0, by simp [hes], hek⟩
  have hdone1 : ∀ (i : Nat) f, r.heap.length < i → i < r1.heap.length → r'.heap[i]? = some f → FileDone r' i f := by
    intro i f hi hlt hf
    rw [hx2.file_eq hlt] at hf
    exact (d4 i f (by simp [addFile]; omega) hf).lext hx2
  obtain ⟨m, er, hxm, hcase⟩ := hbr g r1 x r' hs1 hpan
  rcases hcase with ⟨hm, hreq, hnone⟩ | ⟨way, hb⟩
  · subst hm hreq
    refine ⟨m, er, [(r.heap.length, pre.length)], hxm, ⟨.last hp' hf' himpAt, hnone, by simp, ?_, by simp, ?_, ?_⟩⟩
    · intro x hx
      simp only [List.mem_singleton] at hx
      subst hx
      exact hlen1
    · intro i f hi hf hnot
      simp only [List.map_cons, List.map_nil, List.mem_singleton] at hnot
      exact hdone1 i f (by omega) (List.getElem?_eq_some_iff.mp hf).1 hf
    · intro x hx
      simp only [List.mem_singleton] at hx
      subst hx
      exact ⟨_, hf', hhalf⟩
  · refine ⟨m, er, (r.heap.length, pre.length) :: way, hxm, ⟨.next hp' hf' himpAt hb.isWay, hb.missing, ?_, ?_, ?_, ?_, ?_⟩⟩
    · intro x hx
      rcases List.mem_cons.mp hx with rfl | hx
      · exact Nat.le_refl _
      · have := hb.new x hx
        omega
    · intro x hx
      rcases List.mem_cons.mp hx with rfl | hx
      · have := hx2.length
        simp only
        omega
      · exact hb.old x hx
    · simp only [List.map_cons, List.nodup_cons]
      refine ⟨?_, hb.nodup⟩
      intro hm
      obtain ⟨x, hx, e⟩ := List.mem_map.mp hm
      have := hb.new x hx
      omega
    · intro i f hi hf hnot
      simp only [List.map_cons, List.mem_cons, not_or] at hnot
      by_cases hlt : i < r1.heap.length
      · exact hdone1 i f (by omega) hlt hf
      · exact hb.done i f (by omega) hf hnot.2
    · intro x hx
      rcases List.mem_cons.mp hx with rfl | hx
      · exact ⟨_, hf', hhalf⟩
      · exact hb.half x hx

theorem visitImport_broken {W : World} (hW : W.Sat WFFile) : ∀ n path r x r', Sound r →
    visitImport W n path r = (.panic x, r') → ∃ m e, x = .importFailed m e ∧
      ((m = path ∧ r' = r ∧ r.protos m = none) ∨ ∃ way, Broken r.heap.length r' m path way) := by
  intro n
  induction n with
  | zero => intro path r x r' _ h; cases h
  | succ n ih =>
    intro path r x r' hr h
    unfold visitImport at h
    simp only [M.bind_apply, M.get_apply] at h
    cases hp : r.protos path with
    | some i => rw [hp] at h; cases h
    | none =>
      rw [hp] at h
      simp only [M.bind_apply] at h
      rcases protoFile_cases W path r with ⟨i, hi, e⟩ | ⟨_, er, e⟩ | ⟨hn, nm, elems, _, hload, e⟩
      · rw [hi] at hp; cases hp
      · rw [e] at h; cases h
        exact ⟨path, _, rfl, .inl ⟨rfl, rfl, hp⟩⟩
      · rw [e] at h
        simp only at h
        have hw := hW _ _ _ hload
        rw [acceptFile_eq (f := ⟨path, elems⟩) (by simp [Protoast.addFile])] at h
        obtain ⟨m, er, way, h1, h2⟩ := visitFile_broken (visitImport_lext W n) (visitImport_later W n)
          (visitImport_names W n) (visitImport_done hW n) (visitImport_sound hW n) ih hw (.inl rfl) hr h
        exact ⟨m, er, h1, .inr ⟨way, h2⟩⟩

/-- The state a panicking `Proto` call leaves. -/
theorem proto_broken {W : World} (hW : W.Sat WFFile) {fuel path r x r'} (hr : Sound r)
    (h : proto W fuel path r = (.panic x, r')) :
    ∃ m e way, x = .importFailed m e ∧ Broken r.heap.length r' m path way := by
  rcases proto_cases W path r with ⟨i, hi, e⟩ | ⟨_, er, e⟩ | ⟨hn, nm, elems, _, hload, e⟩
  · rw [e] at h; cases h
  · rw [e] at h; cases h
  · rw [e] at h
    unfold protoNew at h
    rcases hrun : runActs (visitImport W fuel) (fileActs (.at ⟨r.heap.length, []⟩) r.heap.length elems)
      (addFile r path elems) with ⟨res, r1⟩
    rw [hrun] at h
    cases res with
    | ok u => cases h
    | timeout => cases h
    | panic p =>
      cases h
      exact visitFile_broken (visitImport_lext W fuel) (visitImport_later W fuel)
        (visitImport_names W fuel) (visitImport_done hW fuel) (visitImport_sound hW fuel)
        (visitImport_broken hW fuel) (hW _ _ _ hload) (.inr rfl) hr hrun

/-- A name that is registered stays registered. -/
theorem proto_nameSome (W : World) (fuel : Nat) (path : Str) (r : Reg) (s : Str) (h : (r.registry s).isSome = true) :
    ((proto W fuel path r).2.registry s).isSome = true := by
  rcases proto_cases W path r with ⟨i, hi, e⟩ | ⟨_, er, e⟩ | ⟨hn, nm, elems, _, hload, e⟩
  · rw [e]; exact h
  · rw [e]; exact h
  · rw [e]
    have := ((LExt.addFile (elems := elems) hn).trans (runActs_lext (imp := visitImport W fuel)
      (fileActs (.at ⟨r.heap.length, []⟩) r.heap.length elems) (fun f _ r => visitImport_lext W fuel f r) _)).names s h
    unfold protoNew
    rcases hr : runActs (visitImport W fuel) (fileActs (.at ⟨r.heap.length, []⟩) r.heap.length elems)
      (addFile r path elems) with ⟨res, r1⟩
    rw [hr] at this
    cases res <;> exact this

theorem exec_nameSome (s : Str) : ∀ (ops : List Op) (c : Client), (c.reg.registry s).isSome = true →
    ((c.exec ops).reg.registry s).isSome = true := by
  intro ops
  induction ops with
  | nil => intro c h; exact h
  | cons op ops ih =>
    intro c h
    refine ih (c.step op) ?_
    rw [step_reg]
    cases op with
    | proto W fuel path =>
      simp only [Op.run, M.bind_apply]
      have := proto_nameSome W fuel path c.reg s h
      rcases hr : proto W fuel path c.reg with ⟨res, r'⟩
      rw [hr] at this
      cases res with
      | ok x => cases x <;> exact this
      | panic p => exact this
      | timeout => exact this
    | byName name =>
      have := ((RO.nodeByFullName name).ext c.reg).registry
      simp only [Op.run, M.bind_apply]
      rcases hr : nodeByFullName name c.reg with ⟨res, r'⟩
      rw [hr] at this
      simp only at this
      rw [← this] at h
      cases res <;> exact h
    | query hd q =>
      simp only [Op.run]
      cases hp : c.pool[hd]? with
      | none => exact h
      | some n => simp only; rw [((RO.queryRun q n).ext c.reg).registry]; exact h

end Protoast
