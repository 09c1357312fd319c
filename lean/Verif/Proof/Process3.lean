import Verif.Proof.Process2
/-
  The maps of different registries refer to different files.
-/
namespace Protoast

/-- The maps of the registry refer to files in `S` only. -/
structure Within (S : Nat → Prop) (r : Reg) : Prop where
  protos : ∀ path i, r.protos path = some i → S i ∧ i < r.heap.length
  names : ∀ name p, r.registry name = some p → S p.file ∧ p.file < r.heap.length
  scopes : ∀ (p : Ptr) t, r.scopes (.at p) = some t → S p.file ∧ p.file < r.heap.length

theorem Within.mono {S T : Nat → Prop} {r r' : Reg} (h : Within S r) (hst : ∀ i, S i → T i) (hp : r'.protos = r.protos)
    (hn : r'.registry = r.registry) (hs : r'.scopes = r.scopes) (hl : r.heap.length ≤ r'.heap.length) : Within T r' := by
  constructor
  · intro path i e; rw [hp] at e; obtain ⟨a, b⟩ := h.protos _ _ e; exact ⟨hst _ a, by omega⟩
  · intro path i e; rw [hn] at e; obtain ⟨a, b⟩ := h.names _ _ e; exact ⟨hst _ a, by omega⟩
  · intro path i e; rw [hs] at e; obtain ⟨a, b⟩ := h.scopes _ _ e; exact ⟨hst _ a, by omega⟩

mutual
theorem acts_named {key : Vis} : (e : Elem) → (p : Ptr) → (scope : Str) → (s : Str) → (q : Ptr) →
    Act.name s q ∈ (acts key e p scope).1 → q.file = p.file
  | .mk pos c k cs, p, scope, s, q => by
    have hcs := fun sc => actsAll_named (key := key) cs p 0 sc s q
    intro h
    cases k <;> simp only [acts, List.mem_cons, List.not_mem_nil, reduceCtorEq, Act.name.injEq,
      false_or, or_false] at h
    case message name ext =>
      cases ext
      · simp at h
        rcases h with h | h
        · rw [h.2]
        · exact hcs _ h
      · simp at h
        exact hcs _ h
    case service =>
      rcases h with h | h | h
      · rw [h.2]
      · rw [h.2]
      · exact hcs _ h
    case enum =>
      rcases h with h | h
      · rw [h.2]
      · exact hcs _ h
    case oneof =>
      rcases h with h | h
      · rw [h.2]
      · exact hcs _ h
    all_goals rw [h.2]
theorem actsAll_named {key : Vis} : (es : List Elem) → (p : Ptr) → (n : Nat) → (scope : Str) →
    (s : Str) → (q : Ptr) → Act.name s q ∈ (actsAll key es p n scope).1 → q.file = p.file
  | [], p, n, scope, s, q, h => by simp [actsAll] at h
  | e :: es, p, n, scope, s, q, h => by
    simp only [actsAll, List.mem_append] at h
    rcases h with h | h
    · exact acts_named e (p.child n) _ _ _ h
    · exact actsAll_named es _ _ _ _ _ h
end

/-- A computation that keeps the maps within sets that contain all new files. -/
def Keeps (m : M Unit) : Prop :=
  ∀ (S : Nat → Prop) (r : Reg), (∀ x, r.heap.length ≤ x → S x) → Within S r → Within S (m r).2

theorem runActs_within {imp : Str → M Unit} (hl : ∀ g r, LExt r (imp g r).2) (himp : ∀ g, Keeps (imp g)) {i : Nat} :
    ∀ (as : List Act), (∀ s q, Act.name s q ∈ as → q.file = i) → (∀ q s, Act.scope (.at q) s ∈ as → q.file = i) →
    ∀ (S : Nat → Prop) (r : Reg), (∀ x, r.heap.length ≤ x → S x) → S i → i < r.heap.length → Within S r →
      Within S (runActs imp as r).2 := by
  intro as
  induction as with
  | nil => intro _ _ S r _ _ _ h; exact h
  | cons a as ih =>
    intro hn hs S r hS hi hlt h
    have ha : Within S (a.run imp r).2 ∧ r.heap.length ≤ (a.run imp r).2.heap.length := by
      cases a with
      | name t p =>
        refine ⟨⟨h.protos, ?_, h.scopes⟩, Nat.le_refl _⟩
        intro nm q e
        simp only [Act.run, setName, M.modify_apply, upd] at e
        split at e
        · have := hn t p (by simp)
          cases e
          exact ⟨by rw [this]; exact hi, by rw [this]; exact hlt⟩
        · exact h.names _ _ e
      | scope v t =>
        refine ⟨⟨h.protos, h.names, ?_⟩, Nat.le_refl _⟩
        intro q u e
        simp only [Act.run, setScope, M.modify_apply, upd] at e
        split at e
        · next hv =>
          have := hs q t (by rw [hv]; simp)
          exact ⟨by rw [this]; exact hi, by rw [this]; exact hlt⟩
        · exact h.scopes _ _ e
      | imp g => exact ⟨himp g S r hS h, (hl g r).length⟩
    simp only [runActs, M.bind_apply]
    rcases hr : a.run imp r with ⟨res, r1⟩
    rw [hr] at ha
    obtain ⟨ha, hlen⟩ := ha
    simp only at ha hlen
    cases res with
    | ok u =>
      exact ih (fun s q e => hn s q (List.mem_cons_of_mem _ e)) (fun q s e => hs q s (List.mem_cons_of_mem _ e)) S r1
        (fun x hx => hS x (by omega)) hi (by omega) ha
    | panic p => exact ha
    | timeout => exact ha

/-- Adding a file and visiting it. -/
theorem addVisit_within {imp : Str → M Unit} {key : Vis} {S : Nat → Prop} {r : Reg} {path elems}
    (hl : ∀ g r, LExt r (imp g r).2) (himp : ∀ g, Keeps (imp g)) (hkey : ∀ p : Ptr, key = .at p → p.file = r.heap.length)
    (hS : ∀ x, r.heap.length ≤ x → S x) (h : Within S r) :
    Within S (runActs imp (fileActs key r.heap.length elems) (addFile r path elems)).2 := by
  have hlen : (addFile r path elems).heap.length = r.heap.length + 1 := by simp [addFile]
  refine runActs_within hl himp (i := r.heap.length) _ ?_ ?_ S _ ?_ ?_ ?_ ?_
  · intro s q e
    exact actsAll_named _ _ _ _ _ _ e
  · intro q s e
    rcases actsAll_scope _ _ _ _ _ _ e with h | ⟨q', h, hf⟩
    · exact hkey q h.symm
    · cases h; exact hf
  · intro x hx; exact hS x (by omega)
  · exact hS _ (Nat.le_refl _)
  · omega
  · constructor
    · intro p i e
      simp only [addFile, upd] at e
      split at e
      · cases e; exact ⟨hS _ (Nat.le_refl _), by omega⟩
      · obtain ⟨a, b⟩ := h.protos _ _ e; exact ⟨a, by omega⟩
    · intro p i e; obtain ⟨a, b⟩ := h.names _ _ e; exact ⟨a, by omega⟩
    · intro p i e; obtain ⟨a, b⟩ := h.scopes _ _ e; exact ⟨a, by omega⟩

theorem visitImport_within (W : World) : ∀ n path, Keeps (visitImport W n path) := by
  intro n
  induction n with
  | zero => intro path S r _ h; exact h
  | succ n ih =>
    intro path S r hS hw
    unfold visitImport
    simp only [M.bind_apply, M.get_apply]
    cases hp : r.protos path with
    | some i => exact hw
    | none =>
      simp only [M.bind_apply]
      rcases protoFile_cases W path r with ⟨i, hi, h⟩ | ⟨_, e, h⟩ | ⟨hn, nm, elems, _, _, h⟩
      · rw [hi] at hp; cases hp
      · rw [h]; exact hw
      · rw [h]
        simp only
        rw [acceptFile_eq (f := ⟨path, elems⟩) (by simp [Protoast.addFile])]
        exact addVisit_within (visitImport_lext W n) ih (by intro p hp; cases hp) hS hw

theorem proto_within (W : World) (fuel : Nat) (path : Str) {S : Nat → Prop} {r : Reg}
    (hS : ∀ x, r.heap.length ≤ x → S x) (hw : Within S r) : Within S (proto W fuel path r).2 := by
  rcases proto_cases W path r with ⟨i, hi, h⟩ | ⟨hnone, e, h⟩ | ⟨hnone, name, elems, hloc, hload, h⟩
  · rw [h]; exact ⟨hw.protos, hw.names, hw.scopes⟩
  · rw [h]; exact hw
  · rw [h]
    have hl := addVisit_within (imp := visitImport W fuel) (key := .at ⟨r.heap.length, []⟩) (path := path)
      (elems := elems) (visitImport_lext W fuel) (visitImport_within W fuel) (by intro p hp; cases hp; rfl) hS hw
    unfold protoNew
    rcases hr : runActs (visitImport W fuel) (fileActs (.at ⟨r.heap.length, []⟩) r.heap.length elems)
      (addFile r path elems) with ⟨res, r'⟩
    rw [hr] at hl
    cases res with
    | ok u => exact ⟨hl.protos, hl.names, hl.scopes⟩
    | panic e => exact hl
    | timeout => exact hl

theorem CacheExt.within {S : Nat → Prop} {r r' : Reg} (h : CacheExt r r') (hw : Within S r) : Within S r' :=
  hw.mono (fun _ e => e) h.protos h.registry h.scopes (by rw [h.heap]; exact Nat.le_refl _)

theorem opRun_within (pool : List Node) (op : Op) {S : Nat → Prop} {r : Reg}
    (hS : ∀ x, r.heap.length ≤ x → S x) (hw : Within S r) : Within S (op.run pool r).2 := by
  cases op with
  | proto W fuel path =>
    have := proto_within W fuel path hS hw
    simp only [Op.run, M.bind_apply]
    rcases hr : proto W fuel path r with ⟨res, r'⟩
    rw [hr] at this
    cases res with
    | ok x => cases x <;> exact this
    | panic p => exact this
    | timeout => exact this
  | byName name =>
    have := ((RO.nodeByFullName name).ext r).within hw
    simp only [Op.run, M.bind_apply]
    rcases hr : nodeByFullName name r with ⟨res, r'⟩
    rw [hr] at this
    cases res <;> exact this
  | query h q =>
    simp only [Op.run]
    cases hp : pool[h]? with
    | none => exact hw
    | some n => exact ((RO.queryRun q n).ext r).within hw

theorem setUp_within (W : World) (fuel : Nat) {S : Nat → Prop} {r : Reg} (hnone : ∀ path, r.protos path = none)
    (hS : ∀ x, r.heap.length ≤ x → S x) (hw : Within S r) : Within S (setUp W fuel r).2 := by
  have key : Within S (demarkFile W fuel descriptorPath r).2 := by
    unfold demarkFile
    simp only [M.bind_apply]
    rcases protoFile_cases W descriptorPath r with ⟨i, hi, h⟩ | ⟨_, e, h⟩ | ⟨hn, nm, elems, _, _, h⟩
    · rw [hnone] at hi; cases hi
    · rw [h]; exact hw
    · rw [h]
      simp only [M.bind_apply]
      rw [acceptFile_eq (f := ⟨descriptorPath, elems⟩) (by simp [addFile])]
      have hl := addVisit_within (imp := visitImport W fuel) (key := .at ⟨r.heap.length, []⟩) (path := descriptorPath)
        (elems := elems) (visitImport_lext W fuel) (visitImport_within W fuel) (by intro p hp; cases hp; rfl) hS hw
      simp only
      rcases hr : runActs (visitImport W fuel) (fileActs (.at ⟨r.heap.length, []⟩) r.heap.length elems)
        (addFile r descriptorPath elems) with ⟨res, r'⟩
      rw [hr] at hl
      cases res <;> exact hl
  unfold setUp
  simp only [M.bind_apply]
  rcases hr : demarkFile W fuel descriptorPath r with ⟨res, r'⟩
  rw [hr] at key
  cases res with
  | ok x => cases x <;> exact key
  | panic p => exact key
  | timeout => exact key

/-! ### The owner of every file -/

/-- Every file has an owner, and the maps of registry `i` refer to the files of `i` only. -/
def Owns (p : Process) : Prop := ∃ own : Nat → Nat, ∀ i, Within (fun x => own x = i) (p.view i)

theorem Owns.put {p : Process} {own : Nat → Nat} (h : ∀ i, Within (fun x => own x = i) (p.view i)) {j : Nat} {r : Reg}
    {pool} (hl : ∃ l, r.heap = p.heap ++ l) (hw : Within (fun x => x < p.heap.length → own x = j) r) :
    Owns (p.put j r pool) := by
  refine ⟨fun x => if x < p.heap.length then own x else j, fun i => ?_⟩
  obtain ⟨l, hl⟩ := hl
  by_cases hij : i = j
  · subst hij
    rw [put_view_self]
    refine hw.mono ?_ rfl rfl rfl (Nat.le_refl _)
    intro x hx
    by_cases hlt : x < p.heap.length
    · simp only [if_pos hlt]; exact hx hlt
    · simp only [if_neg hlt]
  · rw [put_view_ne hij]
    have hi := h i
    have len : r.heap.length = p.heap.length + l.length := by rw [hl, List.length_append]
    have vlen : (p.view i).heap.length = p.heap.length := rfl
    have key : ∀ x, own x = i ∧ x < (p.view i).heap.length →
        (if x < p.heap.length then own x else j) = i ∧ x < r.heap.length := by
      rintro x ⟨h1, h2⟩
      rw [vlen] at h2
      exact ⟨by rw [if_pos h2]; exact h1, by omega⟩
    exact ⟨fun a b e => key _ (hi.protos a b e), fun a b e => key _ (hi.names a b e), fun a b e => key _ (hi.scopes a b e)⟩

theorem Owns.step {p : Process} (h : Owns p) (a : Action) : Owns (p.step a) := by
  obtain ⟨own, h⟩ := h
  cases a with
  | create i W fuel =>
    have hg := setUp_grown W fuel p
    refine Owns.put h hg.heap ?_
    refine setUp_within W fuel (fun _ => rfl) ?_ ?_
    · intro x hx hlt
      have : (p.seen Tables.empty).heap.length = p.heap.length := rfl
      omega
    · constructor
      · intro path i e; cases e
      · intro path i e; cases e
      · intro path i e; cases e
  | call i j op =>
    have hg := opRun_grown (p.pools j) op (p.view i)
    have hw : Within (fun x => x < p.heap.length → own x = i) (op.run (p.pools j) (p.view i)).2 := by
      refine opRun_within _ op ?_ ((h i).mono (fun x e _ => e) rfl rfl rfl (Nat.le_refl _))
      intro x hx hlt
      have : (p.view i).heap.length = p.heap.length := rfl
      omega
    simp only [Process.step]
    rcases hr : op.run (p.pools j) (p.view i) with ⟨res, r⟩
    rw [hr] at hg hw
    cases res <;> exact Owns.put h hg.heap hw

theorem owns_start : Owns Process.start :=
  ⟨fun _ => 0, fun _ => ⟨fun _ _ e => (by cases e), fun _ _ e => (by cases e), fun _ _ e => (by cases e)⟩⟩

theorem owns_exec : ∀ (as : List Action) {p : Process}, Owns p → Owns (p.exec as) := by
  intro as
  induction as with
  | nil => intro p h; exact h
  | cons a as ih => intro p h; exact ih (h.step a)

/-- Two registries have no file in common. -/
theorem apart_files {p : Process} (h : Owns p) {i j x : Nat} (hi : LoadedBy p i x) (hj : LoadedBy p j x) : i = j := by
  obtain ⟨own, h⟩ := h
  obtain ⟨a, ha⟩ := hi
  obtain ⟨b, hb⟩ := hj
  rw [← ((h i).protos a x ha).1, ← ((h j).protos b x hb).1]

/-- A registry knows no scope of a file another registry has loaded. -/
theorem foreign_scope {p : Process} (h : Owns p) {i j : Nat} (hij : i ≠ j) {q : Ptr} (hq : LoadedBy p i q.file) :
    (p.view j).scope (.at q) = [] := by
  obtain ⟨own, h⟩ := h
  obtain ⟨a, ha⟩ := hq
  unfold Reg.scope
  cases hs : (p.view j).scopes (.at q) with
  | none => rfl
  | some t => exact (hij (by rw [← ((h i).protos a _ ha).1, ← ((h j).scopes q t hs).1])).elim

/-- A name never denotes something in a file that another registry has loaded. -/
theorem foreign_name {p : Process} (h : Owns p) {i j : Nat} (hij : i ≠ j) {q : Ptr} (hq : LoadedBy p i q.file) (name : Str) :
    (p.view j).registry name ≠ some q := by
  obtain ⟨own, h⟩ := h
  obtain ⟨a, ha⟩ := hq
  intro hs
  exact hij (by rw [← ((h i).protos a _ ha).1, ← ((h j).names name q hs).1])

end Protoast
