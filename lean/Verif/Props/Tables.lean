import Mathlib.Data.List.Perm.Subperm
import Verif.Spec.Tables
import Verif.Proof.InForce
import Verif.Proof.HeapSat
import Verif.Props.InForce
/-
  C100: what the registry keeps is bounded by what was loaded; calls that do not load add nothing beyond that.
-/
namespace Protoast.Props
open Protoast

/-! ### Counting -/

/-- A map whose keys correspond to different elements of a list has at most as many entries. -/
theorem atMost_of {α β γ : Type} {table : α → Option β} {l : List γ} (rel : α → γ → Prop)
    (has : ∀ k, table k ≠ none → ∃ x ∈ l, rel k x) (inj : ∀ k k' x, rel k x → rel k' x → k = k') :
    AtMost table l.length := by
  intro keys hnd hk
  have : ∀ ks : List α, ks.Nodup → (∀ k ∈ ks, table k ≠ none) →
      ∃ xs : List γ, xs.length = ks.length ∧ xs.Nodup ∧ (∀ x ∈ xs, x ∈ l) ∧ ∀ x ∈ xs, ∃ k ∈ ks, rel k x := by
    intro ks
    induction ks with
    | nil => intro _ _; exact ⟨[], rfl, List.nodup_nil, by simp, by simp⟩
    | cons k ks ih =>
      intro hn hs
      obtain ⟨xs, h1, h2, h3, h4⟩ := ih (List.nodup_cons.mp hn).2 (fun k' h => hs k' (List.mem_cons_of_mem _ h))
      obtain ⟨x, hx, hr⟩ := has k (hs k (by simp))
      refine ⟨x :: xs, by simp [h1], List.nodup_cons.mpr ⟨?_, h2⟩, ?_, ?_⟩
      · intro hm
        obtain ⟨k', hk', hr'⟩ := h4 x hm
        exact (List.nodup_cons.mp hn).1 (inj _ _ _ hr hr' ▸ hk')
      · intro y hy
        rcases List.mem_cons.mp hy with rfl | hy
        · exact hx
        · exact h3 y hy
      · intro y hy
        rcases List.mem_cons.mp hy with rfl | hy
        · exact ⟨k, by simp, hr⟩
        · obtain ⟨k', h, h'⟩ := h4 y hy
          exact ⟨k', List.mem_cons_of_mem _ h, h'⟩
  obtain ⟨xs, h1, h2, h3, _⟩ := this keys hnd hk
  rw [← h1]
  exact (h2.subperm h3).length_le

mutual
/-- The paths of the elements inside an element at `base`. -/
def pathsIn (base : List Nat) : Elem → List (List Nat)
  | .mk _ _ _ cs => pathsFrom base 0 cs
/-- The paths of the elements of a list, and inside them. -/
def pathsFrom (base : List Nat) (n : Nat) : List Elem → List (List Nat)
  | [] => []
  | e :: es => ((n :: base) :: pathsIn (n :: base) e) ++ pathsFrom base (n + 1) es
end

mutual
theorem pathsIn_length (base : List Nat) : (e : Elem) → (pathsIn base e).length + 1 = e.statements
  | .mk _ _ _ cs => by
    have := pathsFrom_length base 0 cs
    simp only [pathsIn, Elem.statements, this]
    omega
theorem pathsFrom_length (base : List Nat) (n : Nat) : (es : List Elem) →
    (pathsFrom base n es).length = Elem.statementsIn es
  | [] => by simp [pathsFrom, Elem.statementsIn]
  | e :: es => by
    have h1 := pathsIn_length (n :: base) e
    have h2 := pathsFrom_length base (n + 1) es
    simp only [pathsFrom, Elem.statementsIn, List.length_append, List.length_cons, h2]
    omega
end

theorem pathsIn_eq (base : List Nat) (e : Elem) : pathsIn base e = pathsFrom base 0 e.children := by
  cases e; simp [pathsIn]

theorem pathsFrom_get {base : List Nat} : ∀ {es : List Elem} {n i : Nat} {e : Elem}, es[i]? = some e →
    (n + i) :: base ∈ pathsFrom base n es ∧
    ∀ x ∈ pathsFrom ((n + i) :: base) 0 e.children, x ∈ pathsFrom base n es
  | [], n, i, e, h => by simp at h
  | e' :: es, n, 0, e, h => by
    simp only [List.getElem?_cons_zero, Option.some.injEq] at h
    subst h
    simp only [pathsFrom, Nat.add_zero, pathsIn_eq]
    exact ⟨by simp, fun x hx => by simp [hx]⟩
  | e' :: es, n, i + 1, e, h => by
    simp only [List.getElem?_cons_succ] at h
    have := pathsFrom_get (base := base) (n := n + 1) h
    rw [show n + 1 + i = n + (i + 1) by omega] at this
    simp only [pathsFrom]
    exact ⟨List.mem_append_right _ this.1, fun x hx => List.mem_append_right _ (this.2 x hx)⟩

theorem elemAt_paths {f : ProtoFile} : ∀ {path : List Nat} {e : Elem}, f.elemAt path = some e →
    path ∈ pathsFrom [] 0 f.elems ∧ ∀ x ∈ pathsFrom path 0 e.children, x ∈ pathsFrom [] 0 f.elems
  | [], e, h => by simp [ProtoFile.elemAt] at h
  | [i], e, h => by
    simp only [ProtoFile.elemAt, ProtoFile.childrenAt, Option.bind_some] at h
    have := pathsFrom_get (base := []) (n := 0) h
    rwa [Nat.zero_add] at this
  | i :: j :: rest, e, h => by
    simp only [ProtoFile.elemAt, ProtoFile.childrenAt, Option.bind_eq_some_iff, Option.map_eq_some_iff] at h
    obtain ⟨cs, ⟨e', he', rfl⟩, hc⟩ := h
    have h1 := elemAt_paths (f := f) (path := j :: rest) (e := e') (by
      simp only [ProtoFile.elemAt, Option.bind_eq_some_iff]; exact he')
    have h2 := pathsFrom_get (base := j :: rest) (n := 0) hc
    rw [Nat.zero_add] at h2
    exact ⟨h1.2 _ h2.1, fun x hx => h1.2 _ (h2.2 x hx)⟩

/-- The pointers to the elements of the files, numbered from `n`. -/
def allPtrs : Nat → List ProtoFile → List Ptr
  | _, [] => []
  | n, f :: fs => (pathsFrom [] 0 f.elems).map (fun path => ⟨n, path⟩) ++ allPtrs (n + 1) fs

theorem allPtrs_length : ∀ (fs : List ProtoFile) (n : Nat),
    (allPtrs n fs).length = (fs.map fun f => Elem.statementsIn f.elems).sum
  | [], n => rfl
  | f :: fs, n => by
    simp [allPtrs, allPtrs_length fs (n + 1), pathsFrom_length]

theorem allPtrs_mem : ∀ {fs : List ProtoFile} {n i : Nat} {f : ProtoFile} {path : List Nat}, fs[i]? = some f →
    path ∈ pathsFrom [] 0 f.elems → (⟨n + i, path⟩ : Ptr) ∈ allPtrs n fs
  | [], n, i, f, path, h, _ => by simp at h
  | f' :: fs, n, 0, f, path, h, hp => by
    simp only [List.getElem?_cons_zero, Option.some.injEq] at h
    subst h
    simp only [allPtrs, Nat.add_zero]
    exact List.mem_append_left _ (List.mem_map.mpr ⟨path, hp, rfl⟩)
  | f' :: fs, n, i + 1, f, path, h, hp => by
    simp only [List.getElem?_cons_succ] at h
    have := allPtrs_mem (n := n + 1) h hp
    rw [show n + 1 + i = n + (i + 1) by omega] at this
    simp only [allPtrs]
    exact List.mem_append_right _ this

theorem elem_allPtrs {r : Reg} {p : Ptr} {e : Elem} (h : r.elem p = some e) : p ∈ allPtrs 0 r.heap := by
  simp only [Reg.elem, Option.bind_eq_some_iff] at h
  obtain ⟨f, hf, he⟩ := h
  have := allPtrs_mem (n := 0) hf (elemAt_paths he).1
  rwa [Nat.zero_add] at this

/-- Every pointer to something. -/
def livePtrs (r : Reg) : List Ptr := (List.range r.heap.length).map (fun i => ⟨i, []⟩) ++ allPtrs 0 r.heap

theorem livePtrs_length (r : Reg) : (livePtrs r).length = r.files + r.statements := by
  simp [livePtrs, allPtrs_length, Reg.files, Reg.statements]

theorem live_mem {r : Reg} {p : Ptr} (h : Live r p) : p ∈ livePtrs r := by
  rcases p with ⟨i, path⟩
  cases path with
  | nil => exact List.mem_append_left _ (List.mem_map.mpr ⟨i, List.mem_range.mpr h.1, rfl⟩)
  | cons j t =>
    obtain ⟨e, he⟩ := h.2 (by simp)
    exact List.mem_append_right _ (elem_allPtrs he)

/-! ### The bound -/

theorem fits {o r} (hi : Inv o r) (hs : SoundInForce r) : FitsIn r r.files r.statements where
  protos := by
    have : AtMost r.protos (List.range r.heap.length).length := by
      refine atMost_of (fun s i => r.protos s = some i) ?_ ?_
      · intro s h
        obtain ⟨i, hi'⟩ := Option.ne_none_iff_exists'.mp h
        obtain ⟨f, hf, _⟩ := hi.protosHeap s i hi'
        exact ⟨i, List.mem_range.mpr (List.getElem?_eq_some_iff.mp hf).1, hi'⟩
      · intro s s' i h h'
        obtain ⟨f, hf, rfl⟩ := hi.protosHeap s i h
        obtain ⟨f', hf', rfl⟩ := hi.protosHeap s' i h'
        rw [hf] at hf'; cases hf'; rfl
    simpa [Reg.files] using this
  names := by
    have : AtMost r.registry (allPtrs 0 r.heap).length := by
      refine atMost_of (fun s p => r.registry s = some p) ?_ ?_
      · intro s h
        obtain ⟨p, hp⟩ := Option.ne_none_iff_exists'.mp h
        obtain ⟨e, k, he, _⟩ := hi.regPtr s p hp
        exact ⟨p, elem_allPtrs he, hp⟩
      · intro s s' p h h'
        obtain ⟨f, hf, hn⟩ := hs.names s p h
        obtain ⟨f', hf', hn'⟩ := hs.names s' p h'
        rw [hf] at hf'; cases hf'
        rw [hn] at hn'; cases hn'; rfl
    rwa [allPtrs_length] at this
  scopes := by
    have : AtMost r.scopes (Vis.nilProto :: (livePtrs r).map Vis.at).length := by
      refine atMost_of Eq ?_ (fun _ _ _ h h' => h.trans h'.symm)
      intro v h
      obtain ⟨s, hv⟩ := Option.ne_none_iff_exists'.mp h
      refine ⟨v, ?_, rfl⟩
      rcases hi.scopeKey v s hv with rfl | ⟨p, rfl, hl⟩
      · simp
      · exact List.mem_cons_of_mem _ (List.mem_map.mpr ⟨p, live_mem hl, rfl⟩)
    simpa [livePtrs_length] using this
  nodes := by
    have : AtMost r.cache (Vis.nil :: Vis.nilProto :: Vis.nilOption :: (livePtrs r).map Vis.at).length := by
      refine atMost_of Eq ?_ (fun _ _ _ h h' => h.trans h'.symm)
      intro v h
      obtain ⟨n, hv⟩ := Option.ne_none_iff_exists'.mp h
      refine ⟨v, ?_, rfl⟩
      have hat : ∀ p, v = .at p → Live r p := by
        cases n with
        | none => exact (hi.cacheNone v hv).2
        | some n => intro p e; subst e; exact (hi.cacheRooted p n hv).under.live
      cases v with
      | nil => simp
      | nilProto => simp
      | nilOption => simp
      | «at» p =>
        exact List.mem_cons_of_mem _ (List.mem_cons_of_mem _ (List.mem_cons_of_mem _
          (List.mem_map.mpr ⟨p, live_mem (hat p rfl), rfl⟩)))
    simpa [livePtrs_length] using this
  types := by
    have : AtMost r.ftcache (allPtrs 0 r.heap).length := by
      refine atMost_of (fun a p => r.cache (.at p) = some (some (.wrapped a .messageField p))) ?_ ?_
      · intro a h
        obtain ⟨t, ht⟩ := Option.ne_none_iff_exists'.mp h
        obtain ⟨p, hp⟩ := hi.ftCached a t ht
        obtain ⟨_, _, _, h1, h2, h3, _⟩ := hi.cacheSome _ _ hp
        cases h1; cases h2
        rcases fieldKind_cases h3 with ⟨_, _, _, _, _, hk⟩ | ⟨_, hk⟩ | ⟨_, _, _, _, hk⟩ <;>
        · simp only [Reg.kind, Option.map_eq_some_iff] at hk
          obtain ⟨e, he, _⟩ := hk
          exact ⟨p, elem_allPtrs he, hp⟩
      · intro a a' p h h'
        rw [h] at h'; cases h'; rfl
    rwa [allPtrs_length] at this

/-- C100: whatever a client did, and however often, the registry keeps no more than one entry per loaded file in the
    table of files, no more than one name and one field type per statement of the loaded files, and no more than one
    scope and one node per file and statement. No file is loaded twice. -/
theorem C100_bounded {c : Client} (hc : Reachable FlatFile c) :
    FitsIn c.reg c.reg.files c.reg.statements ∧ (c.reg.heap.map ProtoFile.filename).Nodup := by
  obtain ⟨o, hi, _⟩ := reachable_inv hc
  refine ⟨fits hi (reachable_inForce hc), ?_⟩
  rw [List.Nodup, List.pairwise_iff_getElem]
  intro i j h1 h2 hlt e
  simp only [List.length_map] at h1 h2
  simp only [List.getElem_map] at e
  have e1 := hi.heapProtos i _ (List.getElem?_eq_getElem h1)
  have e2 := hi.heapProtos j _ (List.getElem?_eq_getElem h2)
  rw [e, e2] at e1
  cases e1
  omega

theorem query_heap {op : Op} (h : op.isQuery) (c : Client) : (c.step op).reg.heap = c.reg.heap := by
  have key : ∀ {m : M (List Node)}, RO m → (m c.reg).2.heap = c.reg.heap := fun hm => (hm c.reg).heap
  have : (op.run c.pool c.reg).2.heap = c.reg.heap := by
    cases op with
    | proto _ _ _ => exact h.elim
    | byName name => exact key (RO.bind (RO.nodeByFullName name) fun _ => RO.pure _)
    | query i q =>
      simp only [Op.run]
      cases c.pool[i]? with
      | none => rfl
      | some n => exact key (RO.queryRun q n)
  unfold Client.step
  rcases hr : op.run c.pool c.reg with ⟨res, r⟩
  rw [hr] at this
  cases res <;> exact this

/-- C100: calls that do not load, in any number and any order, never take the registry above the bound that the files
    loaded so far set. -/
theorem C100_queries {c : Client} (hc : Reachable FlatFile c) (ops : List Op) (hq : ∀ op ∈ ops, op.isQuery) :
    FitsIn (c.exec ops).reg c.reg.files c.reg.statements := by
  have hheap : (c.exec ops).reg.heap = c.reg.heap := by
    clear hc
    induction ops generalizing c with
    | nil => rfl
    | cons op ops ih =>
      exact (ih (c := c.step op) fun x hx => hq x (List.mem_cons_of_mem _ hx)).trans (query_heap (hq op (by simp)) c)
  have hsat : ∀ op ∈ ops, Op.Sat FlatFile op := by
    intro op hop
    have := hq op hop
    cases op with
    | proto _ _ _ => exact this.elim
    | _ => trivial
  have := (C100_bounded (reachable_exec hc ops hsat)).1
  unfold Reg.files Reg.statements at this
  rw [hheap] at this
  exact this

/-- A client whose registry keeps names, scopes, nodes and a field type, and whose bound is a small number. -/
example : Reachable FlatFile twoClient ∧ twoClient.reg.files = 2 ∧ twoClient.reg.statements = 24 ∧
    (∀ op ∈ [Op.query 2 (.plain .fieldType)], op.isQuery) ∧
    (twoClient.exec [.query 2 (.plain .fieldType)]).reg.ftcache 2 ≠ none := by
  refine ⟨clean_reachable two_clean, by decide +kernel, by decide +kernel, ?_, by decide +kernel⟩
  intro op h
  simp only [List.mem_cons, List.not_mem_nil, or_false] at h
  subst h
  trivial

end Protoast.Props
