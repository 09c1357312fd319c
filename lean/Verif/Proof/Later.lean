import Verif.Proof.Load
import Verif.Proof.InvQuery
/-
  What never changes once it is there, and queries that can be repeated.
-/
namespace Protoast

/-- What a later state keeps. -/
structure Later (r r' : Reg) : Prop where
  heap : ∃ l, r'.heap = r.heap ++ l
  protos : ∀ s i, r.protos s = some i → r'.protos s = some i
  scopes : ∀ p : Ptr, p.file < r.heap.length → r'.scopes (.at p) = r.scopes (.at p)
  cache : ∀ v x, r.cache v = some x → r'.cache v = some x
  ftcache : ∀ v x, r.ftcache v = some x → r'.ftcache v = some x

theorem Later.refl (r) : Later r r :=
  ⟨⟨[], by simp⟩, fun _ _ h => h, fun _ _ => rfl, fun _ _ h => h, fun _ _ h => h⟩

theorem Later.length {r r'} (h : Later r r') : r.heap.length ≤ r'.heap.length := by
  obtain ⟨l, hl⟩ := h.heap
  rw [hl]; simp

theorem Later.trans {a b c} (h : Later a b) (g : Later b c) : Later a c := by
  obtain ⟨l, hl⟩ := h.heap
  obtain ⟨l', hl'⟩ := g.heap
  have := h.length
  exact ⟨⟨l ++ l', by rw [hl', hl, List.append_assoc]⟩, fun s i e => g.protos s i (h.protos s i e),
    fun p hp => (g.scopes p (by omega)).trans (h.scopes p hp),
    fun v x e => g.cache v x (h.cache v x e), fun v x e => g.ftcache v x (h.ftcache v x e)⟩

theorem CacheExt.later {r r'} (h : CacheExt r r') : Later r r' :=
  ⟨⟨[], by simp [h.heap]⟩, fun s i e => by rw [h.protos]; exact e, fun p _ => by rw [h.scopes],
    h.cache, h.ftcache⟩

/-! ### The visitor only writes scopes of its own file -/

mutual
theorem acts_scope {key : Vis} : (e : Elem) → (p : Ptr) → (scope : Str) → (v : Vis) → (s : Str) →
    Act.scope v s ∈ (acts key e p scope).1 → v = key ∨ ∃ q : Ptr, v = .at q ∧ q.file = p.file
  | .mk pos c k cs, p, scope, v, s => by
    have hcs := fun sc => actsAll_scope (key := key) cs p 0 sc v s
    intro h
    cases k <;> simp only [acts, List.mem_cons, List.not_mem_nil, reduceCtorEq, Act.scope.injEq,
      false_or, or_false] at h
    case message name ext =>
      cases ext
      · simp at h
        rcases h with h | h
        · exact .inr ⟨p, h.1, rfl⟩
        · exact hcs _ h
      · simp at h
        exact hcs _ h
    case packageK => exact .inl h.1
    case service =>
      rcases h with h | h
      · exact .inr ⟨p, h.1, rfl⟩
      · exact hcs _ h
    case enum =>
      rcases h with h | h
      · exact .inr ⟨p, h.1, rfl⟩
      · exact hcs _ h
    case oneof =>
      rcases h with h | h
      · exact .inr ⟨p, h.1, rfl⟩
      · exact hcs _ h
    all_goals exact .inr ⟨p, h.1, rfl⟩
theorem actsAll_scope {key : Vis} : (es : List Elem) → (p : Ptr) → (n : Nat) → (scope : Str) →
    (v : Vis) → (s : Str) → Act.scope v s ∈ (actsAll key es p n scope).1 →
    v = key ∨ ∃ q : Ptr, v = .at q ∧ q.file = p.file
  | [], p, n, scope, v, s, h => by simp [actsAll] at h
  | e :: es, p, n, scope, v, s, h => by
    simp only [actsAll, List.mem_append] at h
    rcases h with h | h
    · have := acts_scope e (p.child n) _ _ _ h
      exact this
    · exact actsAll_scope es _ _ _ _ _ h
end

theorem LExt.later {r r'} (h : LExt r r')
    (hs : ∀ p : Ptr, p.file < r.heap.length → r'.scopes (.at p) = r.scopes (.at p)) : Later r r' :=
  ⟨h.heap, h.protos, hs, fun v x e => by rw [h.cache]; exact e,
    fun v x e => by rw [h.ftcache]; exact e⟩

/-- A run of actions whose scope writes concern files from `b` on. -/
theorem runActs_later {imp : Str → M Unit} {b : Nat} : ∀ (as : List Act),
    (∀ v s, Act.scope v s ∈ as → ∀ p : Ptr, v = .at p → b ≤ p.file) →
    (∀ f, Act.imp f ∈ as → ∀ r, Later r (imp f r).2) →
    ∀ r, b ≤ r.heap.length → (runActs imp as r).2.heap.length ≥ r.heap.length ∧
      (∃ l, (runActs imp as r).2.heap = r.heap ++ l) ∧
      (∀ s i, r.protos s = some i → (runActs imp as r).2.protos s = some i) ∧
      (∀ p : Ptr, p.file < b → (runActs imp as r).2.scopes (.at p) = r.scopes (.at p)) := by
  intro as
  induction as with
  | nil => intro _ _ r _; exact ⟨Nat.le_refl _, ⟨[], by simp [runActs]⟩, fun _ _ h => h, fun _ _ => rfl⟩
  | cons a as ih =>
    intro hs hi r hb
    have ha : (∃ l, (a.run imp r).2.heap = r.heap ++ l) ∧
        (∀ s i, r.protos s = some i → (a.run imp r).2.protos s = some i) ∧
        (∀ p : Ptr, p.file < b → (a.run imp r).2.scopes (.at p) = r.scopes (.at p)) := by
      cases a with
      | name s p => exact ⟨⟨[], by simp [Act.run, setName]⟩, fun _ _ h => h, fun _ _ => rfl⟩
      | scope v s =>
        refine ⟨⟨[], by simp [Act.run, setScope]⟩, fun _ _ h => h, ?_⟩
        intro p hp
        simp only [Act.run, setScope, M.modify_apply, upd]
        split
        · next hv =>
          have := hs v s (by simp) p hv.symm
          omega
        · rfl
      | imp f =>
        have := hi f (by simp) r
        exact ⟨this.heap, this.protos, fun p hp => this.scopes p (by omega)⟩
    simp only [runActs, M.bind_apply]
    rcases hr : a.run imp r with ⟨res, r'⟩
    rw [hr] at ha
    obtain ⟨⟨l, hl⟩, hp, hsc⟩ := ha
    simp only at hl hp hsc
    have hlen : r.heap.length ≤ r'.heap.length := by rw [hl]; simp
    cases res with
    | ok u =>
      obtain ⟨h1, ⟨l', h2⟩, h3, h4⟩ := ih (fun v s h => hs v s (List.mem_cons_of_mem _ h))
        (fun f h => hi f (List.mem_cons_of_mem _ h)) r' (by omega)
      exact ⟨by simp only; omega, ⟨l ++ l', by simp only [h2, hl, List.append_assoc]⟩,
        fun s i e => h3 s i (hp s i e), fun p e => (h4 p e).trans (hsc p e)⟩
    | panic p => exact ⟨hlen, ⟨l, hl⟩, hp, hsc⟩
    | timeout => exact ⟨hlen, ⟨l, hl⟩, hp, hsc⟩

/-- Adding a file and visiting it. -/
theorem addVisit_later {imp : Str → M Unit} {key : Vis} {r : Reg} {path elems}
    (hn : r.protos path = none) (hkey : ∀ p : Ptr, key = .at p → p.file = r.heap.length)
    (himp : ∀ f r, Later r (imp f r).2) (hl : ∀ f r, LExt r (imp f r).2) :
    Later r (runActs imp (fileActs key r.heap.length elems) (addFile r path elems)).2 := by
  have hx := (LExt.addFile (elems := elems) hn).trans
    (runActs_lext (imp := imp) (fileActs key r.heap.length elems) (fun f _ r => hl f r) _)
  refine hx.later ?_
  intro p hp
  have := (runActs_later (imp := imp) (b := r.heap.length) (fileActs key r.heap.length elems) (by
    intro v s hv q hq
    rcases actsAll_scope _ _ _ _ _ _ hv with h | ⟨q', h, hf⟩
    · have := hkey q (by rw [← h, hq]); omega
    · rw [hq] at h; cases h; simp only at hf; omega) (fun f _ r => himp f r) (addFile r path elems)
    (by simp [addFile])).2.2.2 p hp
  exact this

theorem visitImport_later (W : World) : ∀ n path r, Later r (visitImport W n path r).2 := by
  intro n
  induction n with
  | zero => intro path r; exact Later.refl r
  | succ n ih =>
    intro path r
    unfold visitImport
    simp only [M.bind_apply, M.get_apply]
    cases hp : r.protos path with
    | some i => exact Later.refl r
    | none =>
      simp only [M.bind_apply]
      rcases protoFile_cases W path r with ⟨i, hi, h⟩ | ⟨_, e, h⟩ | ⟨hn, nm, elems, _, _, h⟩
      · rw [hi] at hp; cases hp
      · rw [h]; exact Later.refl r
      · rw [h]
        simp only
        rw [acceptFile_eq (f := ⟨path, elems⟩) (by simp [Protoast.addFile])]
        exact addVisit_later hn (by intro p hp; cases hp) ih (visitImport_lext W n)

theorem proto_later (W : World) (fuel : Nat) (path : Str) (r : Reg) :
    Later r (proto W fuel path r).2 := by
  rcases proto_cases W path r with ⟨i, hi, h⟩ | ⟨hnone, e, h⟩ | ⟨hnone, name, elems, hloc, hload, h⟩
  · rw [h]; exact ⟨⟨[], by simp⟩, fun _ _ h => h, fun _ _ => rfl, fun _ _ h => h, fun _ _ h => h⟩
  · rw [h]; exact Later.refl r
  · rw [h]
    have hl := addVisit_later (imp := visitImport W fuel) (key := .at ⟨r.heap.length, []⟩)
      (elems := elems) hnone (by intro p hp; cases hp; rfl) (visitImport_later W fuel)
      (visitImport_lext W fuel)
    unfold protoNew
    rcases hr : runActs (visitImport W fuel) (fileActs (.at ⟨r.heap.length, []⟩) r.heap.length elems)
      (addFile r path elems) with ⟨res, r'⟩
    rw [hr] at hl
    cases res with
    | ok u => exact ⟨hl.heap, hl.protos, hl.scopes, hl.cache, hl.ftcache⟩
    | panic e => exact hl
    | timeout => exact hl

theorem opRun_later (pool : List Node) (op : Op) (r : Reg) : Later r (op.run pool r).2 := by
  cases op with
  | proto W fuel path =>
    have := proto_later W fuel path r
    simp only [Op.run, M.bind_apply]
    rcases hr : proto W fuel path r with ⟨res, r'⟩
    rw [hr] at this
    cases res with
    | ok x => cases x <;> exact this
    | panic p => exact this
    | timeout => exact this
  | byName name =>
    have := ((RO.nodeByFullName name).ext r).later
    simp only [Op.run, M.bind_apply]
    rcases hr : nodeByFullName name r with ⟨res, r'⟩
    rw [hr] at this
    cases res <;> exact this
  | query h q =>
    simp only [Op.run]
    cases hp : pool[h]? with
    | none => exact Later.refl r
    | some n => exact ((RO.queryRun q n).ext r).later

theorem step_later (c : Client) (op : Op) : Later c.reg (c.step op).reg := by
  have := opRun_later c.pool op c.reg
  unfold Client.step
  rcases hr : op.run c.pool c.reg with ⟨res, r'⟩
  rw [hr] at this
  cases res <;> exact this

theorem exec_later : ∀ (ops : List Op) (c : Client), Later c.reg (c.exec ops).reg := by
  intro ops
  induction ops with
  | nil => intro c; exact Later.refl _
  | cons op ops ih => intro c; exact (step_later c op).trans (ih (c.step op))

theorem exec_pool : ∀ (ops : List Op) (c : Client), ∃ l, (c.exec ops).pool = c.pool ++ l := by
  intro ops
  induction ops with
  | nil => intro c; exact ⟨[], by simp [Client.exec]⟩
  | cons op ops ih =>
    intro c
    obtain ⟨l, hl⟩ := ih (c.step op)
    have : ∃ l', (c.step op).pool = c.pool ++ l' := by
      unfold Client.step
      rcases op.run c.pool c.reg with ⟨res, r'⟩
      cases res with
      | ok ns => exact ⟨ns, rfl⟩
      | panic p => exact ⟨[], by simp⟩
      | timeout => exact ⟨[], by simp⟩
    obtain ⟨l', hl'⟩ := this
    exact ⟨l' ++ l, by
      show ((c.step op).exec ops).pool = _
      rw [hl, hl', List.append_assoc]⟩

theorem exec_append (c : Client) (as bs : List Op) : c.exec (as ++ bs) = (c.exec as).exec bs := by
  simp [Client.exec]

theorem reachable_exec {P c} (h : Reachable P c) (ops : List Op) (hs : ∀ op ∈ ops, Op.Sat P op) :
    Reachable P (c.exec ops) := by
  obtain ⟨W, fuel, r, ops0, h1, h2, h3, rfl⟩ := h
  refine ⟨W, fuel, r, ops0 ++ ops, h1, h2, ?_, (exec_append _ _ _).symm⟩
  intro op hop
  rcases List.mem_append.mp hop with h | h
  · exact h3 op h
  · exact hs op h

/-! ### Facts kept by later states -/

theorem Later.file {r r'} (h : Later r r') {i : Nat} (hi : i < r.heap.length) :
    r'.heap[i]? = r.heap[i]? := by
  obtain ⟨l, hl⟩ := h.heap
  rw [hl, List.getElem?_append_left hi]

theorem Later.elem {r r'} (h : Later r r') {p : Ptr} (hi : p.file < r.heap.length) :
    r'.elem p = r.elem p := by unfold Reg.elem; rw [h.file hi]
theorem Later.kind {r r'} (h : Later r r') {p : Ptr} (hi : p.file < r.heap.length) :
    r'.kind p = r.kind p := by unfold Reg.kind; rw [h.elem hi]
theorem Later.children {r r'} (h : Later r r') {p : Ptr} (hi : p.file < r.heap.length) :
    r'.children p = r.children p := by unfold Reg.children; rw [h.file hi]
theorem Later.kids {r r'} (h : Later r r') {p : Ptr} (hi : p.file < r.heap.length) :
    r'.kids p = r.kids p := by unfold Reg.kids; rw [h.children hi]
theorem Later.scope {r r'} (h : Later r r') {p : Ptr} (hi : p.file < r.heap.length) :
    r'.scope (.at p) = r.scope (.at p) := by unfold Reg.scope; rw [h.scopes p hi]

/-! ### Repeatable computations -/

/-- If the computation succeeds in `r`, it gives the same result in every state later than the one it
    ended in. -/
def Repeats {α : Type} (r : Reg) (m : M α) : Prop :=
  ∀ x r1, m r = (.ok x, r1) → ∀ r2, Later r1 r2 → (m r2).1 = .ok x

theorem Repeats.bind {α β} {r : Reg} {m : M α} {f : α → M β} (hm : Repeats r m) (hro : RO m)
    (hf : ∀ x r1, m r = (.ok x, r1) → Repeats r1 (f x)) (hrof : ∀ x, RO (f x)) :
    Repeats r (m >>= f) := by
  intro y r1 h r2 h2
  simp only [M.bind_apply] at h ⊢
  rcases hr : m r with ⟨res, r'⟩
  rw [hr] at h
  cases res with
  | ok x =>
    simp only at h
    have hl : Later r' r1 := by
      have := ((hrof x).ext r').later
      rw [h] at this
      exact this
    have h1 := hm x r' hr r2 (hl.trans h2)
    have h3 := (hro.ext r2).later
    rcases hr2 : m r2 with ⟨res2, r2'⟩
    rw [hr2] at h1 h3
    simp only at h1
    subst h1
    exact hf x r' hr y r1 h r2' (h2.trans h3)
  | panic p => cases h
  | timeout => cases h

theorem Repeats.pure {α} (r : Reg) (a : α) : Repeats r (Pure.pure a : M α) := by
  intro x r1 h r2 _
  cases h
  rfl

theorem Repeats.panic {α} (r : Reg) (p : Panic) : Repeats r (M.panic p : M α) := by
  intro x r1 h
  cases h

theorem wrap_ok_cache {v : Vis} {r : Reg} {x r1} (h : wrap v r = (.ok x, r1)) : r1.cache v = some x := by
  unfold wrap at h
  split at h
  · next n hc => cases h; exact hc
  · split at h
    · cases h; simp [upd]
    · cases h

theorem Repeats.wrap (r : Reg) (v : Vis) : Repeats r (wrap v) := by
  intro x r1 h r2 h2
  have := h2.cache _ _ (wrap_ok_cache h)
  unfold Protoast.wrap
  rw [this]

theorem Repeats.assertKind (r : Reg) (k : WKind) (n : Option Node) : Repeats r (assertKind k n) := by
  unfold Protoast.assertKind
  split
  · split
    · exact Repeats.pure _ _
    · exact Repeats.panic _ _
  · exact Repeats.panic _ _

theorem Repeats.wrapAs (r : Reg) (k : WKind) (p : Ptr) : Repeats r (wrapAs k p) :=
  Repeats.bind (Repeats.wrap r _) (RO.wrap _) (fun _ _ _ => Repeats.assertKind _ _ _)
    (fun _ => RO.assertKind _ _)

theorem Repeats.wrapNamed (r : Reg) (p : Ptr) : Repeats r (wrapNamed p) := by
  refine Repeats.bind (Repeats.wrap r _) (RO.wrap _) (fun x _ _ => ?_) (fun x => ?_)
  · split
    · exact Repeats.pure _ _
    · exact Repeats.pure _ _
    · exact Repeats.panic _ _
  · split <;> ro

/-- Reading the state first: enough if the continuation is the same computation in later states. -/
theorem Repeats.get {β} {r : Reg} {f : Reg → M β} (hc : ∀ r2, Later r r2 → f r2 = f r)
    (hro : RO (f r)) (h : Repeats r (f r)) : Repeats r (M.get >>= f) := by
  intro x r1 hx r2 h2
  simp only [M.bind_apply, M.get_apply] at hx ⊢
  have hl : Later r r1 := by
    have := (hro.ext r).later
    rw [hx] at this
    exact this
  rw [hc r2 (hl.trans h2)]
  exact h x r1 hx r2 h2

theorem Repeats.nth {α} {r : Reg} {p : Ptr} {pick : Ptr → Kind → Option (M α)} (i : Nat)
    (hp : p.file < r.heap.length) (hpick : ∀ q k m, pick q k = some m → Repeats r m ∧ RO m) :
    Repeats r (Seq.nth (overKids p pick) i) := by
  have heq : ∀ r2, Later r r2 → overKids p pick r2 =
      (.ok ((r.kids p).filterMap fun (q, e) => pick q e.kind), r2) := by
    intro r2 h
    rw [overKids_apply, h.kids hp]
  intro x r1 h r2 h2
  unfold Seq.nth at h ⊢
  simp only [M.bind_apply] at h ⊢
  rw [heq r (Later.refl r)] at h
  have hro : Later r r1 := by
    have := ((RO.nth (ROSeq.overKids p pick (fun q k m hm => (hpick q k m hm).2)) i).ext r).later
    unfold Seq.nth at this
    simp only [M.bind_apply] at this
    rw [heq r (Later.refl r), h] at this
    exact this
  rw [heq r2 (hro.trans h2)]
  simp only at h ⊢
  cases hs : ((r.kids p).filterMap fun (q, e) => pick q e.kind)[i]? with
  | none =>
    rw [hs] at h
    cases h
    rfl
  | some m =>
    rw [hs] at h
    simp only at h ⊢
    have hm := List.mem_of_getElem? hs
    rw [List.mem_filterMap] at hm
    obtain ⟨⟨q, e⟩, _, hq⟩ := hm
    have hrep : Repeats r (m >>= fun a => Pure.pure (some a)) :=
      Repeats.bind (hpick q _ m hq).1 (hpick q _ m hq).2 (fun x r1 _ => Repeats.pure r1 (some x))
        (fun x => RO.pure _)
    exact hrep x r1 h r2 h2

theorem Repeats.firstKid {r : Reg} {p : Ptr} {k : WKind} {sel : Kind → Bool}
    (hp : p.file < r.heap.length) : Repeats r (firstKid p k sel) := by
  unfold Protoast.firstKid
  refine Repeats.get (fun r2 h2 => by rw [h2.kids hp]) ?_ ?_
  · split
    · ro
    · ro
  · split
    · exact Repeats.bind (Repeats.wrapAs r _ _) (RO.wrapAs _ _) (fun x r1 _ => Repeats.pure _ _)
        (fun _ => RO.pure _)
    · exact Repeats.pure _ _

end Protoast
