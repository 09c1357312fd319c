import Verif.Proof.Quiet2
/-
  Registries that differ in what was asked of them: the cached type of a field.
-/
namespace Protoast.Quiet

variable {fl : Bool} {m : Match}

/-- The registry after the type of the field with address `a` was stored. -/
def typed (r : Reg) (a : Nat) (t : Option Node) : Reg := { r with ftcache := upd r.ftcache a t }

theorem typed_front (r a t) : Front r (typed r a t) := ⟨rfl, rfl, rfl, rfl⟩

theorem typed_ft {r : Reg} {a t b u} (h : (typed r a t).ftcache b = some u) :
    (b = a ∧ u = t) ∨ (b ≠ a ∧ r.ftcache b = some u) := by
  by_cases hb : b = a
  · subst hb
    simp only [typed, upd_self] at h
    exact .inl ⟨rfl, (Option.some.inj h).symm⟩
  · simp only [typed, upd_other _ _ hb] at h
    exact .inr ⟨hb, h⟩

/-- A type that may be stored. -/
structure Storable (r : Reg) (t : Option Node) : Prop where
  shape : TShape t
  top : ∀ b, top t = some b → b < r.next ∧ (∀ v k p, r.cache v ≠ some (some (.wrapped b k p))) ∧
    ∀ a' t', r.ftcache a' = some t' → Quiet.top t' ≠ some b
  inner : ∀ b k p, inner t = some (.wrapped b k p) → r.cache (.at p) = some (some (.wrapped b k p))

theorem Storable.none (r : Reg) : Storable r none :=
  ⟨.flat .none, (fun b h => by cases h), (fun b k p h => by cases h)⟩

theorem Healthy.typed {r : Reg} (h : Healthy r) {a t} (ha : a < r.next) (hs : Storable r t) : Healthy (typed r a t) := by
  refine { h with ftKey := ?_, ftShape := ?_, ftTop := ?_, ftInner := ?_ }
  · intro b u e
    rcases typed_ft e with ⟨rfl, -⟩ | ⟨-, e⟩
    · exact ha
    · exact h.ftKey b u e
  · intro b u e
    rcases typed_ft e with ⟨-, rfl⟩ | ⟨-, e⟩
    · exact hs.shape
    · exact h.ftShape b u e
  · intro b u c e ht
    rcases typed_ft e with ⟨rfl, rfl⟩ | ⟨hb, e0⟩
    · obtain ⟨h1, h2, h3⟩ := hs.top c ht
      refine ⟨h1, h2, ?_⟩
      intro a' t' e' ht'
      rcases typed_ft e' with ⟨rfl, -⟩ | ⟨-, e'⟩
      · rfl
      · exact (h3 a' t' e' ht').elim
    · obtain ⟨h1, h2, h3⟩ := h.ftTop b u c e0 ht
      refine ⟨h1, h2, ?_⟩
      intro a' t' e' ht'
      rcases typed_ft e' with ⟨rfl, rfl⟩ | ⟨-, e'⟩
      · exact ((hs.top c ht').2.2 _ _ (show r.ftcache _ = _ from e0) ht).elim
      · exact h3 a' t' e' ht'
  · intro b u c k p e hi
    rcases typed_ft e with ⟨rfl, rfl⟩ | ⟨hb, e⟩
    · exact hs.inner c k p hi
    · exact h.ftInner b u c k p e hi

theorem ftOf_typed_self {r : Reg} {a t k p} (hc : r.cache (.at p) = some (some (.wrapped a k p))) :
    ftOf (typed r a t) p = some t := by
  unfold ftOf
  show (match r.cache (.at p) with
    | some (some (.wrapped a' _ _)) => upd r.ftcache a t a'
    | _ => none) = _
  rw [hc]
  exact upd_self _ _ _

theorem ftOf_typed_other {r : Reg} (h : Healthy r) {a t k p q} (hc : r.cache (.at p) = some (some (.wrapped a k p)))
    (hq : q ≠ p) : ftOf (typed r a t) q = ftOf r q := by
  unfold ftOf
  show (match r.cache (.at q) with
    | some (some (.wrapped a' _ _)) => upd r.ftcache a t a'
    | _ => none) = _
  split
  · rename_i a' k' p' hc'
    obtain ⟨_, _, _, hv, he, -, -⟩ := h.cacheSome _ _ hc'
    have : a' ≠ a := by
      rintro rfl
      have := h.cacheInj _ _ _ _ _ _ _ hc' hc
      exact hq (Vis.at.inj this)
    rw [hc']
    exact upd_other _ _ this
  · rename_i hn
    split
    · rename_i a' k' p' hc'
      exact (hn _ _ _ hc').elim
    · rfl

/-- Both sides store a type. -/
theorem Sim.typeBoth {r1 r2} (h : Sim fl m r1 r2) {a1 a2 k1 k2 p t1 t2}
    (c1 : r1.cache (.at p) = some (some (.wrapped a1 k1 p))) (c2 : r2.cache (.at p) = some (some (.wrapped a2 k2 p)))
    (s1 : Storable r1 t1) (s2 : Storable r2 t2) (ht : ORel m t1 t2) : Sim fl m (typed r1 a1 t1) (typed r2 a2 t2) := by
  obtain ⟨_, _, _, -, e1, -, l1⟩ := h.h1.cacheSome _ _ c1
  obtain ⟨_, _, _, -, e2, -, l2⟩ := h.h2.cacheSome _ _ c2
  cases e1; cases e2
  refine ⟨h.heap, h.protos, h.names, h.scopes, h.h1.typed l1 s1, h.h2.typed l2 s2, h.bound, h.inj1, h.inj2,
    h.poison, h.both, h.left, h.right, ?_⟩
  intro q
  by_cases hq : q = p
  · subst hq
    rw [ftOf_typed_self c1, ftOf_typed_self c2]
    exact .both ht
  · rw [ftOf_typed_other h.h1 c1 hq, ftOf_typed_other h.h2 c2 hq]
    exact FtRel.mono (h.ft q) ⟨rfl, rfl, rfl, rfl⟩ (Match.le_refl _) (fun _ _ _ _ _ _ e => e) (fun _ _ _ _ _ _ e => e)

/-- More matches: the tops of two types. -/
def Match.tops (m : Match) (t1 t2 : Option Node) : Match := fun x y => m x y ∨ (top t1 = some x ∧ top t2 = some y)

/-- The right side stores a type that the left side has. -/
theorem Sim.typeRight {r1 r2} (h : Sim fl m r1 r2) {a1 a2 k1 k2 p t1 t2}
    (c1 : r1.cache (.at p) = some (some (.wrapped a1 k1 p))) (c2 : r2.cache (.at p) = some (some (.wrapped a2 k2 p)))
    (f1 : r1.ftcache a1 = some t1) (n1 : ∀ a, top t1 = some a → ∀ b, ¬ m a b) (s2 : Storable r2 t2)
    (n2 : ∀ b, top t2 = some b → ∀ a, ¬ m a b)
    (ht : ORel (m.tops t1 t2) t1 t2) : Sim fl (m.tops t1 t2) r1 (typed r2 a2 t2) := by
  obtain ⟨_, _, _, -, e2, -, l2⟩ := h.h2.cacheSome _ _ c2
  cases e2
  refine ⟨h.heap, h.protos, h.names, h.scopes, h.h1, h.h2.typed l2 s2, ?_, ?_, ?_,
    h.poison, ?_, ?_, ?_, ?_⟩
  · rintro x y (e | ⟨e, e'⟩)
    · exact h.bound x y e
    · exact ⟨(h.h1.ftTop _ _ _ f1 e).1, (s2.top _ e').1⟩
  · rintro x y y' (e | ⟨e, e'⟩) (g | ⟨g, g'⟩)
    · exact h.inj1 _ _ _ e g
    · exact (n1 _ g _ e).elim
    · exact (n1 _ e _ g).elim
    · rw [e'] at g'; exact Option.some.inj g'
  · rintro x x' y (e | ⟨e, e'⟩) (g | ⟨g, g'⟩)
    · exact h.inj2 _ _ _ e g
    · exact (n2 _ g' _ e).elim
    · exact (n2 _ e' _ g).elim
    · rw [e] at g; exact Option.some.inj g
  · intro v a k p b k' p' x1 x2; exact .inl (h.both v a k p b k' p' x1 x2)
  · rintro v a k p x1 x2 b (e | ⟨e, e'⟩)
    · exact h.left v a k p x1 x2 b e
    · exact (h.h1.ftTop _ _ _ f1 e).2.1 _ _ _ x1
  · rintro v b k p x1 x2 a (e | ⟨e, e'⟩)
    · exact h.right v b k p x1 x2 a e
    · exact (s2.top _ e').2.1 _ _ _ x1
  · intro q
    by_cases hq : q = p
    · subst hq
      have : ftOf r1 q = some t1 := by unfold ftOf; rw [c1]; exact f1
      rw [ftOf_typed_self c2, this]
      exact .both ht
    · rw [ftOf_typed_other h.h2 c2 hq]
      refine FtRel.mono (h.ft q) ⟨rfl, rfl, rfl, rfl⟩ (fun _ _ e => .inl e) ?_ ?_
      · rintro t hx - a ha b (e | ⟨e, e'⟩)
        · exact e
        · obtain ⟨a', k', hc', hf'⟩ := ftOf_some h.h1 hx
          have := (h.h1.ftTop _ _ _ f1 e).2.2 _ _ hf' ha
          subst this
          have := h.h1.cacheInj _ _ _ _ _ _ _ hc' c1
          exact (hq (Vis.at.inj this)).elim
      · rintro t hx - b hb a (e | ⟨e, e'⟩)
        · exact e
        · obtain ⟨a', k', hc', hf'⟩ := ftOf_some h.h2 hx
          exact ((s2.top _ e').2.2 _ _ hf' hb).elim

/-- The right side alone hands out an address. -/
theorem Sim.allocRight {r1 r2} (h : Sim fl m r1 r2) : Sim fl m r1 { r2 with next := r2.next + 1 } := by
  refine { h with h2 := h.h2.alloc, bound := ?_, ft := h.ft }
  intro a b e
  exact ⟨(h.bound a b e).1, Nat.lt_succ_of_lt (h.bound a b e).2⟩

/-! ### Looking up a type -/

/-- Successful lookups. -/
structure Found (r : Reg) (p : Ptr) (typ : Str) (t : Option Node) (r' : Reg) : Prop where
  base : BaseOf r p typ t
  flat : Flat t
  grow : Grow r r'
  ft : r'.ftcache = r.ftcache
  cached : ∀ a k q, t = some (.wrapped a k q) → r'.cache (.at q) = some (some (.wrapped a k q))
  healthy : Healthy r'

theorem wrap_reg {r : Reg} (h : Healthy r) {name q} (hr : r.registry name = some q) : ∃ a k r',
    wrap (.at q) r = (.ok (some (.wrapped a k q)), r') ∧ r.wrapTarget (.at q) = some (k, q) ∧ Grow r r' ∧
      r'.ftcache = r.ftcache ∧ r'.cache (.at q) = some (some (.wrapped a k q)) ∧ Healthy r' := by
  obtain ⟨k, hk⟩ := h.reg name q hr
  rw [wrap_apply]
  cases hc : r.cache (.at q) with
  | some x =>
    cases x with
    | none => rw [h.cacheNone _ hc] at hk; cases hk
    | some n =>
      obtain ⟨a, k', p', hv, rfl, ht, -⟩ := h.cacheSome _ _ hc
      cases hv
      rw [hk] at ht
      cases ht
      exact ⟨a, k, r, rfl, hk, Grow.refl r, rfl, hc, h⟩
  | none =>
    simp only [hk]
    exact ⟨r.next, k, _, rfl, rfl, wrapped_grow _ _ _ hc, rfl, upd_self _ _ _, h.wrapped hc hk⟩

theorem lookupType_found {r : Reg} (h : Healthy r) {p typ t r'} (he : lookupType p typ r = (.ok t, r')) :
    Found r p typ t r' := by
  unfold lookupType at he
  cases hb : builtinType typ with
  | some b =>
    rw [hb] at he
    cases he
    refine ⟨?_, .builtin, Grow.refl r, rfl, (fun a k q e => by cases e), h⟩
    unfold BaseOf; rw [hb]
  | none =>
    rw [hb] at he
    simp only [M.bind_apply, M.get_apply] at he
    have hbase : ∀ t, BaseOf r p typ t ↔ (match resolveNameRaw r.defined (r.scope (.at p)) typ with
      | (_, false) => t = none
      | (n, true) => match r.registry n with
        | none => t = none
        | some obj => ∃ a k, t = some (.wrapped a k obj) ∧ r.wrapTarget (.at obj) = some (k, obj) ∧
          (Node.wrapped a k obj).isType = true) := by
      intro t; unfold BaseOf; rw [hb]; exact Iff.rfl
    rcases hn : resolveNameRaw r.defined (r.scope (.at p)) typ with ⟨n, ok⟩
    rw [hn] at he
    cases ok with
    | false =>
      cases he
      refine ⟨(hbase _).mpr (by rw [hn]), .none, Grow.refl r, rfl, (fun a k q e => by cases e), h⟩
    | true =>
      simp only at he
      cases hr : r.registry n with
      | none =>
        rw [hr] at he
        cases he
        exact ⟨(hbase _).mpr (by rw [hn]; simp only [hr]), .none, Grow.refl r, rfl, (fun a k q e => by cases e), h⟩
      | some obj =>
        rw [hr] at he
        obtain ⟨a, k, r'', hw, hk, hg, hft, hc, hh⟩ := wrap_reg h hr
        simp only [M.bind_apply, hw] at he
        split at he
        · rename_i hty
          cases he
          refine ⟨(hbase _).mpr (by rw [hn]; simp only [hr]; exact ⟨a, k, rfl, hk, hty⟩), .wrapped, hg, hft, ?_, hh⟩
          intro a' k' q' e
          cases e
          exact hc
        · cases he

/-- A lookup that is known to succeed and whose result was handed out before does nothing. -/
theorem lookupType_known {r : Reg} {p typ t} (hb : BaseOf r p typ t)
    (hc : ∀ a k q, t = some (.wrapped a k q) → r.cache (.at q) = some (some (.wrapped a k q))) :
    lookupType p typ r = (.ok t, r) := by
  unfold BaseOf at hb
  unfold lookupType
  cases hbt : builtinType typ with
  | some b =>
    rw [hbt] at hb
    subst hb
    rfl
  | none =>
    rw [hbt] at hb
    simp only [M.bind_apply, M.get_apply]
    rcases hn : resolveNameRaw r.defined (r.scope (.at p)) typ with ⟨n, ok⟩
    rw [hn] at hb
    cases ok with
    | false => simp only at hb; subst hb; rfl
    | true =>
      simp only at hb ⊢
      cases hr : r.registry n with
      | none => rw [hr] at hb; simp only at hb; subst hb; rfl
      | some obj =>
        rw [hr] at hb
        obtain ⟨a, k, rfl, hk, hty⟩ := hb
        have := hc a k obj rfl
        simp only [M.bind_apply, wrap_apply, this, hty, if_true]
        rfl

/-- What making the type of a field leaves behind. -/
structure Made (r : Reg) (p : Ptr) (t : Option Node) (r' : Reg) : Prop where
  computes : Computes r p t
  fresh : ∀ b, top t = some b → r.next ≤ b
  grow : Grow r r'
  ft : r'.ftcache = r.ftcache
  storable : Storable r' t
  healthy : Healthy r'

theorem flat_top {t} (h : Flat t) : top t = none := by cases h <;> rfl

theorem flat_inner {t b k p} (h : Flat t) (hi : inner t = some (.wrapped b k p)) : t = some (.wrapped b k p) := by
  cases h with
  | none => cases hi
  | builtin => cases hi
  | wrapped => exact hi

theorem flat_innerRep {a t b k p} (h : Flat t) (hi : inner (some (.repeated a t)) = some (.wrapped b k p)) :
    t = some (.wrapped b k p) := by
  cases h with
  | none => cases hi
  | builtin => cases hi
  | wrapped => exact hi

theorem not_cached_next {r : Reg} (h : Healthy r) : ∀ v k p, r.cache v ≠ some (some (.wrapped r.next k p)) := by
  intro v k p e
  obtain ⟨_, _, _, -, he, -, hn⟩ := h.cacheSome _ _ e
  cases he
  omega

theorem not_top_next {r : Reg} (h : Healthy r) : ∀ a t, r.ftcache a = some t → top t ≠ some r.next := by
  intro a t e ht
  have := (h.ftTop a t _ e ht).1
  omega

theorem fieldTypeBody_made {r : Reg} (h : Healthy r) {p t r'} (he : fieldTypeBody p r = (.ok t, r')) : Made r p t r' := by
  have hal : ∀ t, top t = some r.next → TShape t → (∀ b k p, inner t ≠ some (.wrapped b k p)) →
      Storable { r with next := r.next + 1 } t := by
    intro t ht hs hi
    refine ⟨hs, ?_, fun b k p e => (hi b k p e).elim⟩
    intro b hb
    rw [ht] at hb
    cases hb
    exact ⟨Nat.lt_succ_self _, not_cached_next h, not_top_next h⟩
  unfold fieldTypeBody at he
  simp only [M.bind_apply, M.get_apply] at he
  rcases hk : r.kind p with _ | kd
  · rw [hk] at he; cases he
  rw [hk] at he
  cases kd <;> try (cases he; done)
  case normalField nm typ sq rep op =>
    unfold getTypeByName at he
    simp only [M.bind_apply, M.get_apply] at he
    rcases hl : lookupType p typ r with ⟨res, r1⟩
    rw [hl] at he
    cases res with
    | ok b =>
      have hf := lookupType_found h hl
      simp only at he
      rw [hf.grow.front.isRepeatedField] at he
      have hrep : r.isRepeatedField p = rep := by simp only [Reg.isRepeatedField, hk]
      rw [hrep] at he
      cases rep with
      | true =>
        simp only [if_true] at he
        cases he
        refine ⟨?_, ?_, hf.grow.trans (alloc_grow _), hf.ft, ?_, hf.healthy.alloc⟩
        · unfold Computes; rw [hk]; exact ⟨r1.next, b, rfl, hf.base⟩
        · intro x hx; cases hx; exact hf.grow.next
        · refine ⟨.repeated hf.flat, ?_, ?_⟩
          · intro x hx
            cases hx
            exact ⟨Nat.lt_succ_self _, not_cached_next hf.healthy, not_top_next hf.healthy⟩
          · intro x k q hi
            exact hf.cached x k q (flat_innerRep hf.flat hi)
      | false =>
        simp only [Bool.false_eq_true, if_false] at he
        cases he
        refine ⟨?_, ?_, hf.grow, hf.ft, ?_, hf.healthy⟩
        · unfold Computes; rw [hk]; exact hf.base
        · intro x hx; rw [flat_top hf.flat] at hx; cases hx
        · refine ⟨.flat hf.flat, ?_, ?_⟩
          · intro x hx; rw [flat_top hf.flat] at hx; cases hx
          · intro x k q hi
            exact hf.cached x k q (flat_inner hf.flat hi)
    | panic e => cases he
    | timeout => cases he
  case oneof =>
    cases he
    refine ⟨?_, ?_, alloc_grow r, rfl, hal _ rfl .oneof (fun b k p e => by cases e), h.alloc⟩
    · unfold Computes; rw [hk]; exact ⟨r.next, rfl⟩
    · intro x hx; cases hx; exact Nat.le_refl _
  case mapField =>
    cases he
    refine ⟨?_, ?_, alloc_grow r, rfl, hal _ rfl .map (fun b k p e => by cases e), h.alloc⟩
    · unfold Computes; rw [hk]; exact ⟨r.next, rfl⟩
    · intro x hx; cases hx; exact Nat.le_refl _

/-- Whatever comes out of it, looking up a type does not touch what was cached before. -/
theorem wrap_keeps (v : Vis) (r : Reg) : (wrap v r).2.ftcache = r.ftcache ∧
    ∀ w x, r.cache w = some x → (wrap v r).2.cache w = some x := by
  rw [wrap_apply]
  cases hc : r.cache v with
  | some x => exact ⟨rfl, fun _ _ h => h⟩
  | none =>
    simp only
    cases r.wrapTarget v with
    | none =>
      refine ⟨rfl, fun w x h => ?_⟩
      have : w ≠ v := by rintro rfl; rw [hc] at h; cases h
      simp only [poisoned, upd_other _ _ this]; exact h
    | some kp =>
      refine ⟨rfl, fun w x h => ?_⟩
      have : w ≠ v := by rintro rfl; rw [hc] at h; cases h
      simp only [wrapped, upd_other _ _ this]; exact h

/-- Computations that keep what was cached before. -/
def Keeps {α : Type} (m : M α) : Prop :=
  ∀ r, (m r).2.ftcache = r.ftcache ∧ ∀ w x, r.cache w = some x → (m r).2.cache w = some x

theorem Keeps.pure {α : Type} (a : α) : Keeps (Pure.pure a : M α) := fun _ => ⟨rfl, fun _ _ h => h⟩
theorem Keeps.panic {α : Type} (e) : Keeps (M.panic e : M α) := fun _ => ⟨rfl, fun _ _ h => h⟩
theorem Keeps.alloc : Keeps M.alloc := fun _ => ⟨rfl, fun _ _ h => h⟩
theorem Keeps.get : Keeps M.get := fun _ => ⟨rfl, fun _ _ h => h⟩
theorem Keeps.bind {α β : Type} {m : M α} {f : α → M β} (h : Keeps m) (g : ∀ a, Keeps (f a)) : Keeps (m >>= f) := by
  intro r
  have h1 := h r
  simp only [M.bind_apply]
  rcases e : m r with ⟨res, r'⟩
  rw [e] at h1
  cases res with
  | ok a => exact ⟨(g a r').1.trans h1.1, fun w x e => (g a r').2 w x (h1.2 w x e)⟩
  | panic e => exact h1
  | timeout => exact h1

theorem lookupType_keeps (p : Ptr) (typ : Str) : Keeps (lookupType p typ) := by
  unfold lookupType
  split
  · exact Keeps.pure _
  · refine Keeps.bind Keeps.get fun r => ?_
    split
    · exact Keeps.pure _
    · split
      · exact Keeps.pure _
      · refine Keeps.bind (wrap_keeps _) fun o => ?_
        split
        · split
          · exact Keeps.pure _
          · exact Keeps.panic _
        · exact Keeps.panic _

theorem fieldTypeBody_keeps (p : Ptr) : Keeps (fieldTypeBody p) := by
  refine Keeps.bind Keeps.get fun r => ?_
  split
  · refine Keeps.bind (lookupType_keeps p _) fun o => Keeps.bind Keeps.get fun r => ?_
    split
    · exact Keeps.bind Keeps.alloc fun a => Keeps.pure _
    · exact Keeps.pure _
  · exact Keeps.bind Keeps.alloc fun a => Keeps.pure _
  · exact Keeps.bind Keeps.alloc fun a => Keeps.pure _
  · exact Keeps.panic _

theorem Made.grow_typed {r r' : Reg} {p t a} (h : Made r p t r') (hn : r.ftcache a = none)
    (hc : r.cache (.at p) = some (some (.wrapped a .messageField p))) : Grow r (typed r' a t) := by
  have g := h.grow
  refine ⟨g.heap, g.protos, g.names, g.scopes, g.next, g.cache, g.new, ?_, ?_⟩
  · intro b u e
    have hb : b ≠ a := by rintro rfl; rw [hn] at e; cases e
    simp only [typed, upd_other _ _ hb]
    exact g.ftcache b u e
  · intro b u e e'
    rcases typed_ft e' with ⟨rfl, rfl⟩ | ⟨hb, e'⟩
    · exact ⟨p, g.cache _ _ hc, h.computes, h.fresh⟩
    · rw [h.ft, e] at e'; cases e'

/-- The right side makes the type that the left side has. -/
theorem fieldTypeBody_right {r1 r2} (h : Sim fl m r1 r2) {a1 a2 k1 k2 p t1}
    (c1 : r1.cache (.at p) = some (some (.wrapped a1 k1 p))) (c2 : r2.cache (.at p) = some (some (.wrapped a2 k2 p)))
    (f1 : r1.ftcache a1 = some t1) (f2 : r2.ftcache a2 = none) (hcm : Computes r1 p t1)
    (n1 : ∀ a, top t1 = some a → ∀ b, ¬ m a b) :
    ∃ t2 r2' m', fieldTypeBody p r2 = (.ok t2, r2') ∧ m.le m' ∧ ORel m' t1 t2 ∧ Sim fl m' r1 (typed r2' a2 t2) := by
  have hfr := h.front
  have hbase : ∀ typ b, BaseOf r1 p typ b → (∀ a k q, b = some (.wrapped a k q) →
      r1.cache (.at q) = some (some (.wrapped a k q))) → ∃ b2 r2' m', lookupType p typ r2 = (.ok b2, r2') ∧ m.le m' ∧
      ORel m' b b2 ∧ Sim fl m' r1 r2' ∧ Found r2 p typ b2 r2' ∧ (∀ a, top t1 = some a → ∀ b, ¬ m' a b) := by
    intro typ b hb hc
    obtain ⟨m', hle, h1, h2, -⟩ := lookupType_eqv (fl := fl) (m := m) p typ m (Match.le_refl _) r1 r2 h
    rw [lookupType_known hb hc] at h1 h2
    rcases hl : lookupType p typ r2 with ⟨res, r2'⟩
    rw [hl] at h1 h2
    cases res with
    | ok b2 =>
      have hfd := lookupType_found h.h2 hl
      refine ⟨b2, r2', m', rfl, hle, h1, h2, hfd, ?_⟩
      have hf := h2.ft p
      have e1 : ftOf r1 p = some t1 := by unfold ftOf; rw [c1]; exact f1
      have e2 : ftOf r2' p = none := by unfold ftOf; rw [hfd.grow.cache _ _ c2, hfd.ft]; exact f2
      rw [e1, e2] at hf
      cases hf with
      | left _ _ h3 => exact h3
    | panic e => exact h1.elim
    | timeout => exact h1.elim
  have hbody : fieldTypeBody p r2 = (match r1.kind p with
      | some (.normalField _ typ _ _ _) => getTypeByName p typ
      | some (.oneof _) => do let a ← M.alloc; pure (some (.oneof a p))
      | some (.mapField _ _ _ _) => do let a ← M.alloc; pure (some (.map a p))
      | _ => M.panic .illTyped) r2 := by
    unfold fieldTypeBody
    simp only [M.bind_apply, M.get_apply, hfr.kind]
    rfl
  have hsingle : ∀ t2, top t2 = some r2.next → TShape t2 → (∀ b k p, inner t2 ≠ some (.wrapped b k p)) →
      ORel (m.tops t1 t2) t1 t2 → ∃ m', m.le m' ∧ ORel m' t1 t2 ∧
        Sim fl m' r1 (typed { r2 with next := r2.next + 1 } a2 t2) := by
    intro t2 ht hs hi hr
    refine ⟨m.tops t1 t2, fun _ _ e => .inl e, hr, h.allocRight.typeRight c1 c2 f1 n1 ⟨hs, ?_, ?_⟩ ?_ hr⟩
    · intro b hb
      rw [ht] at hb
      cases hb
      exact ⟨Nat.lt_succ_self _, not_cached_next h.h2, not_top_next h.h2⟩
    · intro b k p e; exact (hi b k p e).elim
    · intro b hb a e
      rw [ht] at hb
      cases hb
      have := (h.bound _ _ e).2
      omega
  unfold Computes at hcm
  split at hcm
  · rename_i typ _ rep _ hk
    rw [hk] at hbody
    simp only [getTypeByName, M.bind_apply, M.get_apply] at hbody
    have hrep : r1.isRepeatedField p = rep := by simp only [Reg.isRepeatedField, hk]
    cases rep with
    | true =>
      simp only [if_true] at hcm
      obtain ⟨x, b, rfl, hb⟩ := hcm
      have hin : ∀ a k q, b = some (.wrapped a k q) → r1.cache (.at q) = some (some (.wrapped a k q)) := by
        rintro a k q rfl
        exact h.h1.ftInner _ _ _ _ _ f1 rfl
      obtain ⟨b2, r2', m', hl, hle, hr, hs, hfd, hn1⟩ := hbase typ b hb hin
      rw [hl] at hbody
      simp only [hs.front.isRepeatedField, hrep, if_true] at hbody
      refine ⟨some (.repeated r2'.next b2), _, _, hbody, ?_, ?_, hs.allocRight.typeRight (t2 := some (.repeated r2'.next b2))
        c1 (hfd.grow.cache _ _ c2) f1 hn1 ⟨.repeated hfd.flat, ?_, ?_⟩ ?_ ?_⟩
      · exact fun _ _ e => .inl (hle _ _ e)
      · cases hr with
        | none => exact .some (.repeatedNil (.inr ⟨rfl, rfl⟩))
        | some hr => exact .some (.repeated (.inr ⟨rfl, rfl⟩) (hr.mono fun _ _ e => .inl e))
      · intro y hy
        cases hy
        exact ⟨Nat.lt_succ_self _, not_cached_next hfd.healthy, not_top_next hfd.healthy⟩
      · intro y k q hi
        exact hfd.cached y k q (flat_innerRep hfd.flat hi)
      · intro y hy a e
        cases hy
        have := (hs.bound _ _ e).2
        omega
      · cases hr with
        | none => exact .some (.repeatedNil (.inr ⟨rfl, rfl⟩))
        | some hr => exact .some (.repeated (.inr ⟨rfl, rfl⟩) (hr.mono fun _ _ e => .inl e))
    | false =>
      simp only [Bool.false_eq_true, if_false] at hcm
      have hin : ∀ a k q, t1 = some (.wrapped a k q) → r1.cache (.at q) = some (some (.wrapped a k q)) := by
        rintro a k q rfl
        exact h.h1.ftInner _ _ _ _ _ f1 rfl
      obtain ⟨b2, r2', m', hl, hle, hr, hs, hfd, hn1⟩ := hbase typ t1 hcm hin
      rw [hl] at hbody
      simp only [hs.front.isRepeatedField, hrep, Bool.false_eq_true, if_false] at hbody
      refine ⟨b2, r2', _, hbody, ?_, ?_, hs.typeRight (t2 := b2)
        c1 (hfd.grow.cache _ _ c2) f1 hn1 ⟨.flat hfd.flat, ?_, ?_⟩ ?_ ?_⟩
      · exact fun _ _ e => .inl (hle _ _ e)
      · exact hr.mono fun _ _ e => .inl e
      · intro y hy; rw [flat_top hfd.flat] at hy; cases hy
      · intro y k q hi
        exact hfd.cached y k q (flat_inner hfd.flat hi)
      · intro y hy; rw [flat_top hfd.flat] at hy; cases hy
      · exact hr.mono fun _ _ e => .inl e
  · rename_i hk
    rw [hk] at hbody
    obtain ⟨x, rfl⟩ := hcm
    obtain ⟨m', hle, hr, hs⟩ := hsingle (some (.oneof r2.next p)) rfl .oneof (fun b k p e => by cases e)
      (.some (.oneof (.inr ⟨rfl, rfl⟩)))
    exact ⟨_, _, m', hbody, hle, hr, hs⟩
  · rename_i hk
    rw [hk] at hbody
    obtain ⟨x, rfl⟩ := hcm
    obtain ⟨m', hle, hr, hs⟩ := hsingle (some (.map r2.next p)) rfl .map (fun b k p e => by cases e)
      (.some (.map (.inr ⟨rfl, rfl⟩)))
    exact ⟨_, _, m', hbody, hle, hr, hs⟩
  · exact hcm.elim

/-- The same in given states. -/
def At {α β : Type} (fl : Bool) (m : Match) (R : Match → α → β → Prop) (m1 : M α) (m2 : M β) (r1 r2 : Reg) : Prop :=
  ∃ m', m.le m' ∧ ResRel (R m') (m1 r1).1 (m2 r2).1 ∧ Sim fl m' (m1 r1).2 (m2 r2).2 ∧
    (Tidy (m1 r1).1 → Grow r1 (m1 r1).2)

theorem lookupType_untidy {p : Ptr} {name : Str} {r r' : Reg} {e : Panic}
    (h : lookupType p name r = (.panic e, r')) : e = .unsupportedType ∨ e = .notAType := by
  unfold lookupType at h
  cases hb : builtinType name with
  | some b => rw [hb] at h; cases h
  | none =>
    rw [hb] at h
    simp only [M.bind_apply, M.get_apply] at h
    rcases hn : resolveNameRaw r.defined (r.scope (.at p)) name with ⟨s, ok⟩
    rw [hn] at h
    cases ok with
    | false => cases h
    | true =>
      simp only at h
      cases hr : r.registry s with
      | none => rw [hr] at h; cases h
      | some obj =>
        rw [hr] at h
        simp only [M.bind_apply, wrap_apply] at h
        cases hc : r.cache (.at obj) with
        | some n =>
          rw [hc] at h
          cases n with
          | none => cases h; exact .inr rfl
          | some n =>
            simp only at h
            by_cases ht : n.isType = true
            · rw [if_pos ht] at h; cases h
            · rw [if_neg ht] at h; cases h; exact .inr rfl
        | none =>
          rw [hc] at h
          simp only at h
          cases ht : r.wrapTarget (.at obj) with
          | none => rw [ht] at h; cases h; exact .inl rfl
          | some kp =>
            rw [ht] at h
            simp only at h
            by_cases ht : (Node.wrapped r.next kp.1 kp.2).isType = true
            · rw [if_pos ht] at h; cases h
            · rw [if_neg ht] at h; cases h; exact .inr rfl

theorem fieldTypeBody_untidy {p : Ptr} {r r' : Reg} {e : Panic} (hw : r.wrapTarget (.at p) = some (.messageField, p))
    (h : fieldTypeBody p r = (.panic e, r')) (ht : Tidy (.panic e : Res (Option Node))) : False := by
  suffices hs : e = .unsupportedType ∨ e = .notAType by
    rcases hs with rfl | rfl
    · exact ht.1 rfl
    · exact ht.2 rfl
  unfold fieldTypeBody at h
  simp only [M.bind_apply, M.get_apply] at h
  rcases fieldKind_cases hw with ⟨n, t, s, rep, op, hk⟩ | ⟨n, hk⟩ | ⟨n, kt, t, s, hk⟩
  · rw [hk] at h
    simp only [getTypeByName, M.bind_apply] at h
    rcases hl : lookupType p t r with ⟨res, r1⟩
    rw [hl] at h
    cases res with
    | ok t =>
      simp only [M.get_apply] at h
      split at h <;> cases h
    | panic e' => cases h; exact lookupType_untidy hl
    | timeout => cases h
  · rw [hk] at h; cases h
  · rw [hk] at h; cases h

theorem field_target {r : Reg} (h : Healthy r) {a p} (hc : r.cache (.at p) = some (some (.wrapped a .messageField p))) :
    r.wrapTarget (.at p) = some (.messageField, p) := by
  obtain ⟨_, _, _, -, h2, h3, -⟩ := h.cacheSome _ _ hc
  cases h2
  exact h3

theorem fieldType_at {r1 r2} (h : Sim fl m r1 r2) {a1 a2 p}
    (c1 : r1.cache (.at p) = some (some (.wrapped a1 .messageField p)))
    (c2 : r2.cache (.at p) = some (some (.wrapped a2 .messageField p))) :
    At fl m ORel (MessageField.type a1 p) (MessageField.type a2 p) r1 r2 := by
  have hf := h.ft p
  have e1 : ftOf r1 p = r1.ftcache a1 := by unfold ftOf; rw [c1]
  have e2 : ftOf r2 p = r2.ftcache a2 := by unfold ftOf; rw [c2]
  rw [e1, e2] at hf
  unfold At MessageField.type
  generalize hx : r1.ftcache a1 = x at hf
  generalize hy : r2.ftcache a2 = y at hf
  cases hf with
  | both hr => exact ⟨m, Match.le_refl _, hr, h, fun _ => Grow.refl _⟩
  | none =>
    obtain ⟨m', hle, h1, h2, h3⟩ := fieldTypeBody_eqv (fl := fl) (m := m) p m (Match.le_refl _) r1 r2 h
    have k1 := fieldTypeBody_keeps p r1
    have k2 := fieldTypeBody_keeps p r2
    rcases hb1 : fieldTypeBody p r1 with ⟨res1, r1'⟩
    rcases hb2 : fieldTypeBody p r2 with ⟨res2, r2'⟩
    rw [hb1, hb2] at h1 h2
    rw [hb1] at k1 h3
    rw [hb2] at k2
    cases res1 <;> cases res2 <;> simp only [ResRel] at h1 <;> try exact h1.elim
    · rename_i t1 t2
      have md1 := fieldTypeBody_made h.h1 hb1
      have md2 := fieldTypeBody_made h.h2 hb2
      exact ⟨m', hle, h1, h2.typeBoth (k1.2 _ _ c1) (k2.2 _ _ c2) md1.storable md2.storable h1,
        fun _ => md1.grow_typed hx c1⟩
    · exact ⟨m', hle, h1, h2.typeBoth (k1.2 _ _ c1) (k2.2 _ _ c2) (Storable.none _) (Storable.none _) .none,
        fun ht => (fieldTypeBody_untidy (field_target h.h1 c1) hb1 ht).elim⟩
    · exact ⟨m', hle, trivial, h2, fun e => e.elim⟩
  | left hfl hcm hn =>
    obtain ⟨t2, r2', m', hb, hle, hr, hs⟩ := fieldTypeBody_right h c1 c2 hx hy hcm hn
    rw [hb]
    exact ⟨m', hle, hr, hs, fun _ => Grow.refl _⟩
  | right hfl hcm hn =>
    obtain ⟨t1, r1', m', hb, hle, hr, hs⟩ := fieldTypeBody_right h.flip c2 c1 hy hx (h.front.computes hcm) hn
    rw [hb]
    have md := fieldTypeBody_made h.h1 hb
    exact ⟨m'.flip, fun _ _ e => hle _ _ e, hr.flip, hs.flip, fun _ => md.grow_typed hx c1⟩

end Protoast.Quiet
