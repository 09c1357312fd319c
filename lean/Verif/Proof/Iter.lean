import Verif.Proof.Stable
import Verif.Proof.Types
import Verif.Spec.Iter
/-
  Iterators and lookups.
-/
namespace Protoast

theorem kidsFrom_zipIdx (p : Ptr) : ∀ (es : List Elem) (n : Nat),
    kidsFrom p n es = (es.zipIdx n).map fun x => (p.child x.2, x.1) := by
  intro es
  induction es with
  | nil => intro n; rfl
  | cons e es ih => intro n; simp [kidsFrom, ih, List.zipIdx_cons]

theorem kids_zipIdx (r : Reg) (p : Ptr) :
    r.kids p = (((r.children p).getD []).zipIdx).map fun x => (p.child x.2, x.1) := kidsFrom_zipIdx p _ 0

theorem membersOf_kids (r : Reg) (p : Ptr) (sel : Kind → Option WKind) :
    membersOf r p sel = (r.kids p).filterMap fun x => (sel x.2.kind).map fun k => (k, x.1) := by
  rw [kids_zipIdx, List.filterMap_map]
  rfl

/-- Pairwise different pointers. -/
theorem kidsFrom_lt (p : Ptr) : ∀ (es : List Elem) (n : Nat) (q : Ptr) (e : Elem),
    (q, e) ∈ kidsFrom p n es → ∃ i, n ≤ i ∧ q = p.child i := by
  intro es n q e h
  obtain ⟨i, h1, _⟩ := kidsFrom_mem es n h
  exact ⟨n + i, by omega, h1⟩

theorem kidsFrom_nodup (p : Ptr) : ∀ (es : List Elem) (n : Nat),
    ((kidsFrom p n es).map Prod.fst).Nodup := by
  intro es
  induction es with
  | nil => intro n; simp [kidsFrom]
  | cons e es ih =>
    intro n
    simp only [kidsFrom, List.map_cons, List.nodup_cons, List.mem_map, not_exists, not_and]
    refine ⟨?_, ih _⟩
    rintro ⟨q, e'⟩ hm heq
    obtain ⟨i, h1, h2⟩ := kidsFrom_lt p _ _ _ _ hm
    simp only at heq
    rw [h2] at heq
    simp only [Ptr.child, Ptr.mk.injEq, List.cons.injEq] at heq
    omega

theorem membersOf_nodup (r : Reg) (p : Ptr) (sel : Kind → Option WKind) : (membersOf r p sel).Nodup := by
  have h := kidsFrom_nodup p ((r.children p).getD []) 0
  rw [membersOf_kids]
  have key : ∀ l : List (Ptr × Elem), (l.map Prod.fst).Nodup →
      (l.filterMap fun x => (sel x.2.kind).map fun k => (k, x.1)).Nodup := by
    intro l
    induction l with
    | nil => intro _; simp
    | cons x l ih =>
      intro hn
      simp only [List.map_cons, List.nodup_cons, List.mem_map, not_exists, not_and] at hn
      rw [List.filterMap_cons]
      cases hs : sel x.2.kind with
      | none => simpa using ih hn.2
      | some k =>
        simp only [Option.map_some, List.nodup_cons, List.mem_filterMap, Option.map_eq_some_iff, not_exists,
          not_and]
        refine ⟨?_, ih hn.2⟩
        rintro y hy k' _ heq
        simp only [Prod.mk.injEq] at heq
        exact hn.1 y hy heq.2
  exact key _ h

/-- A selection that agrees with the type switch of `wrap`. -/
def SelOK (sel : Kind → Option WKind) : Prop := ∀ kd k, sel kd = some k → wrapKind kd = some k

theorem wrapKind_ne_file {kd : Kind} {k : WKind} (h : wrapKind kd = some k) : k ≠ .file := by
  cases kd <;> simp [wrapKind] at h <;> subst h <;> simp

/-- A step that wraps the element at `q`. -/
def StepOK (k : WKind) (q : Ptr) (m : M Node) : Prop :=
  ∀ o r, Inv o r → r.wrapTarget (.at q) = some (k, q) → Under r q → ∃ a o' r', m r = (.ok (.wrapped a k q), r') ∧
    Ext o r o' r' ∧ Inv o' r' ∧ GoodW o' r' a k q

theorem wrap_full {o r} (hi : Inv o r) {k : WKind} {p : Ptr} (ht : r.wrapTarget (.at p) = some (k, p))
    (hu : Under r p) : ∃ a o' r', wrap (.at p) r = (.ok (some (.wrapped a k p)), r') ∧ Ext o r o' r' ∧ Inv o' r' ∧
      GoodW o' r' a k p := by
  obtain ⟨a, r', hw, hc⟩ := wrap_ok hi ht
  obtain ⟨o', hx, hi', hq⟩ := wrap_tri hi (v := .at p) (by intro q hq; cases hq; exact hu)
  rw [hw] at hx hi' hq
  refine ⟨a, o', r', hw, hx, hi', ?_⟩
  obtain ⟨a', k', p', h1, h2, h3, h4⟩ := hq _ rfl _ rfl
  cases h2
  exact h4

theorem stepOK_wrapAs (k : WKind) (q : Ptr) : StepOK k q (wrapAs k q) := by
  intro o r hi ht hu
  obtain ⟨a, o', r', hw, hx, hi', hg⟩ := wrap_full hi ht hu
  refine ⟨a, o', r', ?_, hx, hi', hg⟩
  unfold wrapAs
  simp only [M.bind_apply, hw, assertKind, if_true, M.pure_apply]

theorem stepOK_wrapNamed {k : WKind} (hk : k = .message ∨ k = .enum) (q : Ptr) :
    StepOK k q (wrapNamed q) := by
  intro o r hi ht hu
  obtain ⟨a, o', r', hw, hx, hi', hg⟩ := wrap_full hi ht hu
  refine ⟨a, o', r', ?_, hx, hi', hg⟩
  unfold wrapNamed
  rcases hk with rfl | rfl <;> simp only [M.bind_apply, hw, M.pure_apply]

/-- The shape shared by the iterators over declarations. -/
def Wraps (pick : Ptr → Kind → Option (M Node)) (sel : Kind → Option WKind) : Prop :=
  SelOK sel ∧ ∀ q kd, match sel kd with
    | none => pick q kd = none
    | some k => ∃ m, pick q kd = some m ∧ StepOK k q m

/-- Two live nodes for the same element are the same node. -/
theorem goodW_unique {o r a b k p} (h : GoodW o r a k p) (g : GoodW o r b k p) (hk : k ≠ .file) : a = b := by
  have h1 := h.cached hk
  rw [g.cached hk] at h1
  simpa using h1.symm

/-- The steps remaining in a loop over the children in `l`. -/
def stepsOf (pick : Ptr → Kind → Option (M Node)) (l : List (Ptr × Elem)) : List (M Node) :=
  l.filterMap fun x => pick x.1 x.2.kind

theorem stepsOf_none {pick : Ptr → Kind → Option (M Node)} {x : Ptr × Elem} {l : List (Ptr × Elem)}
    (h : pick x.1 x.2.kind = none) : stepsOf pick (x :: l) = stepsOf pick l := by
  simp [stepsOf, h]

theorem stepsOf_some {pick : Ptr → Kind → Option (M Node)} {x : Ptr × Elem} {l : List (Ptr × Elem)} {m : M Node}
    (h : pick x.1 x.2.kind = some m) : stepsOf pick (x :: l) = m :: stepsOf pick l := by
  simp [stepsOf, h]

/-- The elements of a list of children are there. -/
def Present (r : Reg) (l : List (Ptr × Elem)) : Prop := ∀ x ∈ l, r.elem x.1 = some x.2 ∧ Under r x.1

theorem present_ext {o r o' r'} (h : Ext o r o' r') {l} (g : Present r l) : Present r' l :=
  fun x hx => ⟨h.elem (g x hx).1, h.under (g x hx).2⟩

theorem collect_steps {pick : Ptr → Kind → Option (M Node)} {sel : Kind → Option WKind} (hw : Wraps pick sel) :
    ∀ (l : List (Ptr × Elem)) {o r}, Inv o r → Present r l →
    ∃ ns o' r', collectSteps (stepsOf pick l) r = (.ok ns, r') ∧ Ext o r o' r' ∧ Inv o' r' ∧
      (∀ n ∈ ns, Good o' r' n) ∧
      ns.map Node.handle = (l.filterMap fun x => (sel x.2.kind).map fun k => (k, x.1)).map some := by
  intro l
  induction l with
  | nil => intro o r hi _; exact ⟨[], o, r, rfl, Ext.refl _ _, hi, by simp, rfl⟩
  | cons x l ih =>
    intro o r hi hp
    have hs := hw.2 x.1 x.2.kind
    rw [List.filterMap_cons]
    cases hk : sel x.2.kind with
    | none =>
      rw [hk] at hs
      rw [stepsOf_none hs]
      simpa using ih hi (fun y hy => hp y (by simp [hy]))
    | some k =>
      rw [hk] at hs
      obtain ⟨m, hm, hok⟩ := hs
      rw [stepsOf_some hm]
      have hel := hp x (by simp)
      obtain ⟨a, o1, r1, e1, x1, i1, g1⟩ := hok o r hi (target_of_elem hel.1 (hw.1 _ _ hk)) hel.2
      obtain ⟨ns, o2, r2, e2, x2, i2, g2, hh⟩ := ih i1 (present_ext x1 fun y hy => hp y (by simp [hy]))
      refine ⟨.wrapped a k x.1 :: ns, o2, r2, ?_, x1.trans x2, i2, ?_, ?_⟩
      · simp only [collectSteps, M.bind_apply, e1, e2, M.pure_apply]
      · intro n hn
        rcases List.mem_cons.mp hn with rfl | hn
        · exact x2.goodW g1
        · exact g2 n hn
      · simp only [Option.map_some, List.map_cons, Node.handle, hh]

theorem present_kids {r : Reg} {p : Ptr} (h : Rooted r p) : Present r (r.kids p) := fun ⟨_, _⟩ hx =>
  ⟨(kids_mem hx).elim fun _ h => h.2, kids_under h hx⟩

theorem collect_kids {pick : Ptr → Kind → Option (M Node)} {sel : Kind → Option WKind} (hw : Wraps pick sel)
    {o r} (hi : Inv o r) {p : Ptr} (hp : Rooted r p) :
    ∃ ns o' r', Seq.collect (overKids p pick) r = (.ok ns, r') ∧ Ext o r o' r' ∧ Inv o' r' ∧
      (∀ n ∈ ns, Good o' r' n) ∧ ns.map Node.handle = (membersOf r p sel).map some := by
  rw [membersOf_kids]
  obtain ⟨ns, o', r', h⟩ := collect_steps hw (r.kids p) hi (present_kids hp)
  refine ⟨ns, o', r', ?_, h.2⟩
  unfold Seq.collect
  simp only [M.bind_apply, overKids_apply]
  exact h.1

theorem exact_kids {pick : Ptr → Kind → Option (M Node)} {sel : Kind → Option WKind} (hw : Wraps pick sel)
    {o r} (hi : Inv o r) {p : Ptr} (hp : Rooted r p) : Exact r (overKids p pick) p sel := by
  obtain ⟨ns, o', r', h1, _, _, _, h2⟩ := collect_kids hw hi hp
  refine ⟨ns, r', h1, h2, ?_⟩
  rw [h2]
  exact (membersOf_nodup r p sel).map _ (by intro a b h; simpa using h)

/-! ### Lookups -/

theorem goodW_wrapAs {o r a k p} (g : GoodW o r a k p) (hk : k ≠ .file) :
    wrapAs k p r = (.ok (.wrapped a k p), r) := by
  have hw : wrap (.at p) r = (.ok (some (.wrapped a k p)), r) := by
    unfold wrap
    rw [g.cached hk]
  unfold wrapAs
  simp only [M.bind_apply, hw, assertKind, if_true, M.pure_apply]

theorem find_members {sel : Kind → Option WKind} {r : Reg} (name : Str) :
    ∀ (l : List (Ptr × Elem)) (ns : List Node), Present r l →
    ns.map Node.handle = (l.filterMap fun x => (sel x.2.kind).map fun k => (k, x.1)).map some →
    match l.find? (fun x => (sel x.2.kind).isSome && x.2.kind.declName == some name) with
    | none => ns.find? (fun n => n.sourceName r == some name) = none
    | some x => ∃ k a, sel x.2.kind = some k ∧ x ∈ l ∧ Node.wrapped a k x.1 ∈ ns ∧
        ns.find? (fun n => n.sourceName r == some name) = some (.wrapped a k x.1) := by
  intro l
  induction l with
  | nil => intro ns _ h; simp at h; subst h; simp
  | cons x l ih =>
    intro ns hp h
    rw [List.filterMap_cons] at h
    rw [List.find?_cons]
    cases hk : sel x.2.kind with
    | none =>
      rw [hk] at h
      simp only [Option.map_none] at h
      simp only [Option.isSome_none, Bool.false_and]
      have := ih ns (fun y hy => hp y (by simp [hy])) h
      revert this
      cases l.find? (fun x => (sel x.2.kind).isSome && x.2.kind.declName == some name) with
      | none => exact id
      | some y => rintro ⟨k, a, h1, h2, h3⟩; exact ⟨k, a, h1, by simp [h2], h3⟩
    | some k =>
      rw [hk] at h
      simp only [Option.map_some, List.map_cons] at h
      cases ns with
      | nil => simp at h
      | cons n ns =>
        simp only [List.map_cons, List.cons.injEq] at h
        obtain ⟨h1, h2⟩ := h
        cases n <;> simp only [Node.handle, Option.some.injEq, Prod.mk.injEq, reduceCtorEq] at h1
        case wrapped a k' p' =>
        obtain ⟨rfl, rfl⟩ := h1
        have hel := hp x (by simp)
        have hsn : (Node.wrapped a k' x.1).sourceName r = x.2.kind.declName := by
          simp [Node.sourceName, Node.decl, Reg.kind, hel.1]
        simp only [Option.isSome_some, Bool.true_and, List.find?_cons, hsn]
        cases hd : (x.2.kind.declName == some name) with
        | true => exact ⟨k', a, hk, by simp, by simp, rfl⟩
        | false =>
          have := ih ns (fun y hy => hp y (by simp [hy])) h2
          revert this
          cases l.find? (fun x => (sel x.2.kind).isSome && x.2.kind.declName == some name) with
          | none => exact id
          | some y => rintro ⟨k, a, h1, h2, h3, h4⟩; exact ⟨k, a, h1, by simp [h2], by simp [h3], h4⟩

theorem find_congr {α} {p q : α → Bool} : ∀ {l : List α}, (∀ x ∈ l, p x = q x) → l.find? p = l.find? q := by
  intro l
  induction l with
  | nil => intro _; rfl
  | cons a l ih =>
    intro h
    rw [List.find?_cons, List.find?_cons, h a (by simp), ih fun x hx => h x (by simp [hx])]

/-- The shape shared by the lookups of declarations by name. -/
def Looks (names : Str → Prop) (r0 : Reg) (p : Ptr) (sel : Kind → Option WKind)
    (look : Str → M (Option Node)) : Prop :=
  ∀ name r, names name → r.kids p = r0.kids p → look name r =
    match (r.kids p).find? (fun x => (sel x.2.kind).isSome && x.2.kind.declName == some name) with
    | none => (.ok none, r)
    | some x => ((do let n ← wrapAs ((sel x.2.kind).getD .file) x.1; pure (some n)) : M (Option Node)) r

theorem agrees_kids {pick : Ptr → Kind → Option (M Node)} {sel : Kind → Option WKind} (hw : Wraps pick sel)
    {o r} (hi : Inv o r) {p : Ptr} (hp : Rooted r p) {names look} (hl : Looks names r p sel look) :
    AgreesFor names r (overKids p pick) look := by
  obtain ⟨ns, o', r', h1, hx, hi', hg, h2⟩ := collect_kids hw hi hp
  refine ⟨ns, r', h1, fun name hnm => ?_⟩
  have hkids : r'.kids p = r.kids p := by unfold Reg.kids; rw [hx.children_eq hp.file]
  rw [hl name r' hnm hkids, hkids]
  rw [membersOf_kids] at h2
  have := find_members (sel := sel) (r := r) name (r.kids p) ns (present_kids hp) h2
  revert this
  cases (r.kids p).find? (fun x => (sel x.2.kind).isSome && x.2.kind.declName == some name) with
  | none => intro h; simp only at h; rw [h]; exact ⟨r', rfl⟩
  | some x =>
    rintro ⟨k, a, hk, _, hm, hf⟩
    simp only at hf ⊢
    rw [hf, hk]
    have hne := wrapKind_ne_file (hw.1 _ _ hk)
    refine ⟨r', ?_⟩
    simp only [Option.getD_some, M.bind_apply, goodW_wrapAs (hg _ hm) hne, M.pure_apply]

theorem looks_firstKid {names : Str → Prop} {r0 : Reg} {p : Ptr} {k : WKind} {sel : Kind → Option WKind}
    {pred : Str → Kind → Bool} (hk : ∀ kd k', sel kd = some k' → k' = k)
    (hp : ∀ name, names name → ∀ x ∈ r0.kids p,
      pred name x.2.kind = ((sel x.2.kind).isSome && x.2.kind.declName == some name)) :
    Looks names r0 p sel (fun name => firstKid p k (pred name)) := by
  intro name r hn hkids
  unfold firstKid
  simp only [M.bind_apply, M.get_apply]
  have hfe : (r.kids p).find? (fun x => pred name x.2.kind) =
      (r.kids p).find? (fun x => (sel x.2.kind).isSome && x.2.kind.declName == some name) :=
    find_congr (by rw [hkids]; exact hp name hn)
  have hfe' : (r.kids p).find? (fun (_, e) => pred name e.kind) = _ := hfe
  rw [hfe']
  cases hf : (r.kids p).find? (fun x => (sel x.2.kind).isSome && x.2.kind.declName == some name) with
  | none => rfl
  | some x =>
    have := List.find?_some hf
    simp only [Bool.and_eq_true] at this
    obtain ⟨k', hk'⟩ := Option.isSome_iff_exists.mp this.1
    have hkk : (sel x.2.kind).getD .file = k := by rw [hk', hk _ _ hk']; rfl
    simp only [hkk]
    rfl

/-! ### Loops -/

theorem runSteps_client {pick : Ptr → Kind → Option (M Node)} {sel : Kind → Option WKind} (hw : Wraps pick sel)
    {k : Nat} {act : List Node → List Op} :
    ∀ (l : List (Ptr × Elem)) {o r pool} (seen : List Node) (cnt : Nat), Inv o r → GoodL o r pool → Present r l →
    cnt < k →
    ∃ o' r' cnt' new pool', runSteps (stopAfter k (clientBody act)) (stepsOf pick l) (cnt, seen, pool) r =
        (.ok (cnt', seen ++ new, pool'), r') ∧
      Ext o r o' r' ∧ Inv o' r' ∧ (∀ n ∈ new, Good o' r' n) ∧
      new.map Node.handle =
        (((l.filterMap fun x => (sel x.2.kind).map fun k => (k, x.1)).take (k - cnt)).map some) := by
  intro l
  induction l with
  | nil =>
    intro o r pool seen cnt hi _ _ _
    exact ⟨o, r, cnt, [], pool, by simp [stepsOf, runSteps], Ext.refl _ _, hi, by simp, by simp⟩
  | cons x l ih =>
    intro o r pool seen cnt hi hg hp hlt
    have hs := hw.2 x.1 x.2.kind
    rw [List.filterMap_cons]
    cases hk : sel x.2.kind with
    | none =>
      rw [hk] at hs
      rw [stepsOf_none hs]
      simpa using ih seen cnt hi hg (fun y hy => hp y (by simp [hy])) hlt
    | some kd =>
      rw [hk] at hs
      obtain ⟨m, hm, hok⟩ := hs
      rw [stepsOf_some hm]
      obtain ⟨a, o1, r1, e1, x1, i1, g1⟩ := hok o r hi (target_of_elem (hp x (by simp)).1 (hw.1 _ _ hk))
        (hp x (by simp)).2
      have hg1 : GoodL o1 r1 (pool ++ [Node.wrapped a kd x.1]) := by
        intro n hn
        rcases List.mem_append.mp hn with h | h
        · exact x1.good n (hg n h)
        · simp only [List.mem_singleton] at h; subst h; exact g1
      obtain ⟨o2, x2, i2, g2⟩ := exec_inv (act (seen ++ [Node.wrapped a kd x.1]))
        (c := ⟨r1, pool ++ [Node.wrapped a kd x.1]⟩) i1 hg1
      have hrun : ∀ ms, runSteps (stopAfter k (clientBody act)) (m :: ms) (cnt, seen, pool) r =
          (if decide (cnt + 1 < k) = true then runSteps (stopAfter k (clientBody act)) ms
            (cnt + 1, seen ++ [Node.wrapped a kd x.1], (Client.exec ⟨r1, pool ++ [Node.wrapped a kd x.1]⟩
              (act (seen ++ [Node.wrapped a kd x.1]))).pool)
          else pure (cnt + 1, seen ++ [Node.wrapped a kd x.1],
            (Client.exec ⟨r1, pool ++ [Node.wrapped a kd x.1]⟩
              (act (seen ++ [Node.wrapped a kd x.1]))).pool))
            (Client.exec ⟨r1, pool ++ [Node.wrapped a kd x.1]⟩
              (act (seen ++ [Node.wrapped a kd x.1]))).reg := by
        intro ms
        simp only [runSteps, M.bind_apply, e1, stopAfter, clientBody, M.pure_apply]
      rw [hrun]
      have hpos : k - cnt = (k - (cnt + 1)) + 1 := by omega
      by_cases hc : cnt + 1 < k
      · rw [decide_eq_true hc, if_pos rfl]
        obtain ⟨o3, r3, cnt', new, pool', h1, x3, i3, g3, h2⟩ :=
          ih (seen ++ [Node.wrapped a kd x.1]) (cnt + 1) i2 g2
            (present_ext (x1.trans x2) fun y hy => hp y (by simp [hy])) hc
        refine ⟨o3, r3, cnt', Node.wrapped a kd x.1 :: new, pool', ?_, (x1.trans x2).trans x3, i3, ?_, ?_⟩
        · rw [h1]; simp
        · intro n hn
          rcases List.mem_cons.mp hn with rfl | hn
          · exact x3.goodW (x2.goodW g1)
          · exact g3 n hn
        · simp only [hpos, Option.map_some, List.take_succ_cons, List.map_cons, Node.handle, h2]
      · rw [decide_eq_false hc, if_neg (by simp)]
        refine ⟨o2, _, cnt + 1, [Node.wrapped a kd x.1], _, rfl, x1.trans x2, i2, ?_, ?_⟩
        · intro n hn
          simp only [List.mem_singleton] at hn
          subst hn
          exact x2.goodW g1
        · have : k - (cnt + 1) = 0 := by omega
          simp only [hpos, this, Option.map_some, List.take_succ_cons, List.take_zero, List.map_cons, List.map_nil,
            Node.handle]

/-! ### The iterators -/

syntax "sel_ok" : tactic
macro_rules
  | `(tactic| sel_ok) => `(tactic| (
      intro kd k h
      cases kd <;> first
        | (cases h; done)
        | (cases h; rfl)
        | (rename_i n b; cases b <;> first | (cases h; done) | (cases h; rfl))))

syntax "picks" : tactic
macro_rules
  | `(tactic| picks) => `(tactic| (
      intro q kd
      cases kd <;> first
        | exact rfl
        | exact ⟨_, rfl, stepOK_wrapAs _ _⟩
        | exact ⟨_, rfl, stepOK_wrapNamed (by simp) _⟩
        | (rename_i n b; cases b <;> first
            | exact rfl
            | exact ⟨_, rfl, stepOK_wrapAs _ _⟩
            | exact ⟨_, rfl, stepOK_wrapNamed (by simp) _⟩)))

/-- The iterator is a loop over children that wraps the selected ones. -/
def IterShape (seq : Seq Node) (p : Ptr) (sel : Kind → Option WKind) : Prop :=
  ∃ pick, seq = overKids p pick ∧ Wraps pick sel

theorem shape_imports (p : Ptr) : IterShape (File.imports p) p importSel :=
  ⟨_, rfl, by sel_ok, by picks⟩
theorem shape_fileMessages (p : Ptr) : IterShape (File.messages p) p messageSel :=
  ⟨_, rfl, by sel_ok, by picks⟩
theorem shape_fileEnums (p : Ptr) : IterShape (File.enums p) p enumSel :=
  ⟨_, rfl, by sel_ok, by picks⟩
theorem shape_fileTypes (p : Ptr) : IterShape (File.types p) p typeSel :=
  ⟨_, rfl, by sel_ok, by picks⟩
theorem shape_services (p : Ptr) : IterShape (File.services p) p serviceSel :=
  ⟨_, rfl, by sel_ok, by picks⟩
theorem shape_fields (p : Ptr) : IterShape (Message.fields p) p fieldSel :=
  ⟨_, rfl, by sel_ok, by picks⟩
theorem shape_messages (p : Ptr) : IterShape (Message.messages p) p messageSel :=
  ⟨_, rfl, by sel_ok, by picks⟩
theorem shape_types (p : Ptr) : IterShape (Message.types p) p typeSel :=
  ⟨_, rfl, by sel_ok, by picks⟩
theorem shape_enumEnums (p : Ptr) : IterShape (Enum.enums p) p enumSel :=
  ⟨_, rfl, by sel_ok, by picks⟩
theorem shape_values (p : Ptr) : IterShape (Enum.values p) p valueSel :=
  ⟨_, rfl, by sel_ok, by picks⟩
theorem shape_branches (p : Ptr) : IterShape (OneOf.branches p) p branchSel :=
  ⟨_, rfl, by sel_ok, by picks⟩
theorem shape_methods (p : Ptr) : IterShape (Service.methods p) p methodSel :=
  ⟨_, rfl, by sel_ok, by picks⟩

theorem shape_declSeq {q : IterQ} {n : Node} {seq p sel} (h : q.declSeq n = some (seq, p, sel)) :
    IterShape seq p sel := by
  unfold IterQ.declSeq at h
  split at h <;> cases h
  · exact shape_imports _
  · exact shape_fileMessages _
  · exact shape_fileEnums _
  · exact shape_fileTypes _
  · exact shape_services _
  · exact shape_fields _
  · exact shape_messages _
  · exact shape_types _
  · exact shape_values _
  · exact shape_branches _
  · exact shape_methods _

theorem IterShape.exact {seq p sel} (h : IterShape seq p sel) {o r} (hi : Inv o r) (hp : Rooted r p) :
    Exact r seq p sel := by
  obtain ⟨pick, rfl, hw⟩ := h
  exact exact_kids hw hi hp

/-- Two lists of live nodes that represent the same elements are the same list. -/
theorem nodes_eq {o r} : ∀ {l1 l2 : List Node}, (∀ n ∈ l1, Good o r n) → (∀ n ∈ l2, Good o r n) →
    (∀ k p, some (k, p) ∈ l1.map Node.handle → k ≠ .file) → (∀ n ∈ l1, n.handle ≠ none) →
    l1.map Node.handle = l2.map Node.handle → l1 = l2 := by
  intro l1
  induction l1 with
  | nil => intro l2 _ _ _ _ h; cases l2 <;> simp at h ⊢
  | cons n l1 ih =>
    intro l2 h1 h2 hk hn h
    cases l2 with
    | nil => simp at h
    | cons m l2 =>
      simp only [List.map_cons, List.cons.injEq] at h
      have hhead : n = m := by
        have hnn := hn n (by simp)
        cases n <;> simp only [Node.handle, ne_eq, not_true_eq_false] at hnn
        case wrapped a k p =>
        cases m <;> simp only [Node.handle, Option.some.injEq, Prod.mk.injEq, reduceCtorEq, false_and] at h
        case wrapped b k' p' =>
        obtain ⟨⟨rfl, rfl⟩, _⟩ := h
        have g1 : GoodW o r a k p := h1 (.wrapped a k p) (by simp)
        have g2 : GoodW o r b k p := h2 (.wrapped b k p) (by simp)
        rw [goodW_unique g1 g2 (hk k p (by simp [Node.handle]))]
      rw [hhead, ih (fun x hx => h1 x (by simp [hx])) (fun x hx => h2 x (by simp [hx]))
        (fun k p hm => hk k p (by simp only [List.map_cons, List.mem_cons, hm, or_true]))
        (fun x hx => hn x (by simp [hx])) h.2]

end Protoast
