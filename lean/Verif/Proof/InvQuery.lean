import Verif.Proof.InvLoad
/-
  Every query preserves the invariant and hands out live nodes only.
-/
namespace Protoast

/-! ### Computations that do not touch the state -/

/-- The computation leaves the state as it is. -/
structure Rd {α : Type} (m : M α) : Prop where
  same : ∀ r, (m r).2 = r

theorem Rd.pure {α} (a : α) : Rd (pure a : M α) := ⟨fun _ => rfl⟩
theorem Rd.panic {α} (p : Panic) : Rd (M.panic p : M α) := ⟨fun _ => rfl⟩
theorem Rd.get : Rd M.get := ⟨fun _ => rfl⟩
theorem Rd.bind {α β} {m : M α} {f : α → M β} (hm : Rd m) (hf : ∀ a, Rd (f a)) : Rd (m >>= f) := by
  constructor; intro r
  have h1 := hm.same r
  simp only [M.bind_apply]
  rcases hmr : m r with ⟨res, r'⟩
  rw [hmr] at h1
  simp only at h1
  subst h1
  cases res with
  | ok a => exact (hf a).same r'
  | panic p => rfl
  | timeout => rfl

syntax "rd" : tactic
macro_rules
  | `(tactic| rd) => `(tactic| repeat' (first
      | (with_reducible exact Rd.pure _)
      | (with_reducible exact Rd.panic _)
      | (with_reducible exact Rd.get)
      | assumption
      | (with_reducible apply Rd.bind)
      | intro _
      | split))

theorem Tri.rd {α} {m : M α} (h : Rd m) {o r} (hi : Inv o r) : Tri o r m (fun _ r' _ => r' = r) :=
  ⟨o, by rw [h.same]; exact Ext.refl _ _, by rw [h.same]; exact hi, fun _ _ => h.same r⟩

theorem Tri.true {α} {m : M α} {o r} {Q} (h : Tri o r m Q) : Tri o r m (fun _ _ _ => True) :=
  h.mono fun _ _ _ _ _ _ _ => trivial

/-! ### Children -/

theorem kidsFrom_mem {p : Ptr} {q : Ptr} {e : Elem} : ∀ (es : List Elem) (n : Nat),
    (q, e) ∈ kidsFrom p n es → ∃ i, q = p.child (n + i) ∧ es[i]? = some e := by
  intro es
  induction es with
  | nil => intro n h; simp [kidsFrom] at h
  | cons x xs ih =>
    intro n h
    simp only [kidsFrom, List.mem_cons, Prod.mk.injEq] at h
    rcases h with ⟨rfl, rfl⟩ | h
    · exact ⟨0, rfl, by simp⟩
    · obtain ⟨i, h1, h2⟩ := ih (n + 1) h
      exact ⟨i + 1, by rw [h1, show n + 1 + i = n + (i + 1) by omega], by simpa using h2⟩

theorem elem_of_children {r : Reg} {p : Ptr} {es : List Elem} {i : Nat} {e : Elem}
    (h : r.children p = some es) (he : es[i]? = some e) : r.elem (p.child i) = some e := by
  unfold Reg.children at h
  rw [Option.bind_eq_some_iff] at h
  obtain ⟨f, hf, hc⟩ := h
  unfold Reg.elem
  rw [Option.bind_eq_some_iff]
  exact ⟨f, hf, by simp only [Ptr.child, ProtoFile.elemAt, hc, Option.bind_some]; exact he⟩

theorem kids_mem {r : Reg} {p q : Ptr} {e : Elem} (h : (q, e) ∈ r.kids p) :
    ∃ i, q = p.child i ∧ r.elem q = some e := by
  unfold Reg.kids at h
  obtain ⟨i, h1, h2⟩ := kidsFrom_mem _ _ h
  rw [Nat.zero_add] at h1
  refine ⟨i, h1, ?_⟩
  subst h1
  cases hc : r.children p with
  | none => simp [hc] at h2
  | some es =>
    rw [hc] at h2
    exact elem_of_children hc h2

theorem kids_kind {r : Reg} {p q : Ptr} {e : Elem} (h : (q, e) ∈ r.kids p) :
    r.kind q = some e.kind := by
  obtain ⟨_, _, h⟩ := kids_mem h
  simp [Reg.kind, h]

theorem kids_file {r : Reg} {p q : Ptr} {e : Elem} (h : (q, e) ∈ r.kids p) :
    q.file < r.heap.length := by
  obtain ⟨_, _, h⟩ := kids_mem h
  exact elem_file h

theorem kids_under {r : Reg} {p q : Ptr} {e : Elem} (hp : Rooted r p) (h : (q, e) ∈ r.kids p) : Under r q := by
  obtain ⟨i, rfl, he⟩ := kids_mem h
  exact ⟨hp, fun _ => ⟨e, he⟩⟩

theorem overKids_apply {α} (p : Ptr) (pick : Ptr → Kind → Option (M α)) (r : Reg) :
    overKids p pick r = (.ok ((r.kids p).filterMap fun (q, e) => pick q e.kind), r) := rfl

/-- The steps of a loop over children. -/
theorem overKids_steps {α} {p : Ptr} {pick : Ptr → Kind → Option (M α)} {r r' : Reg}
    {steps : List (M α)} (h : overKids p pick r = (.ok steps, r')) :
    r' = r ∧ ∀ m ∈ steps, ∃ q e, (q, e) ∈ r.kids p ∧ pick q e.kind = some m := by
  rw [overKids_apply] at h
  simp only [Prod.mk.injEq, Res.ok.injEq] at h
  obtain ⟨rfl, rfl⟩ := h
  refine ⟨rfl, fun m hm => ?_⟩
  rw [List.mem_filterMap] at hm
  obtain ⟨⟨q, e⟩, h1, h2⟩ := hm
  exact ⟨q, e, h1, h2⟩

theorem nth_tri {α} {p : Ptr} {pick : Ptr → Kind → Option (M α)} {o r} (hi : Inv o r) {i : Nat}
    {Q : Ghost → Reg → α → Prop}
    (h : ∀ q e m, (q, e) ∈ r.kids p → pick q e.kind = some m → Tri o r m Q) :
    Tri o r (Seq.nth (overKids p pick) i) (fun o' r' x => ∀ a, x = some a → Q o' r' a) := by
  unfold Seq.nth
  refine Tri.bind (Q := fun o' r' steps => o' = o ∧ r' = r ∧
    ∀ m ∈ steps, ∃ q e, (q, e) ∈ r.kids p ∧ pick q e.kind = some m) ?_ ?_
  · refine ⟨o, Ext.refl _ _, hi, ?_⟩
    intro steps hs
    exact ⟨rfl, overKids_steps (r' := (overKids p pick r).2) (by rw [← hs])⟩
  · intro o' r' steps _ _ _ hq
    obtain ⟨rfl, rfl, hst⟩ := hq
    cases hm : steps[i]? with
    | none => exact Tri.pure hi (by intro a ha; cases ha)
    | some m =>
      obtain ⟨q, e, h1, h2⟩ := hst m (List.mem_of_getElem? hm)
      refine Tri.bind (h q e m h1 h2) fun o' r' a _ _ hi' hq' => Tri.pure hi' ?_
      intro b hb
      cases hb
      exact hq'

/-- A possibly nil live node. -/
def GoodO (o : Ghost) (r : Reg) (x : Option Node) : Prop := ∀ n, x = some n → Good o r n

/-- A possibly nil live type. -/
def GoodT (o : Ghost) (r : Reg) (x : Option Node) : Prop :=
  ∀ n, x = some n → n.isType = true ∧ Good o r n

theorem Ext.goodO {o r o' r'} (h : Ext o r o' r') {x} (g : GoodO o r x) : GoodO o' r' x :=
  fun n hn => h.good n (g n hn)

theorem wrapAs_good {o r} (hi : Inv o r) {k p} (hp : Under r p) :
    Tri o r (wrapAs k p) (fun o' r' n => Good o' r' n) :=
  (wrapAs_tri hi hp).mono fun _ _ _ _ _ _ ⟨_, h1, h2⟩ => by subst h1; exact h2

theorem wrap_good {o r} (hi : Inv o r) {v : Vis} (hv : ∀ p, v = .at p → Under r p) :
    Tri o r (wrap v) GoodO :=
  (wrap_tri hi hv).mono fun _ _ _ _ _ _ h n hn => by
    obtain ⟨a, k, p, _, h2, _, h4⟩ := h n hn
    subst h2; exact h4

theorem wrapNamed_good {o r} (hi : Inv o r) {p} (hp : Under r p) :
    Tri o r (wrapNamed p) (fun o' r' n => Good o' r' n) := by
  unfold wrapNamed
  refine Tri.bind (wrap_good hi (v := .at p) (by intro q hq; cases hq; exact hp))
    fun o' r' x _ _ hi' hq => ?_
  split
  · exact Tri.pure hi' (hq _ rfl)
  · exact Tri.pure hi' (hq _ rfl)
  · exact Tri.panic hi'

/-! ### Type lookup -/

theorem lookupType_tri {o r} (hi : Inv o r) (p : Ptr) (name : Str) :
    Tri o r (lookupType p name) (fun o' r' t => GoodT o' r' t ∧ BaseShape name t) := by
  unfold lookupType
  split
  · next b hb =>
    refine Tri.pure hi ⟨?_, by simp [BaseShape, hb]⟩
    intro n hn; cases hn; exact ⟨rfl, trivial⟩
  · next hb =>
    refine Tri.get ?_
    have hnone : ∀ {o r}, Inv o r → Tri o r (pure none : M (Option Node))
        (fun o' r' t => GoodT o' r' t ∧ BaseShape name t) := fun hi =>
      Tri.pure hi ⟨(by intro n hn; cases hn), (by simp [BaseShape, hb])⟩
    split
    · exact hnone hi
    · split
      · exact hnone hi
      · next obj hreg =>
        obtain ⟨e, k, he, hk⟩ := hi.regPtr _ _ hreg
        refine Tri.bind (wrap_tri hi (v := .at obj)
          (by intro q hq; cases hq; exact (hi.regRooted _ _ hreg).under)) fun o' r' x _ _ hi' hq => ?_
        cases x with
        | none => exact Tri.panic hi'
        | some n =>
          simp only
          split
          · next hty =>
            refine Tri.pure hi' ?_
            obtain ⟨a, k, q, _, rfl, _, h4⟩ := hq n rfl
            refine ⟨?_, ?_⟩
            · intro m hm; cases hm; exact ⟨hty, h4⟩
            · simp only [BaseShape, hb]
              refine .inr ⟨a, k, q, rfl, ?_⟩
              cases k <;> simp [Node.isType] at hty <;> simp
          · exact Tri.panic hi'

theorem getTypeByName_tri {o r} (hi : Inv o r) (p : Ptr) (name : Str) :
    Tri o r (getTypeByName p name) (fun o' r' t => GoodT o' r' t ∧
      (r.isRepeatedField p = false → BaseShape name t) ∧
      (r.isRepeatedField p = true → ∃ a t', t = some (.repeated a t') ∧ BaseShape name t')) := by
  unfold getTypeByName
  refine Tri.bind (lookupType_tri hi p name) fun o' r' t hrun hx hi' hq => ?_
  refine Tri.get ?_
  have hkind : r'.isRepeatedField p = r.isRepeatedField p := by
    have hce := RO.lookupType p name r
    rw [hrun] at hce
    have hh : r'.heap = r.heap := hce.heap
    simp only [Reg.isRepeatedField, Reg.kind, Reg.elem, hh]
  rw [hkind]
  split
  · next hrep =>
    refine Tri.bind (Tri.alloc hi' (fun a => .repeated a t)) fun o'' r'' a _ hx' hi'' hq' => ?_
    refine Tri.pure hi'' ⟨?_, by simp [hrep], fun _ => ⟨a, t, rfl, hq.2⟩⟩
    intro n hn
    cases hn
    refine ⟨rfl, ?_⟩
    cases t with
    | none => exact hq'.1
    | some t =>
      have := hq.1 t rfl
      exact ⟨hq'.1, this.1, hx'.good t this.2⟩
  · next hrep => exact Tri.pure hi' ⟨hq.1, fun _ => hq.2, fun h => absurd h hrep⟩

theorem fieldTypeBody_tri {o r} (hi : Inv o r) {p : Ptr} (hp : Rooted r p) :
    Tri o r (fieldTypeBody p) (fun o' r' t => GoodT o' r' t ∧ FieldShape r' p t) := by
  unfold fieldTypeBody
  refine Tri.get ?_
  split
  · next n typ s rep opt hk =>
    refine (getTypeByName_tri hi p typ).mono fun o' r' t _ hx _ hq => ⟨hq.1, ?_⟩
    have hrep : r.isRepeatedField p = rep := by simp [Reg.isRepeatedField, hk]
    rw [hrep] at hq
    cases rep with
    | false => exact .inl ⟨n, typ, s, opt, hx.kind hk, hq.2.1 rfl⟩
    | true => exact .inr (.inl ⟨n, typ, s, opt, hx.kind hk, hq.2.2 rfl⟩)
  · next n hk =>
    refine Tri.bind (Tri.alloc hi (fun a => .oneof a p)) fun o' r' a _ hx hi' hq => Tri.pure hi' ?_
    have ho : IsOneofAt r' p := hx.isOneof ⟨n, hk⟩
    refine ⟨?_, .inr (.inr (.inl ⟨ho, a, rfl⟩))⟩
    intro m hm; cases hm
    exact ⟨rfl, hq.1, ho, hx.rooted hp⟩
  · next a b c d hk =>
    refine Tri.bind (Tri.alloc hi (fun a => .map a p)) fun o' r' a _ hx hi' hq => Tri.pure hi' ?_
    have ho : IsMapAt r' p := hx.isMap ⟨_, _, _, _, hk⟩
    refine ⟨?_, .inr (.inr (.inr ⟨ho, a, rfl⟩))⟩
    intro m hm; cases hm
    exact ⟨rfl, hq.1, ho⟩
  · exact Tri.panic hi

/-- The state after a write to the field type cache. -/
theorem ft_inv {o r} (hi : Inv o r) {a : Nat} {p : Ptr} {t : Option Node}
    (ho : o a = some (.wrapped a .messageField p)) (hca : r.cache (.at p) = some (some (.wrapped a .messageField p)))
    (hg : GoodT o r t)
    (hs : (t = none ∧ NilType r p) ∨ FieldShape r p t) :
    Inv o { r with ftcache := upd r.ftcache a t } := by
  refine ⟨hi.fresh, hi.cacheSome, hi.cacheNone, hi.regPtr, hi.cacheRooted, hi.regRooted,
    hi.protosHeap, hi.heapProtos, ?_, ?_, ?_, hi.scopeKey⟩
  · intro b x hb
    simp only [upd] at hb
    split at hb
    · next e => cases hb; subst e; exact ⟨p, ho, hs⟩
    · exact hi.ftKey b x hb
  · intro b x hb
    have hx : GExt o r o { r with ftcache := upd r.ftcache a t } :=
      ⟨fun _ _ h => h, ⟨[], by simp⟩, fun _ _ h => h⟩
    have key := hx.good
    simp only [upd] at hb
    split at hb
    · cases hb; exact ⟨(hg x rfl).1, key x (hg x rfl).2⟩
    · exact ⟨(hi.ftGood b x hb).1, key x (hi.ftGood b x hb).2⟩
  · intro b x hb
    simp only [upd] at hb
    split at hb
    · next e => subst e; exact ⟨p, hca⟩
    · exact hi.ftCached b x hb

theorem lookupType_panic {p : Ptr} {name : Str} {r r' : Reg} {e : Panic}
    (h : lookupType p name r = (.panic e, r')) : builtinType name = none := by
  cases hb : builtinType name with
  | none => rfl
  | some b => unfold lookupType at h; rw [hb] at h; cases h

theorem getTypeByName_panic {p : Ptr} {name : Str} {r r' : Reg} {e : Panic}
    (h : getTypeByName p name r = (.panic e, r')) : builtinType name = none := by
  unfold getTypeByName at h
  simp only [M.bind_apply] at h
  rcases hl : lookupType p name r with ⟨res, r1⟩
  rw [hl] at h
  cases res with
  | ok t =>
    simp only [M.get_apply] at h
    split at h <;> cases h
  | panic e' => exact lookupType_panic hl
  | timeout => cases h

/-- The kinds of the elements a field handle can stand for. -/
theorem fieldKind_cases {r : Reg} {p : Ptr} (h : r.wrapTarget (.at p) = some (.messageField, p)) :
    (∃ n t s rep op, r.kind p = some (.normalField n t s rep op)) ∨ (∃ n, r.kind p = some (.oneof n)) ∨
    ∃ n kt t s, r.kind p = some (.mapField n kt t s) := by
  unfold Reg.wrapTarget at h
  simp only at h
  split at h
  · split at h
    · cases h
    · cases h
  · rcases hk : r.kind p with _ | kd
    · rw [hk] at h; cases h
    · rw [hk] at h
      cases kd <;> first | cases h | skip
      · exact .inl ⟨_, _, _, _, _, rfl⟩
      · exact .inr (.inr ⟨_, _, _, _, rfl⟩)
      · exact .inr (.inl ⟨_, rfl⟩)

theorem fieldTypeBody_panic {p : Ptr} {r r' : Reg} {e : Panic}
    (ht : r.wrapTarget (.at p) = some (.messageField, p))
    (h : fieldTypeBody p r = (.panic e, r')) : NilType r p := by
  unfold fieldTypeBody at h
  simp only [M.bind_apply, M.get_apply] at h
  rcases fieldKind_cases ht with ⟨n, t, s, rep, op, hk⟩ | ⟨n, hk⟩ | ⟨n, kt, t, s, hk⟩
  · rw [hk] at h
    exact ⟨n, t, s, rep, op, hk, getTypeByName_panic h⟩
  · rw [hk] at h; cases h
  · rw [hk] at h; cases h

theorem fieldType_tri {o r} (hi : Inv o r) {a : Nat} {p : Ptr} (hg : GoodW o r a .messageField p) :
    Tri o r (MessageField.type a p) (fun o' r' t => GoodT o' r' t ∧
      ((t = none ∧ NilType r' p) ∨ FieldShape r' p t)) := by
  unfold Tri MessageField.type
  cases hft : r.ftcache a with
  | some t =>
    refine ⟨o, Ext.refl _ _, hi, ?_⟩
    intro x hx
    cases hx
    obtain ⟨p', h1, h2⟩ := hi.ftKey a t hft
    rw [hg.owner] at h1
    cases h1
    refine ⟨?_, h2⟩
    intro n hn
    subst hn
    exact hi.ftGood a n hft
  | none =>
    obtain ⟨o', hx, hi', hq⟩ := fieldTypeBody_tri hi hg.rooted
    have hro := RO.fieldTypeBody p r
    rcases hb : fieldTypeBody p r with ⟨res, r'⟩
    rw [hb] at hx hi' hq hro
    simp only at hx hi' hq hro
    have ho : o' a = some (.wrapped a .messageField p) := hx.owner _ _ hg.owner
    have hca := hx.cache _ _ (hg.cached (by decide))
    have hext : ∀ t, Ext o r o' { r' with ftcache := upd r'.ftcache a t } := by
      intro t
      refine Ext.mk' hx.owner hx.heap hx.protos hx.names hx.cache ?_ hx.next
      intro b y hy
      have := hx.ftcache b y hy
      show upd r'.ftcache a t b = some y
      unfold upd
      split
      · next e => subst e; rw [hft] at hy; cases hy
      · exact this
    have hgx : ∀ t, GExt o' r' o' { r' with ftcache := upd r'.ftcache a t } := fun t =>
      ⟨fun _ _ h => h, ⟨[], by simp⟩, fun _ _ h => h⟩
    cases res with
    | ok t =>
      refine ⟨o', hext t, ft_inv hi' ho hca (hq t rfl).1 (.inr (hq t rfl).2), ?_⟩
      intro x hx'
      cases hx'
      refine ⟨?_, .inr ((hgx t).fieldShape (hq t rfl).2)⟩
      intro n hn
      exact ⟨((hq t rfl).1 n hn).1, (hgx t).good n ((hq t rfl).1 n hn).2⟩
    | panic e =>
      exact ⟨o', hext none, ft_inv hi' ho hca (by intro n hn; cases hn)
          (.inl ⟨rfl, hx.nilType (fieldTypeBody_panic hg.target hb)⟩),
        by intro x hx'; cases hx'⟩
    | timeout => exact ⟨o', hx, hi', by intro x hx'; cases hx'⟩

theorem branchType_tri {o r} (hi : Inv o r) (p : Ptr) :
    Tri o r (OneOfBranch.type p) (fun o' r' t => GoodT o' r' t) := by
  unfold OneOfBranch.type
  refine Tri.get ?_
  split
  · exact (getTypeByName_tri hi p _).mono fun _ _ _ _ _ _ h => h.1
  · exact Tri.panic hi

theorem assertKind_good {o r} (hi : Inv o r) {k : WKind} {t : Option Node} (h : GoodO o r t) :
    Tri o r (assertKind k t) (fun o' r' n => Good o' r' n) := by
  unfold assertKind
  split
  · split
    · exact Tri.pure hi (h _ rfl)
    · exact Tri.panic hi
  · exact Tri.panic hi

theorem methodInput_tri {o r} (hi : Inv o r) (p : Ptr) :
    Tri o r (Method.input p) (fun o' r' x => Good o' r' x.2) := by
  unfold Method.input
  refine Tri.get ?_
  split
  · refine Tri.bind (getTypeByName_tri hi p _) fun o' r' t _ _ hi' hq => ?_
    refine Tri.bind (assertKind_good hi' fun n hn => (hq.1 n hn).2) fun o' r' t _ _ hi' hq => ?_
    exact Tri.pure hi' hq
  · exact Tri.panic hi

theorem methodOutput_tri {o r} (hi : Inv o r) (p : Ptr) :
    Tri o r (Method.output p) (fun o' r' x => Good o' r' x.2) := by
  unfold Method.output
  refine Tri.get ?_
  split
  · refine Tri.bind (getTypeByName_tri hi p _) fun o' r' t _ _ hi' hq => ?_
    refine Tri.bind (assertKind_good hi' fun n hn => (hq.1 n hn).2) fun o' r' t _ _ hi' hq => ?_
    exact Tri.pure hi' hq
  · exact Tri.panic hi

theorem mapKey_tri {o r} (hi : Inv o r) (p : Ptr) :
    Tri o r (Map.key p) (fun o' r' x => Good o' r' x) := by
  unfold Map.key
  refine Tri.get ?_
  split
  · split
    · exact Tri.pure hi trivial
    · exact Tri.panic hi
  · exact Tri.panic hi

theorem mapValue_tri {o r} (hi : Inv o r) (p : Ptr) :
    Tri o r (Map.value p) (fun o' r' x => Good o' r' x) := by
  unfold Map.value
  refine Tri.get ?_
  split
  · split
    · exact Tri.pure hi trivial
    · split
      · exact Tri.panic hi
      · next q hq =>
        split
        · exact wrapAs_good hi (hi.regRooted _ _ hq).under
        · exact wrapAs_good hi (hi.regRooted _ _ hq).under
        · exact Tri.panic hi
  · exact Tri.panic hi

/-! ### Options -/

theorem optionClass_tri {o r} (hi : Inv o r) (n : Str) :
    Tri o r (optionClass n) (fun o' r' c => o' = o ∧ r' = r ∧ IsMessageAt r c ∧ Rooted r c) := by
  unfold optionClass
  refine Tri.get ?_
  split
  · next hreg =>
    split
    · next hk => exact Tri.pure hi ⟨rfl, rfl, ⟨_, _, hk⟩, hi.regRooted _ _ hreg⟩
    · exact Tri.panic hi
  · exact Tri.panic hi

theorem builtinOptionField_spec {r : Reg} {cls f : Ptr} {name : Str}
    (h : builtinOptionField r cls name = some f) :
    ∃ e, (f, e) ∈ r.kids cls ∧ ∃ b c d g, e.kind = .normalField name b c d g := by
  unfold builtinOptionField at h
  rw [Option.map_eq_some_iff] at h
  obtain ⟨⟨q, e⟩, h1, h2⟩ := h
  simp only at h2
  subst h2
  have hm := List.mem_of_find?_eq_some h1
  have hs := List.find?_some h1
  refine ⟨e, hm, ?_⟩
  simp only at hs
  split at hs
  · next n b c d g hk =>
    simp only [beq_iff_eq] at hs
    subst hs
    exact ⟨b, c, d, g, hk⟩
  · cases hs

theorem newOption_tri {o r} (hi : Inv o r) {s : Str} {cls opt : Ptr} (hc : IsMessageAt r cls ∧ Rooted r cls)
    (hu : Under r opt) :
    Tri o r (newOption s cls opt) (fun o' r' n => Good o' r' n) := by
  unfold newOption
  refine Tri.get ?_
  split
  · next oname lit hk =>
    have hopt : IsOptionAt r opt := ⟨_, _, hk⟩
    have mk : ∀ f, IsFieldAt r f → Under r f → Tri o r (do let a ← M.alloc; pure (Node.option a opt cls f))
        (fun o' r' n => Good o' r' n) := by
      intro f hf hfu
      refine Tri.bind (Tri.alloc hi (fun a => .option a opt cls f)) fun o' r' a _ hx hi' hq =>
        Tri.pure hi' ?_
      exact ⟨hq.1, ⟨hx.isOption hopt, hx.under hu⟩, hx.isMessage hc.1, hx.isField hf, hx.under hfu⟩
    split
    · split
      · next hreg =>
        split
        · next hkf => exact mk _ ⟨_, _, _, _, _, hkf⟩ (hi.regRooted _ _ hreg).under
        · exact Tri.panic hi
      · exact Tri.panic hi
    · split
      · next f hf =>
        obtain ⟨e, h1, b, c, d, g, h2⟩ := builtinOptionField_spec hf
        exact mk f ⟨_, _, _, _, _, by rw [kids_kind h1, h2]⟩ (kids_under hc.2 h1)
      · exact Tri.panic hi
  · exact Tri.panic hi

theorem wrapOption_tri {o r} (hi : Inv o r) {cls opt : Ptr} (hc : IsMessageAt r cls ∧ Rooted r cls)
    (hu : Under r opt) :
    Tri o r (wrapOption opt cls) (fun o' r' n => Good o' r' n) :=
  Tri.get (newOption_tri hi hc hu)

theorem everythingStep_tri {o r} (hi : Inv o r) {c : Str} {q : Ptr} {k : Kind}
    {m : M (Option Node)} (hq : Under r q) (h : everythingStep c q k = some m) :
    Tri o r m GoodO := by
  unfold everythingStep at h
  split at h
  · cases h
    refine Tri.bind (optionClass_tri hi c) fun o' r' cls _ _ _ hcl => ?_
    obtain ⟨rfl, rfl, hcl⟩ := hcl
    refine Tri.bind (wrapOption_tri hi hcl hq) fun o' r' n _ _ hi' hg => Tri.pure hi' ?_
    intro x hx; cases hx; exact hg
  · cases h
    exact wrap_good hi (by intro p hp; cases hp; exact hq)

theorem everything_nth_tri {o r} (hi : Inv o r) {c : Str} {p : Ptr} {i : Nat} (hp : Rooted r p) :
    Tri o r (do let x ← Seq.nth (overKids p (everythingStep c)) i; pure (flatOpt x)) GoodO := by
  refine Tri.bind (nth_tri (Q := GoodO) hi fun q e m h1 h2 =>
    everythingStep_tri hi (kids_under hp h1) h2) fun o' r' x _ _ hi' hq => Tri.pure hi' ?_
  intro n hn
  cases x with
  | none => cases hn
  | some y => exact hq y rfl n hn

theorem seqOptions_nth_tri {o r} (hi : Inv o r) {s c : Str} {p : Ptr} {i : Nat} (hp : Rooted r p) :
    Tri o r (do let x ← seqOptions s c p; Seq.nth x i) GoodO := by
  refine Tri.bind (Q := fun o' r' x => o' = o ∧ r' = r ∧ ∃ cls, (IsMessageAt r cls ∧ Rooted r cls) ∧
      x = overKids p fun q k => match k with
        | .option _ _ => some (newOption s cls q)
        | _ => none) ?_ ?_
  · unfold seqOptions
    refine Tri.bind (optionClass_tri hi c) fun o' r' cls _ _ _ hcl => ?_
    obtain ⟨rfl, rfl, hcl⟩ := hcl
    exact Tri.pure hi ⟨rfl, rfl, cls, hcl, rfl⟩
  · intro o' r' x _ _ _ hq
    obtain ⟨rfl, rfl, cls, hcl, rfl⟩ := hq
    refine (nth_tri (Q := Good) hi fun q e m h1 h2 => ?_).mono fun _ _ _ _ _ _ h => h
    split at h2
    · cases h2; exact newOption_tri hi hcl (kids_under hp h1)
    · cases h2

theorem options_cases (n : Node) (r : Reg) :
    (∃ s c p, ((∃ a k, n = .wrapped a k p) ∨ ∃ a, n = .oneof a p) ∧ options n r = seqOptions s c p r) ∨
    ∃ e, options n r = (.panic e, r) := by
  cases n with
  | wrapped a k p =>
    cases k with
    | messageField =>
      simp only [options, M.bind_apply, M.get_apply]
      rcases hk : r.kind p with _ | kd
      · exact .inr ⟨_, rfl⟩
      · cases kd <;> first | exact .inr ⟨_, rfl⟩ | exact .inl ⟨_, _, _, .inl ⟨_, _, rfl⟩, rfl⟩
    | _ => first | exact .inr ⟨_, rfl⟩ | exact .inl ⟨_, _, _, .inl ⟨_, _, rfl⟩, rfl⟩
  | oneof a p => exact .inl ⟨_, _, _, .inr ⟨_, rfl⟩, rfl⟩
  | _ => exact .inr ⟨_, rfl⟩

theorem Tri.congr {α} {m m' : M α} {o r} {Q} (h : m r = m' r) (t : Tri o r m' Q) : Tri o r m Q := by
  unfold Tri at *; rw [h]; exact t

theorem options_nth_tri {o r} (hi : Inv o r) {n : Node} {i : Nat} (g : Good o r n) :
    Tri o r (do let x ← options n; Seq.nth x i) GoodO := by
  rcases options_cases n r with ⟨s, c, p, hn, h⟩ | ⟨e, h⟩
  · have hp : Rooted r p := by
      rcases hn with ⟨a, k, rfl⟩ | ⟨a, rfl⟩
      · exact GoodW.rooted g
      · exact g.2.2
    refine Tri.congr ?_ (seqOptions_nth_tri (s := s) (c := c) (p := p) (i := i) hi hp)
    simp only [M.bind_apply, h]
  · refine Tri.congr (m' := M.panic e) ?_ (Tri.panic hi)
    simp only [M.bind_apply, h, M.panic_apply]

theorem namedOption_tri {o r} (hi : Inv o r) {n s c : Str} {p : Ptr} (hp : Rooted r p) :
    Tri o r (namedOption n s c p) GoodO := by
  unfold namedOption
  refine Tri.bind (optionClass_tri hi c) fun o' r' cls _ _ _ hcl => ?_
  obtain ⟨rfl, rfl, hcl⟩ := hcl
  refine Tri.get ?_
  split
  · next h =>
    refine Tri.bind (newOption_tri hi hcl (kids_under hp (List.mem_of_find?_eq_some h))) fun o' r' n _ _ hi' hg => Tri.pure hi' ?_
    intro x hx; cases hx; exact hg
  · exact Tri.pure hi (by intro x hx; cases hx)

theorem optionNamed_tri {o r} (hi : Inv o r) {n : Node} {s : Str} (g : Good o r n) :
    Tri o r (optionNamed n s) GoodO := by
  unfold optionNamed
  cases n with
  | wrapped a k p =>
    refine Tri.get ?_
    have hp : Rooted r p := GoodW.rooted g
    cases k <;> first | exact namedOption_tri hi hp | exact Tri.panic hi | skip
    simp only
    split <;> first | exact namedOption_tri hi hp | exact Tri.panic hi
  | oneof a p => exact Tri.get (namedOption_tri hi g.2.2)
  | _ => exact Tri.panic hi

/-! ### Lookup by name -/

theorem firstKid_tri {o r} (hi : Inv o r) {p k sel} (hp : Rooted r p) :
    Tri o r (firstKid p k sel) (fun o' r' x => ∀ n, x = some n →
      ∃ a q, n = .wrapped a k q ∧ GoodW o' r' a k q) := by
  unfold firstKid
  refine Tri.get ?_
  split
  · next q e h =>
    refine Tri.bind (wrapAs_tri hi (kids_under hp (List.mem_of_find?_eq_some h)))
      fun o' r' n _ _ hi' hg => Tri.pure hi' ?_
    intro x hx; cases hx
    obtain ⟨a, h1, h2⟩ := hg
    exact ⟨a, q, h1, h2⟩
  · exact Tri.pure hi (by intro x hx; cases hx)

theorem firstKid_good {o r} (hi : Inv o r) {p k sel} (hp : Rooted r p) : Tri o r (firstKid p k sel) GoodO :=
  (firstKid_tri hi hp).mono fun _ _ _ _ _ _ h n hn => by
    obtain ⟨a, q, rfl, hg⟩ := h n hn
    exact hg

theorem wrapSome_good {o r} (hi : Inv o r) {k p} (hp : Under r p) :
    Tri o r (do let n ← wrapAs k p; pure (some n)) GoodO :=
  Tri.bind (wrapAs_good hi hp) fun _ _ _ _ _ hi' hg => Tri.pure hi' fun x hx => by cases hx; exact hg

theorem fileTypeByName_tri {o r} (hi : Inv o r) {p s} (hp : Rooted r p) : Tri o r (File.type p s) GoodO := by
  unfold File.type
  refine Tri.get ?_
  split
  · next q e h =>
    have := kids_under hp (List.mem_of_find?_eq_some h)
    split
    · exact wrapSome_good hi this
    · exact wrapSome_good hi this
  · exact Tri.pure hi (by intro x hx; cases hx)

theorem messageTypeByName_tri {o r} (hi : Inv o r) {p s} (hp : Rooted r p) : Tri o r (Message.type p s) GoodO := by
  unfold Message.type
  refine Tri.get ?_
  split
  · next q e h =>
    have := kids_under hp (List.mem_of_find?_eq_some h)
    split
    · exact wrapSome_good hi this
    · exact wrapSome_good hi this
  · exact Tri.pure hi (by intro x hx; cases hx)

/-! ### Option values -/

mutual
theorem buildFromLiteral_tri (F : FloatOps) (op : Option Ptr) (f : Ptr) (ig : Bool) :
    (l : Literal) → ∀ {o r}, Inv o r → OptOK r op →
      Tri o r (buildFromLiteral F op f ig l) GoodVal
  | .mk pos source array om, o, r, hi, hop => by
    unfold buildFromLiteral
    refine Tri.get ?_
    split
    · next n typ s rep opt hk =>
      split
      · refine Tri.bind (buildArray_tri F f array hi) fun o' r' vs _ hx hi' hq => ?_
        exact Tri.pure hi' ⟨hx.optOK hop, hq⟩
      · split
        · split
          · exact Tri.pure hi hop
          · exact Tri.panic hi
        · split
          · exact Tri.pure hi hop
          · exact Tri.panic hi
        · split
          · exact Tri.pure hi hop
          · exact Tri.panic hi
        · split
          · exact Tri.pure hi hop
          · exact Tri.panic hi
        · exact Tri.pure hi hop
        · exact Tri.pure hi hop
        · refine Tri.bind (getTypeByName_tri hi f typ) fun o1 r1 t _ hx1 hi1 hq1 => ?_
          split
          · refine Tri.bind (firstKid_tri hi1 (GoodW.rooted (hq1.1 _ rfl).2)) fun o2 r2 x _ hx2 hi2 hq2 => ?_
            split
            · obtain ⟨_, _, h1, h2⟩ := hq2 _ rfl
              cases h1
              exact Tri.pure hi2 ⟨(hx1.trans hx2).optOK hop, h2⟩
            · exact Tri.panic hi2
          · next mp =>
            refine Tri.bind (buildItems_tri F _ om hi1 (GoodW.rooted (hq1.1 _ rfl).2)) fun o2 r2 items _ hx2 hi2 hq2 => ?_
            exact Tri.pure hi2 ⟨(hx1.trans hx2).optOK hop, hq2⟩
          · exact Tri.panic hi1
    · exact Tri.panic hi
theorem buildArray_tri (F : FloatOps) (f : Ptr) : (ls : List Literal) → ∀ {o r}, Inv o r →
    Tri o r (buildArray F f ls) GoodVals
  | [], o, r, hi => by unfold buildArray; exact Tri.pure hi trivial
  | l :: ls, o, r, hi => by
    unfold buildArray
    refine Tri.bind (buildFromLiteral_tri F none f true l hi trivial) fun o1 r1 v _ hx1 hi1 hq1 => ?_
    refine Tri.bind (buildArray_tri F f ls hi1) fun o2 r2 vs _ hx2 hi2 hq2 => ?_
    exact Tri.pure hi2 ⟨hx2.goodVal v hq1, hq2⟩
theorem buildItems_tri (F : FloatOps) (m : Ptr) :
    (ls : List (Str × Literal)) → ∀ {o r}, Inv o r → Rooted r m → Tri o r (buildItems F m ls) GoodItems
  | [], o, r, hi, _ => by unfold buildItems; exact Tri.pure hi trivial
  | nl :: rest, o, r, hi, hm => by
    unfold buildItems
    refine Tri.bind (buildItem_tri F m nl hi hm) fun o1 r1 v _ hx1 hi1 hq1 => ?_
    refine Tri.bind (buildItems_tri F m rest hi1 (hx1.rooted hm)) fun o2 r2 vs _ hx2 hi2 hq2 => ?_
    exact Tri.pure hi2 ⟨hx2.goodItem v hq1, hq2⟩
theorem buildItem_tri (F : FloatOps) (m : Ptr) : (nl : Str × Literal) → ∀ {o r}, Inv o r → Rooted r m →
    Tri o r (buildItem F m nl) GoodItem
  | (name, lit), o, r, hi, hm => by
    unfold buildItem
    refine Tri.bind (firstKid_tri hi hm) fun o1 r1 x _ hx1 hi1 hq1 => ?_
    split
    · refine Tri.get ?_
      split
      · refine Tri.bind (buildFromLiteral_tri F none _ false lit hi1 trivial)
          fun o2 r2 v _ hx2 hi2 hq2 => ?_
        exact Tri.pure hi2 hq2
      · exact Tri.panic hi1
    · exact Tri.panic hi1
end

theorem optionValue_tri {o r} (hi : Inv o r) (F : FloatOps) {op : Ptr} (f : Ptr) (hu : Under r op) :
    Tri o r (Option.value F op f) GoodVal := by
  unfold Option.value
  refine Tri.get ?_
  split
  · next hk => exact buildFromLiteral_tri F (some op) f false _ hi ⟨⟨_, _, hk⟩, hu⟩
  · exact Tri.panic hi

theorem goodVals_mem {o r} : ∀ {vs : List OptVal}, GoodVals o r vs → ∀ v ∈ vs, GoodVal o r v
  | [], _, v, h => by cases h
  | x :: xs, g, v, h => by
    cases h with
    | head => exact g.1
    | tail _ h => exact goodVals_mem g.2 v h

theorem goodItems_mem {o r} : ∀ {vs : List (Str × OptVal)}, GoodItems o r vs →
    ∀ v ∈ vs, GoodVal o r v.2
  | [], _, v, h => by cases h
  | (k, x) :: xs, g, v, h => by
    cases h with
    | head => exact g.1
    | tail _ h => exact goodItems_mem g.2 v h

theorem parts_good {o r} {v : OptVal} (g : GoodVal o r v) : ∀ n ∈ v.parts, Good o r n := by
  intro n hn
  cases v with
  | enum p l a q =>
    simp only [OptVal.parts, List.mem_singleton] at hn
    subst hn; exact g.2
  | array p vs =>
    simp only [OptVal.parts, List.mem_map] at hn
    obtain ⟨v, h1, rfl⟩ := hn
    exact goodVals_mem g.2 v h1
  | map p l items =>
    simp only [OptVal.parts, List.mem_map] at hn
    obtain ⟨v, h1, rfl⟩ := hn
    exact goodItems_mem g.2 v h1
  | _ => simp [OptVal.parts] at hn

/-! ### Parents, files, positions -/

theorem parent_file {p q : Ptr} (h : p.parent = .at q) : q.file = p.file := by
  unfold Ptr.parent at h
  split at h
  · cases h
  · cases h; rfl

theorem wrapParent_good {o r} (hi : Inv o r) {p : Ptr} (hp : Under r p) :
    Tri o r (wrap p.parent) GoodO :=
  wrap_good hi (by
    intro q hq
    unfold Ptr.parent at hq
    unfold Under at hp
    split at hq
    · cases hq
    · next i t e =>
      cases hq
      rw [e] at hp
      exact hp.1.under)

theorem isOptionAt_file {r p} (h : IsOptionAt r p) : p.file < r.heap.length := by
  obtain ⟨_, _, h⟩ := h; exact kind_file h

theorem goodVal_opt {o r} {v : OptVal} (g : GoodVal o r v) : OptOK r v.opt := by
  cases v <;> first | exact g | exact g.1

theorem nodeParent_tri {o r} (hi : Inv o r) : (n : Node) → Good o r n →
    Tri o r (nodeParent n) GoodO
  | .repeated a (some t), g => by
    unfold nodeParent
    exact nodeParent_tri hi t g.2.2
  | .repeated a none, _ => Tri.panic hi
  | .wrapped a k p, g => by
    have hp := (GoodW.rooted g).under
    unfold nodeParent
    refine Tri.get ?_
    cases k <;> first | exact wrapParent_good hi hp | skip
    · exact Tri.pure hi (by intro x hx; cases hx)
    · simp only
      split <;> first | exact wrapParent_good hi hp | exact Tri.panic hi
  | .oneof a p, g => wrapParent_good hi g.2.2.under
  | .option a p c f, g => wrapParent_good hi g.2.1.2
  | .value v, g => by
    unfold nodeParent
    have := goodVal_opt g
    split
    · next q hq =>
      rw [hq] at this
      exact wrap_good hi (by intro x hx; cases hx; exact this.2)
    · exact wrap_good hi (by intro x hx; cases hx)
  | .map _ _, _ => Tri.panic hi
  | .builtin _, _ => Tri.panic hi
  | .mapItem _ _, _ => Tri.panic hi

theorem nodeHierarchy_tri : ∀ (fuel : Nat) {o r}, Inv o r → ∀ {x : Option Node}, GoodO o r x →
    Tri o r (nodeHierarchy fuel x) (fun o' r' ns => ∀ n ∈ ns, Good o' r' n) := by
  intro fuel
  induction fuel with
  | zero =>
    intro o r hi x g
    cases x with
    | none => exact Tri.pure hi (by simp)
    | some n => exact ⟨o, Ext.refl _ _, hi, by intro a ha; cases ha⟩
  | succ fuel ih =>
    intro o r hi x g
    cases x with
    | none => exact Tri.pure hi (by simp)
    | some n =>
      unfold nodeHierarchy
      refine Tri.bind (nodeParent_tri hi n (g n rfl)) fun o1 r1 y _ hx1 hi1 hq1 => ?_
      refine Tri.bind (ih hi1 hq1) fun o2 r2 ns _ hx2 hi2 hq2 => Tri.pure hi2 ?_
      intro m hm
      cases hm with
      | head => exact (hx1.trans hx2).good n (g n rfl)
      | tail _ h => exact hq2 m h

theorem Rd.elemPos (p) : Rd (elemPos p) := by unfold Protoast.elemPos; rd
theorem Rd.filePos (p) : Rd (filePos p) := by unfold Protoast.filePos; rd

theorem Rd.nodePos : (n : Node) → Rd (nodePos n)
  | .repeated _ (some t) => by
    have := Rd.nodePos t
    unfold Protoast.nodePos; rd
  | .repeated _ none => by unfold Protoast.nodePos; rd
  | .wrapped _ k p => by
    cases k <;> first | exact Rd.filePos p | exact Rd.elemPos p
  | .option _ p _ _ => Rd.elemPos p
  | .oneof _ p => Rd.elemPos p
  | .map _ p => Rd.elemPos p
  | .builtin _ => Rd.pure _
  | .mapItem _ _ => Rd.panic _
  | .value v => by
    unfold Protoast.nodePos
    split
    · exact Rd.elemPos _
    · exact Rd.panic _

theorem Rd.posBody (n : Node) : Rd (posBody n) := by
  unfold Protoast.posBody
  split
  · exact Rd.filePos _
  · exact Rd.elemPos _
  · exact Rd.elemPos _
  · exact Rd.elemPos _
  · exact Rd.elemPos _
  · rd
  · rd
  · rd
  · rd

theorem nodeFile_tri {o r} (hi : Inv o r) (n : Node) : Tri o r (nodeFile n) GoodO := by
  unfold nodeFile
  refine Tri.bind (Tri.rd (Rd.nodePos n) hi) fun o1 r1 ps _ hx1 hi1 _ => ?_
  refine Tri.get ?_
  split
  · exact Tri.pure hi1 (by intro x hx; cases hx)
  · next i hp =>
    obtain ⟨f, hf, _⟩ := hi1.protosHeap _ _ hp
    exact wrapSome_good hi1 (rooted_file (List.getElem?_eq_some_iff.mp hf).1).under

theorem Rd.lastFile : (l : List Node) → Rd (lastFile l)
  | [] => Rd.panic _
  | [n] => by
    unfold Protoast.lastFile
    split
    · rd
    · rd
    · rd
    · next h => simp at h
  | _ :: b :: rest => by
    rw [Protoast.lastFile]
    exact Rd.lastFile (b :: rest)

theorem Rd.fileName (p) : Rd (File.name p) := by unfold File.name; rd

theorem posDefer_tri {o r} (hi : Inv o r) {fuel : Nat} {n : Node} (g : Good o r n) (ps : Position) :
    Tri o r (posDefer fuel n ps) (fun _ _ _ => True) := by
  unfold posDefer
  split
  · exact Tri.pure hi trivial
  · refine Tri.bind (nodeHierarchy_tri fuel hi (x := some n) (by intro x hx; cases hx; exact g))
      fun o1 r1 ns _ hx1 hi1 _ => ?_
    refine Tri.bind (Tri.rd (Rd.lastFile ns) hi1) fun o2 r2 f _ _ hi2 _ => ?_
    exact Tri.bind (Tri.rd (Rd.fileName f) hi2) fun o3 r3 _ _ _ hi3 _ => Tri.pure hi3 trivial

theorem pos_tri {o r} (hi : Inv o r) {fuel : Nat} {n : Node} (g : Good o r n) :
    Tri o r (pos fuel n) (fun _ _ _ => True) := by
  have hb := (Rd.posBody n).same r
  unfold Tri pos
  rcases hr : posBody n r with ⟨res, r'⟩
  rw [hr] at hb
  simp only at hb
  subst hb
  cases res with
  | ok a => exact posDefer_tri hi g a
  | panic p =>
    obtain ⟨o', h1, h2, _⟩ := posDefer_tri (fuel := fuel) hi g {}
    simp only
    rcases hd : posDefer fuel n {} r' with ⟨res, r''⟩
    rw [hd] at h1 h2
    cases res <;> exact ⟨o', h1, h2, fun _ _ => trivial⟩
  | timeout => exact ⟨o, Ext.refl _ _, hi, fun _ _ => trivial⟩

theorem Rd.nodeIndex (n) : Rd (nodeIndex n) := by unfold Protoast.nodeIndex; rd
theorem Rd.comment (n) : Rd (comment n) := by unfold Protoast.comment; rd
theorem Rd.typeName : (n : Node) → Rd (typeName n)
  | .repeated _ (some t) => by
    have := Rd.typeName t
    unfold Protoast.typeName; rd
  | .repeated _ none => by unfold Protoast.typeName; rd
  | .wrapped _ _ _ | .option _ _ _ _ | .oneof _ _ | .map _ _ | .builtin _ | .value _
  | .mapItem _ _ => by unfold Protoast.typeName; rd
theorem Rd.mapKey (p) : Rd (Map.key p) := by unfold Map.key; rd
theorem Rd.nodeDescription : (n : Node) → Rd (nodeDescription n)
  | .repeated _ (some t) => by
    have := Rd.nodeDescription t
    unfold Protoast.nodeDescription; rd
  | .repeated _ none => by unfold Protoast.nodeDescription; rd
  | .map _ p => by
    have := Rd.mapKey p
    unfold Protoast.nodeDescription; rd
  | .wrapped _ _ _ | .option _ _ _ _ | .oneof _ _ | .builtin _ | .value _
  | .mapItem _ _ => by unfold Protoast.nodeDescription; rd
theorem Rd.typeIsDefined (n s) : Rd (typeIsDefined n s) := by unfold Protoast.typeIsDefined; rd
theorem Rd.goPackageOption (n) : Rd (goPackageOption n) := by unfold Protoast.goPackageOption; rd
theorem Rd.optionName (a b c) : Rd (Option.name a b c) := by unfold Option.name; rd
theorem Rd.goPackageBody (s a) : Rd (goPackageBody s a) := by
  unfold Protoast.goPackageBody
  split
  · refine Rd.bind (Rd.optionName _ _ _) fun _ => ?_
    split
    · exact Rd.pure _
    · exact Rd.bind (Rd.goPackageOption _) fun _ => Rd.pure _
  · exact Rd.pure _

theorem optionIs_tri {o r} (hi : Inv o r) {f : Ptr} (hf : Under r f) (s : Str) :
    Tri o r (Option.is f s) (fun _ _ _ => True) := by
  unfold Option.is
  refine Tri.bind (wrap_good hi (v := .at f) (by intro x hx; cases hx; exact hf))
    fun o1 r1 x _ _ hi1 _ => ?_
  cases x with
  | none => exact Tri.pure hi1 trivial
  | some n =>
    exact Tri.bind (Tri.rd (Rd.nodeIndex n) hi1) fun o2 r2 _ _ _ hi2 _ => Tri.pure hi2 trivial

theorem runSteps_tri {α σ} {body : σ → α → M (σ × Bool)} {Q : Ghost → Reg → α → Prop} :
    ∀ (steps : List (M α)) {o r}, Inv o r →
      (∀ m ∈ steps, ∀ o' r', Ext o r o' r' → Inv o' r' → Tri o' r' m Q) →
      (∀ s a o' r', Ext o r o' r' → Inv o' r' → Q o' r' a → Tri o' r' (body s a) fun _ _ _ => True) →
      ∀ s, Tri o r (runSteps body steps s) (fun _ _ _ => True) := by
  intro steps
  induction steps with
  | nil => intro o r hi _ _ s; exact Tri.pure hi trivial
  | cons m ms ih =>
    intro o r hi hm hb s
    unfold runSteps
    refine Tri.bind (hm m (by simp) o r (Ext.refl _ _) hi) fun o1 r1 a _ hx1 hi1 hq1 => ?_
    refine Tri.bind (hb s a o1 r1 hx1 hi1 hq1) fun o2 r2 x _ hx2 hi2 _ => ?_
    have hx := hx1.trans hx2
    rcases x with ⟨s', go⟩
    cases go with
    | false => exact Tri.pure hi2 trivial
    | true =>
      exact ih hi2 (fun m hm' o' r' hx' hi' => hm m (by simp [hm']) o' r' (hx.trans hx') hi')
        (fun s a o' r' hx' hi' hq => hb s a o' r' (hx.trans hx') hi' hq) s'

theorem goPackage_tri {o r} (hi : Inv o r) (n : Node) :
    Tri o r (goPackage n) (fun _ _ _ => True) := by
  unfold goPackage
  refine Tri.bind (nodeFile_tri hi n) fun o1 r1 f _ hx1 hi1 hq1 => ?_
  split
  · rename_i p _
    have hp : Rooted r1 p := GoodW.rooted (hq1 _ rfl)
    have hrun : Tri o1 r1 (Seq.run (File.everything p) goPackageBody none) (fun _ _ _ => True) := by
      unfold Seq.run
      refine Tri.bind (Q := fun o' r' steps => o' = o1 ∧ r' = r1 ∧
        ∀ m ∈ steps, ∃ q e, (q, e) ∈ r1.kids p ∧ everythingStep registryOptionsFile q e.kind = some m)
        ?_ ?_
      · refine ⟨o1, Ext.refl _ _, hi1, ?_⟩
        intro steps hs
        exact ⟨rfl, overKids_steps (r' := (File.everything p r1).2) (by rw [← hs]; rfl)⟩
      · intro o' r' steps _ _ _ hq
        obtain ⟨rfl, rfl, hst⟩ := hq
        refine runSteps_tri (Q := GoodO) steps hi1 ?_ ?_ none
        · intro m hm o'' r'' hx hi'
          obtain ⟨q, e, h1, h2⟩ := hst m hm
          exact everythingStep_tri hi' (hx.under (kids_under hp h1)) h2
        · intro s a o'' r'' _ hi' _
          exact (Tri.rd (Rd.goPackageBody s a) hi').true
    refine Tri.bind hrun fun o2 r2 x _ _ hi2 _ => ?_
    cases x <;> exact Tri.pure hi2 trivial
  · exact Tri.pure hi1 trivial

/-! ### All queries -/

theorem iterRun_tri {o r} (hi : Inv o r) (q : IterQ) {n : Node} (g : Good o r n) (i : Nat) :
    Tri o r (q.run n i) GoodO := by
  have wr : ∀ {p : Ptr} {pick : Ptr → Kind → Option (M Node)}, Rooted r p →
      (∀ q k m, pick q k = some m → (∃ w, m = wrapAs w q) ∨ m = wrapNamed q) →
      Tri o r (Seq.nth (overKids p pick) i) GoodO := by
    intro p pick hp h
    refine nth_tri (Q := Good) hi fun q e m h1 h2 => ?_
    rcases h q e.kind m h2 with ⟨w, rfl⟩ | rfl
    · exact wrapAs_good hi (kids_under hp h1)
    · exact wrapNamed_good hi (kids_under hp h1)
  unfold IterQ.run
  split
  iterate 5
    · refine wr (by first | exact GoodW.rooted g | exact g.2.2) fun q k m h => ?_
      split at h <;> cases h <;> first | exact .inl ⟨_, rfl⟩ | exact .inr rfl
  · exact everything_nth_tri hi (GoodW.rooted g)
  iterate 3
    · refine wr (by first | exact GoodW.rooted g | exact g.2.2) fun q k m h => ?_
      split at h <;> cases h <;> first | exact .inl ⟨_, rfl⟩ | exact .inr rfl
  · exact everything_nth_tri hi (GoodW.rooted g)
  iterate 2
    · refine wr (by first | exact GoodW.rooted g | exact g.2.2) fun q k m h => ?_
      split at h <;> cases h <;> first | exact .inl ⟨_, rfl⟩ | exact .inr rfl
  · exact everything_nth_tri hi (GoodW.rooted g)
  iterate 2
    · refine wr (by first | exact GoodW.rooted g | exact g.2.2) fun q k m h => ?_
      split at h <;> cases h <;> first | exact .inl ⟨_, rfl⟩ | exact .inr rfl
  · exact everything_nth_tri hi (GoodW.rooted g)
  · refine (nth_tri (Q := Good) hi fun q e m h1 h2 => ?_).mono fun _ _ _ _ _ _ h => h
    split at h2
    · cases h2
      refine Tri.bind (optionClass_tri hi _) fun o' r' cls _ _ _ hcl => ?_
      obtain ⟨rfl, rfl, hcl⟩ := hcl
      exact wrapOption_tri hi hcl (kids_under (GoodW.rooted g) h1)
    · cases h2
  · exact options_nth_tri hi g
  · exact Tri.pure hi (by intro x hx; cases hx)

theorem namedRun_tri {o r} (hi : Inv o r) (q : NamedQ) {n : Node} (g : Good o r n) (s : Str) :
    Tri o r (q.run n s) GoodO := by
  unfold NamedQ.run
  split
  · exact firstKid_good hi (by first | exact GoodW.rooted g | exact g.2.2)
  · exact firstKid_good hi (by first | exact GoodW.rooted g | exact g.2.2)
  · exact fileTypeByName_tri hi (GoodW.rooted g)
  · exact firstKid_good hi (by first | exact GoodW.rooted g | exact g.2.2)
  · exact firstKid_good hi (by first | exact GoodW.rooted g | exact g.2.2)
  · exact firstKid_good hi (by first | exact GoodW.rooted g | exact g.2.2)
  · exact messageTypeByName_tri hi (GoodW.rooted g)
  · exact firstKid_good hi (by first | exact GoodW.rooted g | exact g.2.2)
  · exact firstKid_good hi (by first | exact GoodW.rooted g | exact g.2.2)
  · exact firstKid_good hi (by first | exact GoodW.rooted g | exact g.2.2)
  · exact firstKid_good hi (by first | exact GoodW.rooted g | exact g.2.2)
  · exact optionNamed_tri hi g
  · exact Tri.pure hi (by intro x hx; cases hx)

/-- All received handles are live. -/
def GoodL (o : Ghost) (r : Reg) (ns : List Node) : Prop := ∀ n ∈ ns, Good o r n

theorem goodL_toList {o r x} (h : GoodO o r x) : GoodL o r x.toList := by
  intro n hn
  cases x with
  | none => simp at hn
  | some y => simp at hn; subst hn; exact h _ rfl

theorem Tri.toList {m : M (Option Node)} {o r} {Q} (h : Tri o r m Q)
    (hq : ∀ o r x, Q o r x → GoodO o r x) :
    Tri o r (m >>= fun x => Pure.pure x.toList) GoodL :=
  Tri.bind h fun _ _ _ _ _ hi hx => Tri.pure hi (goodL_toList (hq _ _ _ hx))

theorem Tri.nil {α} {m : M α} {o r} {Q} (h : Tri o r m Q) :
    Tri o r (m >>= fun _ => Pure.pure []) GoodL :=
  Tri.bind h fun _ _ _ _ _ hi _ => Tri.pure hi (by intro n hn; cases hn)

theorem goodT_O {o r x} (h : GoodT o r x) : GoodO o r x := fun n hn => (h n hn).2

theorem plainRun_tri {o r} (hi : Inv o r) (q : PlainQ) {n : Node} (g : Good o r n) :
    Tri o r (q.run n) GoodL := by
  unfold PlainQ.run
  split
  · exact Tri.toList (fieldType_tri hi g) fun _ _ _ h => goodT_O h.1
  · exact Tri.toList (branchType_tri hi _) fun _ _ _ h => goodT_O h
  · refine Tri.bind (methodInput_tri hi _) fun _ _ _ _ _ hi hx => Tri.pure hi ?_
    intro n hn; simp at hn; subst hn; exact hx
  · refine Tri.bind (methodOutput_tri hi _) fun _ _ _ _ _ hi hx => Tri.pure hi ?_
    intro n hn; simp at hn; subst hn; exact hx
  · refine Tri.bind (mapKey_tri hi _) fun _ _ _ _ _ hi hx => Tri.pure hi ?_
    intro n hn; simp at hn; subst hn; exact hx
  · refine Tri.bind (mapValue_tri hi _) fun _ _ _ _ _ hi hx => Tri.pure hi ?_
    intro n hn; simp at hn; subst hn; exact hx
  · next t =>
    refine Tri.pure hi ?_
    cases t with
    | none => intro n hn; simp at hn
    | some t => intro n hn; simp at hn; subst hn; exact g.2.2
  · refine Tri.bind (optionValue_tri hi _ _ g.2.1.2) fun _ _ _ _ _ hi hx => Tri.pure hi ?_
    intro n hn; simp at hn; subst hn; exact hx
  · exact Tri.pure hi (parts_good g)
  · refine Tri.pure hi ?_
    intro n hn; simp at hn; subst hn; exact g
  · exact Tri.toList (nodeParent_tri hi n g) fun _ _ _ h => h
  · exact nodeHierarchy_tri _ hi (by intro x hx; cases hx; exact g)
  · exact Tri.toList (nodeFile_tri hi n) fun _ _ _ h => h
  · exact Tri.nil (pos_tri hi g)
  · exact Tri.nil (Tri.rd (Rd.nodeIndex n) hi)
  · exact Tri.nil (Tri.rd (Rd.nodeDescription n) hi)
  · exact Tri.nil (Tri.rd (Rd.comment n) hi)
  · exact Tri.nil (Tri.rd (Rd.typeName n) hi)
  · exact Tri.nil (Tri.rd (Rd.typeIsDefined n _) hi)
  · exact Tri.nil (goPackage_tri hi n)
  · exact Tri.nil (Tri.rd (Rd.goPackageOption n) hi)
  · exact Tri.nil (optionIs_tri hi g.2.2.2.2 _)
  · exact Tri.nil (Tri.rd (Rd.optionName _ _ _) hi)
  · exact Tri.nil (Tri.rd (Rd.fileName _) hi)
  · exact Tri.nil (Tri.rd (m := Message.name _) (by unfold Message.name; rd) hi)
  · exact Tri.nil (Tri.rd (m := Enum.name _) (by unfold Enum.name; rd) hi)
  · exact Tri.nil (Tri.rd (m := EnumValue.name _) (by unfold EnumValue.name; rd) hi)
  · exact Tri.nil (Tri.rd (m := MessageField.name _) (by unfold MessageField.name; rd) hi)
  · exact Tri.nil (Tri.rd (m := OneOfBranch.name _) (by unfold OneOfBranch.name; rd) hi)
  · exact Tri.nil (Tri.rd (m := Service.name _) (by unfold Service.name; rd) hi)
  · exact Tri.nil (Tri.rd (m := Method.name _) (by unfold Method.name; rd) hi)
  · exact Tri.nil (Tri.rd (m := File.package _) (by unfold File.package; rd) hi)
  · exact Tri.nil (Tri.rd (m := Package.package _) (by unfold Package.package; rd) hi)
  · exact Tri.nil (Tri.rd (m := Message.isExtension _) (by unfold Message.isExtension; rd) hi)
  · exact Tri.nil (Tri.rd (m := MessageField.value _) (by unfold MessageField.value; rd) hi)
  · exact Tri.nil (Tri.rd (m := EnumValue.value _) (by unfold EnumValue.value; rd) hi)
  · exact Tri.nil (Tri.rd (m := OneOfBranch.value _) (by unfold OneOfBranch.value; rd) hi)
  · exact Tri.nil (Tri.rd (m := MessageField.optional _) (by unfold MessageField.optional; rd) hi)
  · exact Tri.nil (Tri.rd (m := Import.path _) (by unfold Import.path; rd) hi)
  · exact Tri.nil (Tri.rd (m := Syntax.value _) (by unfold Syntax.value; rd) hi)
  · exact Tri.nil (Tri.rd (m := Reserved.values _) (by unfold Reserved.values; rd) hi)
  · exact Tri.pure hi (by intro n hn; cases hn)

theorem queryRun_tri {o r} (hi : Inv o r) (q : Query) {n : Node} (g : Good o r n) :
    Tri o r (q.run n) GoodL := by
  unfold Query.run
  split
  · exact Tri.toList (iterRun_tri hi _ g _) fun _ _ _ h => h
  · exact Tri.toList (namedRun_tri hi _ g _) fun _ _ _ h => h
  · exact plainRun_tri hi _ g

theorem nodeByFullName_tri {o r} (hi : Inv o r) (s : Str) :
    Tri o r (nodeByFullName s) GoodO := by
  unfold nodeByFullName
  refine Tri.get ?_
  split
  · next p hp =>
    exact wrap_good hi (by intro x hx; cases hx; exact (hi.regRooted _ _ hp).under)
  · exact wrap_good hi (by intro x hx; cases hx)

theorem opRun_tri {o r} (hi : Inv o r) {pool : List Node} (g : GoodL o r pool) (op : Op) :
    Tri o r (op.run pool) GoodL := by
  cases op with
  | proto W fuel path =>
    refine Tri.bind (proto_tri (W := W) (fuel := fuel) (path := path) hi)
      fun o1 r1 x _ _ hi1 hq => ?_
    cases x with
    | error e => exact Tri.pure hi1 (by intro n hn; cases hn)
    | ok f =>
      refine Tri.pure hi1 ?_
      intro n hn; simp at hn; subst hn; exact (hq _ rfl).1
  | byName name => exact Tri.toList (nodeByFullName_tri hi name) fun _ _ _ h => h
  | query h q =>
    simp only [Op.run]
    cases hn : pool[h]? with
    | some n => exact queryRun_tri hi q (g n (List.mem_of_getElem? hn))
    | none => exact Tri.pure hi (by intro n hn; cases hn)

/-! ### Histories -/

theorem step_inv {o : Ghost} {c : Client} (hi : Inv o c.reg) (g : GoodL o c.reg c.pool) (op : Op) :
    ∃ o', Ext o c.reg o' (c.step op).reg ∧ Inv o' (c.step op).reg ∧
      GoodL o' (c.step op).reg (c.step op).pool := by
  obtain ⟨o', hx, hi', hq⟩ := opRun_tri hi g op
  have hg : GoodL o' (op.run c.pool c.reg).2 c.pool := fun n hn => hx.good n (g n hn)
  unfold Client.step
  rcases hr : op.run c.pool c.reg with ⟨res, r'⟩
  rw [hr] at hx hi' hq hg
  cases res with
  | ok ns =>
    refine ⟨o', hx, hi', ?_⟩
    intro n hn
    rcases List.mem_append.mp hn with h | h
    · exact hg n h
    · exact hq ns rfl n h
  | panic p => exact ⟨o', hx, hi', hg⟩
  | timeout => exact ⟨o', hx, hi', hg⟩

theorem exec_inv : ∀ (ops : List Op) {o : Ghost} {c : Client}, Inv o c.reg → GoodL o c.reg c.pool →
    ∃ o', Ext o c.reg o' (c.exec ops).reg ∧ Inv o' (c.exec ops).reg ∧
      GoodL o' (c.exec ops).reg (c.exec ops).pool := by
  intro ops
  induction ops with
  | nil => intro o c hi g; exact ⟨o, Ext.refl _ _, hi, g⟩
  | cons op ops ih =>
    intro o c hi g
    obtain ⟨o1, h1, h2, h3⟩ := step_inv hi g op
    obtain ⟨o2, h4, h5, h6⟩ := ih h2 h3
    exact ⟨o2, h1.trans h4, h5, h6⟩

/-- Every reachable client satisfies the invariant. -/
theorem reachable_inv {P c} (h : Reachable P c) : ∃ o, Inv o c.reg ∧ GoodL o c.reg c.pool := by
  obtain ⟨W, fuel, r, ops, _, hn, _, rfl⟩ := h
  obtain ⟨o, hi⟩ := newRegistry_inv hn
  obtain ⟨o', _, h2, h3⟩ := exec_inv ops (c := ⟨r, []⟩) hi (by intro n hn; cases hn)
  exact ⟨o', h2, h3⟩

end Protoast
