import Verif.Proof.Settings
import Verif.Spec.Linter
import Verif.Props.Protoc
import Verif.Props.Exact
import Verif.Props.FieldType
import Verif.Props.Parents
import Verif.Proof.NewFiles
import Verif.Props.Meta
import Verif.Props.OptionsExact
import Verif.Proof.HeapSat
/-
  The steps of the linter of the README, followed through a history of calls.
-/
namespace Protoast.Props
open Protoast Protoast.Readme

theorem lint_clean {c} (h : CleanReachable LintFile c) : CleanReachable WFFile c :=
  clean_mono (fun _ _ h => h.1.1) h
theorem lint_plain {c} (h : CleanReachable LintFile c) : CleanReachable WFPlain c :=
  clean_mono (fun _ _ h => h.1) h
theorem lint_positioned {c} (h : CleanReachable LintFile c) : Reachable Positioned c :=
  clean_reachable (clean_mono (fun _ _ h => h.2) h)

/-! ### From the final registry to an earlier one -/

theorem later_declared {r R : Reg} (h : Later r R) {x : Str} {p : Ptr} (hd : Declared r x p) : Declared R x p := by
  obtain ⟨f, hf, hq⟩ := hd
  refine ⟨f, ?_, hq⟩
  rw [h.file (List.getElem?_eq_some_iff.mp hf).1, hf]

theorem declared_file {r : Reg} {x : Str} {p : Ptr} (hd : Declared r x p) : p.file < r.heap.length := by
  obtain ⟨f, hf, hq⟩ := hd
  exact (List.getElem?_eq_some_iff.mp hf).1

theorem declared_earlier {r R : Reg} (h : Later r R) {x : Str} {p : Ptr} (hp : p.file < r.heap.length)
    (hd : Declared R x p) : Declared r x p := by
  obtain ⟨f, hf, hq⟩ := hd
  exact ⟨f, by rw [← h.file hp, hf], hq⟩

theorem declaresType_earlier {r R : Reg} (h : Later r R) {p : Ptr} (hp : p.file < r.heap.length) :
    DeclaresType R p ↔ DeclaresType r p := by
  unfold DeclaresType
  rw [h.kind hp]

theorem aggregate_later {r R : Reg} (h : Later r R) {x : Str} (ha : Aggregate r x) : Aggregate R x := by
  rcases ha with h0 | ⟨i, f, hf, h1, h2⟩ | ⟨p, n, hd, hk⟩
  · exact .inl h0
  · exact .inr (.inl ⟨i, f, by rw [h.file (List.getElem?_eq_some_iff.mp hf).1, hf], h1, h2⟩)
  · refine .inr (.inr ⟨p, n, later_declared h hd, ?_⟩)
    rw [h.kind (declared_file hd)]
    exact hk

theorem protocType_earlier {r R : Reg} (h : Later r R) {D t : Str} {q : Ptr} (hq : q.file < r.heap.length)
    (hp : ProtocType R D t q) : ProtocType r D t q := by
  unfold ProtocType at hp ⊢
  split
  · next ht =>
    rw [if_pos ht] at hp
    exact ⟨declared_earlier h hq hp.1, (declaresType_earlier h hq).mp hp.2⟩
  · next ht =>
    rw [if_neg ht] at hp
    obtain ⟨s', h1, h2, h3, h4⟩ := hp
    refine ⟨s', h1, declared_earlier h hq h2, (declaresType_earlier h hq).mp h3, ?_⟩
    intro s'' h5 h6
    have := h4 s'' h5 h6
    split
    · next hd => rw [if_pos hd] at this; exact fun ha => this (aggregate_later h ha)
    · next hd =>
      rw [if_neg hd] at this
      intro q' hq' ht'
      exact this q' (later_declared h hq') ((declaresType_earlier h (declared_file hq')).mpr ht')

theorem unique_earlier {r R : Reg} (h : Later r R) (hu : UniqueNames R) : UniqueNames r :=
  fun x p q h1 h2 => hu x p q (later_declared h h1) (later_declared h h2)

theorem clash_earlier {r R : Reg} (h : Later r R) (hc : NoPackageClash R) : NoPackageClash r := by
  rintro x p hd ⟨i, f, hf, h1, h2⟩
  exact hc x p (later_declared h hd) ⟨i, f, by rw [h.file (List.getElem?_eq_some_iff.mp hf).1, hf], h1, h2⟩

theorem onlyTypes_earlier {r R : Reg} (h : Later r R) {D t} (ho : OnlyTypes R D t) : OnlyTypes r D t :=
  fun s' hs q hd => (declaresType_earlier h (declared_file hd)).mp (ho s' hs q (later_declared h hd))

/-- Everything a loaded file imports is loaded. -/
theorem reach_earlier {c R} (hc : CleanReachable WFFile c) (h : Later c.reg R) {a b : Str}
    (hr : ImportReach R a b) : (c.reg.protos a).isSome = true → (c.reg.protos b).isSome = true := by
  obtain ⟨o, hi, _⟩ := reachable_inv (clean_reachable hc)
  induction hr with
  | refl => exact id
  | step _ himp ih =>
    intro ha
    obtain ⟨i, hi'⟩ := Option.isSome_iff_exists.mp (ih ha)
    obtain ⟨j, f, hj, hf, hm⟩ := himp
    rw [h.protos _ _ hi'] at hj
    cases hj
    obtain ⟨g, hg, _⟩ := hi.protosHeap _ _ hi'
    have hlt := (List.getElem?_eq_some_iff.mp hg).1
    rw [h.file hlt] at hf
    exact (clean_complete hc _ _ (Nat.zero_le _) hf).imports _ hm

theorem visible_earlier {c R} (hc : CleanReachable WFFile c) (h : Later c.reg R) {p q : Ptr}
    (hp : p.file < c.reg.heap.length) (hv : Visible R p q) : q.file < c.reg.heap.length := by
  obtain ⟨f, path, h1, h2, h3⟩ := hv
  obtain ⟨o, hi, _⟩ := reachable_inv (clean_reachable hc)
  rw [h.file hp] at h1
  have hin := hi.heapProtos _ _ h1
  obtain ⟨j, hj⟩ := Option.isSome_iff_exists.mp (reach_earlier hc h h2 (by rw [hin]; rfl))
  have := h.protos _ _ hj
  rw [h3] at this
  cases this
  obtain ⟨g, hg, _⟩ := hi.protosHeap _ _ hj
  exact (List.getElem?_eq_some_iff.mp hg).1

/-! ### Calls -/

theorem clean_query {P c n q ns r'} (h : CleanReachable P c) (hn : n ∈ c.pool) (e : Query.run q n c.reg = (.ok ns, r')) :
    CleanReachable P ⟨r', c.pool ++ ns⟩ := by
  obtain ⟨i, hi⟩ := List.mem_iff_getElem?.mp hn
  have := clean_exec h [.query i q] (by simp [Op.Sat]) ⟨trivial, trivial⟩
  have he : c.exec [.query i q] = ⟨r', c.pool ++ ns⟩ := by
    simp [Client.exec, Client.step, Op.run, hi, e]
  rw [he] at this
  exact this

/-- What protoc says about a reference in the final registry determines what it refers to now. -/
theorem refers_now {c R p kd D n t q} (hc : CleanReachable LintFile c) (h : Later c.reg R) (hv : Valid R)
    (hp : p.file < c.reg.heap.length) (hk : R.kind p = some kd) (hkr : Kind.refers kd = true)
    (hname : kd.declName = some n) (hd : Declared R (D ++ dot :: n) p) (hq : ProtocType R D t q)
    (hql : q.file < c.reg.heap.length) (honly : dot ∉ t → OnlyTypes R D t) :
    Refers c.reg (c.reg.scope (.at p)) t q :=
  protoc_refers (lint_plain hc) (unique_earlier h hv.unique) (clash_earlier h hv.clash) (by rw [← h.kind hp]; exact hk)
    hkr hname (declared_earlier h hp hd) (protocType_earlier h hql hq) fun hdot => onlyTypes_earlier h (honly hdot)

/-- The files of the final registry `R`, seen from a state of the linter: a client that loads without panics, has the
    status type at `st` as `sa`, and in whose registry the remembered field types are right. -/
structure Tracks (R : Reg) (sa : Nat) (st : Ptr) (c : Client) : Prop where
  clean : CleanReachable LintFile c
  status : Node.wrapped sa .message st ∈ c.pool
  types : ∀ a t, c.reg.ftcache a = some t → ∃ p, Node.wrapped a .messageField p ∈ c.pool ∧
    (isStatus sa t = true ↔ OfType R st p)

theorem Tracks.query {R sa st c n q ns r'} (h : Tracks R sa st c) (hn : n ∈ c.pool) (hq : q ≠ .plain .fieldType)
    (e : Query.run q n c.reg = (.ok ns, r')) : Tracks R sa st ⟨r', c.pool ++ ns⟩ := by
  refine ⟨clean_query h.clean hn e, List.mem_append_left _ h.status, ?_⟩
  intro a t ht
  have hk := (NK.queryRun (R := SameFt a) q n fun _ _ h1 _ => absurd h1 hq).ext c.reg
  rw [e] at hk
  have hk' : r'.ftcache a = c.reg.ftcache a := hk
  simp only [hk'] at ht
  obtain ⟨p, h1, h2⟩ := h.types a t ht
  exact ⟨p, List.mem_append_left _ h1, h2⟩

theorem pool_file {P c n p} (hr : Reachable P c) {a k} (h : n = Node.wrapped a k p) (hn : n ∈ c.pool) :
    p.file < c.reg.heap.length := by
  obtain ⟨o, _, hg⟩ := reachable_inv hr
  subst h
  exact (GoodW.rooted (hg _ hn)).file

theorem declared_same {r : Reg} {x y : Str} {p : Ptr} (h : Declared r x p) (g : Declared r y p) : x = y := by
  obtain ⟨f, hf, hx⟩ := h
  obtain ⟨f', hf', hy⟩ := g
  rw [hf] at hf'
  cases hf'
  rw [hx] at hy
  simpa using hy

theorem scope_same {r : Reg} {D D' n : Str} {p : Ptr} (h : Declared r (D ++ dot :: n) p)
    (g : Declared r (D' ++ dot :: n) p) : D = D' := List.append_cancel_right (declared_same h g)

theorem type_entry {a p r t r'} (h : MessageField.type a p r = (.ok t, r')) : r'.ftcache a = some t := by
  unfold MessageField.type at h
  split at h
  · next ht => cases h; exact ht
  · rcases hb : fieldTypeBody p r with ⟨res, r1⟩
    rw [hb] at h
    cases res <;> cases h
    simp [upd]

/-- `Type` of a field in a state of the linter. -/
theorem Tracks.type {R sa st c a p D} (h : Tracks R sa st c) (hm : Node.wrapped a .messageField p ∈ c.pool)
    (hl : Later c.reg R) (hv : Valid R) (hd : ∀ n, HasName R p n → Declared R (D ++ dot :: n) p) :
    ∃ t r', MessageField.type a p c.reg = (.ok t, r') ∧ (isStatus sa t = true ↔ OfType R st p) ∧
      Tracks R sa st ⟨r', c.pool ++ t.toList⟩ := by
  have hr := clean_reachable h.clean
  have hp := pool_file hr rfl hm
  have hst := pool_file hr rfl h.status
  suffices hs : ∃ t r', MessageField.type a p c.reg = (.ok t, r') ∧ (isStatus sa t = true ↔ OfType R st p) by
    obtain ⟨t, r', h1, h2⟩ := hs
    refine ⟨t, r', h1, h2, ?_⟩
    have hq : Query.run (.plain .fieldType) (.wrapped a .messageField p) c.reg = (.ok t.toList, r') := by
      simp [Query.run, PlainQ.run, h1]
    refine ⟨clean_query h.clean hm hq, List.mem_append_left _ h.status, ?_⟩
    intro b t' hb
    by_cases hab : b = a
    · subst hab
      have := type_entry h1
      simp only [this, Option.some.injEq] at hb
      subst hb
      exact ⟨p, List.mem_append_left _ hm, h2⟩
    · have hk := (fieldType_sameFt (a := b) (b := a) hab p).ext c.reg
      rw [h1] at hk
      have hk' : r'.ftcache b = c.reg.ftcache b := hk
      simp only [hk'] at hb
      obtain ⟨p', g1, g2⟩ := h.types b t' hb
      exact ⟨p', List.mem_append_left _ g1, g2⟩
  cases hf : c.reg.ftcache a with
  | some t =>
    obtain ⟨p', h1, h2⟩ := h.types a t hf
    have := C25_different_nodes hr hm h1 (by simp [GoEq])
    cases this
    exact ⟨t, c.reg, by unfold MessageField.type; rw [hf], h2⟩
  | none =>
    obtain ⟨o, hi, hg⟩ := reachable_inv hr
    have noType : ∀ {kd}, c.reg.kind p = some kd → (∀ n t s opt, kd ≠ .normalField n t s false opt) → ¬ OfType R st p := by
      rintro kd hk hne ⟨n, t, s, opt, D', h1, _⟩
      rw [hl.kind hp, hk] at h1
      exact hne _ _ _ _ (Option.some.inj h1)
    rcases fieldKind_cases (hg _ hm).target with ⟨n, t, s, rep, opt, hk⟩ | ⟨n, hk⟩ | ⟨n, kt, t, s, hk⟩
    · have hkR : R.kind p = some (.normalField n t s rep opt) := by rw [hl.kind hp]; exact hk
      have hdR := hd n ⟨_, hkR, rfl⟩
      by_cases hkw : IsKeyword t
      · obtain ⟨b, hb⟩ := hkw
        obtain ⟨x, r', h1, h2⟩ := (C38_field hr hm hk).1 b hb
        refine ⟨_, r', h1, ?_⟩
        have hno : ¬ OfType R st p := by
          rintro ⟨n', t', s', opt', D', g1, _, g2, _⟩
          rw [hkR] at g1; cases g1
          exact g2 ⟨b, hb⟩
        simp only [hno, iff_false]
        unfold IsBuiltin at h2
        split at h2
        · obtain ⟨_, rfl⟩ := h2; simp [isStatus]
        · subst h2; simp [isStatus]
      · obtain ⟨⟨q, hq, hvis⟩, honly⟩ := hv.fields _ _ _ _ _ _ _ hkR hdR hkw
        have hqf := visible_earlier (lint_clean h.clean) hl hp hvis
        have hd' := declared_earlier hl hp hdR
        obtain ⟨a', k, r', hkk, hres⟩ := C66_field (lint_plain h.clean) (unique_earlier hl hv.unique)
          (clash_earlier hl hv.clash) hm hk hf hkw hd' (protocType_earlier hl hqf hq)
          (fun hdot => onlyTypes_earlier hl (honly hdot))
        cases rep with
        | true =>
          rw [if_pos rfl] at hres
          obtain ⟨a'', hres⟩ := hres
          refine ⟨_, r', hres, ?_⟩
          have hno := noType hk (by intro _ _ _ _ e; cases e)
          simp [isStatus, hno]
        | false =>
          rw [if_neg (by simp)] at hres
          refine ⟨_, r', hres, ?_⟩
          have hq2 : Query.run (.plain .fieldType) (.wrapped a .messageField p) c.reg =
              (.ok [.wrapped a' k q], r') := by simp [Query.run, PlainQ.run, hres]
          have hc2 := clean_reachable (clean_query h.clean hm hq2)
          have hm1 : Node.wrapped sa .message st ∈ (⟨r', c.pool ++ [.wrapped a' k q]⟩ : Client).pool :=
            List.mem_append_left _ h.status
          have hm2 : Node.wrapped a' k q ∈ (⟨r', c.pool ++ [.wrapped a' k q]⟩ : Client).pool := by simp
          have heq := C25_eq_iff_same_declaration hc2 hm1 hm2 (by simp)
          have h1 : isStatus sa (some (.wrapped a' k q)) = true ↔ st = q := by
            rw [← heq]
            constructor
            · intro hx; cases k <;> simp [isStatus] at hx
              exact ⟨rfl, hx.symm⟩
            · rintro ⟨rfl, rfl⟩; simp [isStatus]
          rw [h1]
          constructor
          · rintro rfl
            exact ⟨n, t, s, opt, D, hkR, hdR, hkw, hq⟩
          · rintro ⟨n', t', s', opt', D', g1, g2, g3, g4⟩
            rw [hkR] at g1; cases g1
            have := scope_same hdR g2
            subst this
            exact refers_unique (refers_now h.clean hl hv hp hkR rfl rfl hdR g4 hst honly)
              (refers_now h.clean hl hv hp hkR rfl rfl hdR hq hqf honly)
    · refine ⟨some (.oneof c.reg.next p), { c.reg with
        next := c.reg.next + 1, ftcache := upd c.reg.ftcache a (some (.oneof c.reg.next p)) }, ?_, ?_⟩
      · unfold MessageField.type fieldTypeBody
        rw [hf]
        simp only [M.bind_apply, M.get_apply, hk]
        rfl
      have hno := noType hk (by intro _ _ _ _ e; cases e)
      simp [isStatus, hno]
    · refine ⟨some (.map c.reg.next p), { c.reg with
        next := c.reg.next + 1, ftcache := upd c.reg.ftcache a (some (.map c.reg.next p)) }, ?_, ?_⟩
      · unfold MessageField.type fieldTypeBody
        rw [hf]
        simp only [M.bind_apply, M.get_apply, hk]
        rfl
      have hno := noType hk (by intro _ _ _ _ e; cases e)
      simp [isStatus, hno]

/-! ### Loops -/

/-- The states of a loop over the places `ps`, from `s` to `s'`. -/
inductive Chain {σ : Type} (T : Ptr → σ → σ → Prop) : List Ptr → σ → σ → Prop where
  | nil {s} : Chain T [] s s
  | cons {p ps s s1 s'} : T p s s1 → Chain T ps s1 s' → Chain T (p :: ps) s s'

theorem cacheExt_kids {r r' : Reg} (h : CacheExt r r') (p : Ptr) : r'.kids p = r.kids p := by
  unfold Reg.kids Reg.children
  rw [h.heap]

theorem loop_steps {R sa st} {σ : Type} {q : IterQ} {X p} {pick : Ptr → Kind → Option (M Node)} {sel}
    {T : Ptr → σ → σ → Prop} {body : σ → Node → M (σ × Bool)}
    (hq : ∀ i, IterQ.run q X i = Seq.nth (overKids p pick) i) (hw : Wraps pick sel) (hro : ∀ s n, RO (body s n))
    (hseq : ROSeq (overKids p pick))
    (hbody : ∀ s c a k p', Tracks R sa st c → X ∈ c.pool → Node.wrapped a k p' ∈ c.pool →
      (k, p') ∈ membersOf c.reg p sel → Later (body s (.wrapped a k p') c.reg).2 R →
      ∃ s' r' pool', body s (.wrapped a k p') c.reg = (.ok (s', true), r') ∧ Tracks R sa st ⟨r', pool'⟩ ∧
        c.pool ⊆ pool' ∧ T p' s s') :
    ∀ (l pre : List (Ptr × Elem)) c s, Tracks R sa st c → X ∈ c.pool → c.reg.kids p = pre ++ l → Rooted c.reg p →
      Later (runSteps body (stepsOf pick l) s c.reg).2 R →
      ∃ s' r' pool', runSteps body (stepsOf pick l) s c.reg = (.ok s', r') ∧ Tracks R sa st ⟨r', pool'⟩ ∧
        c.pool ⊆ pool' ∧
        Chain T ((l.filterMap fun x => (sel x.2.kind).map fun k => (k, x.1)).map (·.2)) s s' := by
  intro l
  induction l with
  | nil =>
    intro pre c s ht hX hk hroot hl
    exact ⟨s, c.reg, c.pool, rfl, ht, fun _ h => h, .nil⟩
  | cons x l ih =>
    intro pre c s ht hX hk hroot hl
    have hs := hw.2 x.1 x.2.kind
    rw [List.filterMap_cons]
    cases hsel : sel x.2.kind with
    | none =>
      rw [hsel] at hs
      rw [stepsOf_none hs] at hl ⊢
      simpa using ih (pre ++ [x]) c s ht hX (by simp [hk]) hroot hl
    | some k =>
      rw [hsel] at hs
      obtain ⟨m, hm, hok⟩ := hs
      rw [stepsOf_some hm] at hl ⊢
      obtain ⟨o, hi, hg⟩ := reachable_inv (clean_reachable ht.clean)
      have hmem : x ∈ c.reg.kids p := by rw [hk]; simp
      have hpres := present_kids hroot x hmem
      obtain ⟨a, o1, r1, e1, x1, i1, g1⟩ := hok o c.reg hi (target_of_elem hpres.1 (hw.1 _ _ hsel)) hpres.2
      have hsteps : ∀ y ∈ c.reg.kids p, ∀ m, pick y.1 y.2.kind = some m → RO m := fun y hy m hm =>
        hseq.2 c.reg (stepsOf pick (c.reg.kids p)) c.reg rfl m (List.mem_filterMap.mpr ⟨y, hy, hm⟩)
      have hc1 : CacheExt c.reg r1 := by
        have := (hsteps x hmem m hm).ext c.reg
        rw [e1] at this
        exact this
      have hrun : Query.run (.iter q (stepsOf pick pre).length) X c.reg = (.ok [.wrapped a k x.1], r1) := by
        have hst : (overKids p pick) c.reg = (.ok (stepsOf pick (c.reg.kids p)), c.reg) := rfl
        have hget : (stepsOf pick (c.reg.kids p))[(stepsOf pick pre).length]? = some m := by
          have : stepsOf pick (c.reg.kids p) = stepsOf pick pre ++ m :: stepsOf pick l := by
            rw [hk, ← stepsOf_some hm]
            unfold stepsOf
            rw [List.filterMap_append]
          rw [this, List.getElem?_append_right (Nat.le_refl _)]
          simp
        simp only [Query.run, hq, Seq.nth, M.bind_apply, hst, hget, e1, M.pure_apply, Option.toList]
      have t1 := ht.query hX (by simp) hrun
      have hmem1 : (k, x.1) ∈ membersOf r1 p sel := by
        rw [membersOf_kids, cacheExt_kids hc1, List.mem_filterMap]
        exact ⟨x, hmem, by simp [hsel]⟩
      have hb := hro s (.wrapped a k x.1)
      have hrest : ∀ s ms, (∀ m ∈ ms, RO m) → ∀ r, Later r (runSteps body ms s r).2 := by
        intro s ms hms r
        exact ((RO.runSteps hro ms hms s).ext r).later
      have hms : ∀ m ∈ stepsOf pick l, RO m := by
        intro m hm
        obtain ⟨y, hy', hy⟩ := List.mem_filterMap.mp hm
        exact hsteps y (by rw [hk]; simp [hy']) m hy
      have hl1 : Later (body s (.wrapped a k x.1) r1).2 R := by
        rcases hbe : body s (.wrapped a k x.1) r1 with ⟨res, r2⟩
        refine Later.trans ?_ hl
        simp only [runSteps, M.bind_apply, e1, hbe]
        cases res with
        | ok v =>
          simp only
          split
          · exact hrest _ _ hms _
          · exact Later.refl _
        | panic e => exact Later.refl _
        | timeout => exact Later.refl _
      obtain ⟨s1, r2, pool2, e2, t2, hsub, hT⟩ := hbody s ⟨r1, c.pool ++ [.wrapped a k x.1]⟩ a k x.1 t1
        (List.mem_append_left _ hX) (by simp) hmem1 hl1
      simp only at e2
      have hc2 : CacheExt r1 r2 := by
        have := hb.ext r1
        rw [e2] at this
        exact this
      have heq : runSteps body (m :: stepsOf pick l) s c.reg = runSteps body (stepsOf pick l) s1 r2 := by
        simp only [runSteps, M.bind_apply, e1, e2, if_true]
      rw [heq] at hl ⊢
      have hkids2 : r2.kids p = pre ++ x :: l := by
        rw [cacheExt_kids hc2, cacheExt_kids hc1, hk]
      have hroot2 : Rooted r2 p := by
        have := hc1.trans hc2
        unfold Rooted
        rw [this.heap]
        exact hroot
      obtain ⟨s', r', pool', h1, h2, h3, h4⟩ := ih (pre ++ [x]) ⟨r2, pool2⟩ s1 t2
        (hsub (List.mem_append_left _ hX)) (by simp [hkids2]) hroot2 hl
      refine ⟨s', r', pool', h1, h2, fun y hy => h3 (hsub (List.mem_append_left _ hy)), ?_⟩
      simp only [Option.map_some, List.map_cons]
      exact .cons hT h4

theorem loop_run {R sa st} {σ : Type} {q : IterQ} {X p seq sel}
    {T : Ptr → σ → σ → Prop} {body : σ → Node → M (σ × Bool)} (hshape : IterShape seq p sel) (hseq : ROSeq seq)
    (hq : ∀ i, IterQ.run q X i = Seq.nth seq i) (hro : ∀ s n, RO (body s n))
    (hbody : ∀ s c a k p', Tracks R sa st c → X ∈ c.pool → Node.wrapped a k p' ∈ c.pool →
      (k, p') ∈ membersOf c.reg p sel → Later (body s (.wrapped a k p') c.reg).2 R →
      ∃ s' r' pool', body s (.wrapped a k p') c.reg = (.ok (s', true), r') ∧ Tracks R sa st ⟨r', pool'⟩ ∧
        c.pool ⊆ pool' ∧ T p' s s') {c s} (ht : Tracks R sa st c) (hX : X ∈ c.pool) (hroot : Rooted c.reg p)
    (hl : Later (Seq.run seq body s c.reg).2 R) :
    ∃ s' r' pool', Seq.run seq body s c.reg = (.ok s', r') ∧ Tracks R sa st ⟨r', pool'⟩ ∧ c.pool ⊆ pool' ∧
      Chain T ((membersOf c.reg p sel).map (·.2)) s s' := by
  obtain ⟨pick, rfl, hw⟩ := hshape
  rw [membersOf_kids]
  exact loop_steps hq hw hro hseq hbody (c.reg.kids p) [] c s ht hX rfl hroot hl

/-! ### The body of the inner loop -/

theorem ro_lintField (fuel sa sp s n) : RO (lintField fuel sa sp s n) := by
  unfold lintField
  split
  · refine RO.bind (RO.fieldType _ _) fun t => ?_
    split
    · refine RO.bind ?_ fun nm => ?_
      · unfold MessageField.name; ro
      · split
        · exact RO.bind (RO.pos _ _) fun _ => RO.bind (RO.typeName _) fun _ => RO.pure _
        · exact RO.pure _
    · exact RO.pure _
  · exact RO.panic _

/-- What the inner loop does with a field. -/
def FieldStep (R : Reg) (st : Ptr) (tn : Str) (p : Ptr) (s s' : Bool × List Line) : Prop :=
  (OfType R st p ∧ ¬ HasName R p statusField ∧ ∃ x, sourcePos R p = some x ∧ s' = (s.1, s.2 ++ [.onlyStatus x tn])) ∨
  (OfType R st p ∧ HasName R p statusField ∧ s' = (true, s.2)) ∨
  (¬ OfType R st p ∧ s' = s)

theorem sourcePos_later {r R : Reg} (h : Later r R) {p : Ptr} (hp : p.file < r.heap.length) :
    sourcePos R p = sourcePos r p := by
  unfold sourcePos
  rw [h.file hp]

theorem membersOf_later {r R : Reg} (h : Later r R) {p : Ptr} (hp : p.file < r.heap.length) (sel) :
    membersOf R p sel = membersOf r p sel := by
  unfold membersOf
  rw [h.children hp]

theorem status_name {R sa st c tn} (h : Tracks R sa st c) (hl : Later c.reg R) (htn : Declared R tn st) :
    typeName (.wrapped sa .message st) c.reg = (.ok tn, c.reg) :=
  C42_partial (lint_clean h.clean) h.status
    (declared_earlier hl (pool_file (clean_reachable h.clean) rfl h.status) htn)

theorem field_step {R sa st c a p D tn fuel s} (h : Tracks R sa st c) (hv : Valid R)
    (hm : Node.wrapped a .messageField p ∈ c.pool) (hd : ∀ n, HasName R p n → Declared R (D ++ dot :: n) p)
    (htn : Declared R tn st) (hl : Later (lintField fuel sa st s (.wrapped a .messageField p) c.reg).2 R) :
    ∃ s' r' pool', lintField fuel sa st s (.wrapped a .messageField p) c.reg = (.ok (s', true), r') ∧
      Tracks R sa st ⟨r', pool'⟩ ∧ c.pool ⊆ pool' ∧ FieldStep R st tn p s s' := by
  have hlc : Later c.reg R := ((ro_lintField fuel sa st s _).ext c.reg).later.trans hl
  obtain ⟨t, r1, e1, h1, t1⟩ := h.type hm hlc hv hd
  have hm1 : Node.wrapped a .messageField p ∈ (⟨r1, c.pool ++ t.toList⟩ : Client).pool := List.mem_append_left _ hm
  have hsub : c.pool ⊆ c.pool ++ t.toList := fun _ h => List.mem_append_left _ h
  cases hst : isStatus sa t with
  | false =>
    have hno : ¬ OfType R st p := by rw [← h1, hst]; simp
    refine ⟨s, r1, _, ?_, t1, hsub, .inr (.inr ⟨hno, rfl⟩)⟩
    simp only [lintField, M.bind_apply, e1, hst]
    rfl
  | true =>
    have hof := h1.mp hst
    obtain ⟨n, ty, sq, opt, D', hk, hdn, _⟩ := id hof
    have hp := pool_file (clean_reachable h.clean) rfl hm
    have hp1 := pool_file (clean_reachable t1.clean) rfl hm1
    have hc1 : CacheExt c.reg r1 := by
      have := (RO.fieldType a p).ext c.reg
      rw [e1] at this
      exact this
    have hk1 : r1.kind p = some (.normalField n ty sq false opt) := by
      rw [hc1.later.kind hp, ← hlc.kind hp]
      exact hk
    have hname : MessageField.name p r1 = (.ok n, r1) := by
      simp only [MessageField.name, M.bind_apply, M.get_apply, hk1, M.pure_apply]
    have hnn : HasName R p statusField ↔ n = statusField := by
      constructor
      · rintro ⟨kd, g1, g2⟩
        rw [hk] at g1
        cases g1
        simpa [Kind.declName] using g2
      · rintro rfl
        exact ⟨_, hk, rfl⟩
    obtain ⟨x, f, hx, hx', _⟩ := (C37_partial (lint_positioned t1.clean)).1 _ hm1 p rfl fuel
    simp only at hx hx'
    by_cases hns : n = statusField
    · refine ⟨(true, s.2), r1, _, ?_, t1, hsub, .inr (.inl ⟨hof, hnn.mpr hns, rfl⟩)⟩
      have hns : n = mainStatusField := hns.trans mainStatusField_eq.symm
      simp only [lintField, M.bind_apply, e1, hst, hname, if_true, hns, ne_eq, not_true, if_false, M.pure_apply]
    · have hrun : lintField fuel sa st s (.wrapped a .messageField p) c.reg =
          (do
            let tn ← typeName (.wrapped sa .message st)
            (pure ((s.1, s.2 ++ [Line.onlyStatus x tn]), true) : M ((Bool × List Line) × Bool))) r1 := by
        have hns : ¬ n = mainStatusField := fun h => hns (h.trans mainStatusField_eq)
        simp only [lintField, M.bind_apply, e1, hst, hname, if_true, hns, ne_eq, not_false_eq_true, hx]
      have hlr : Later r1 R := by
        refine Later.trans ?_ hl
        rw [hrun]
        exact ((RO.bind (RO.typeName _) fun _ => RO.pure _).ext r1).later
      have htn1 := status_name t1 hlr htn
      simp only at htn1
      refine ⟨(s.1, s.2 ++ [.onlyStatus x tn]), r1, _, ?_, t1, hsub,
        .inl ⟨hof, fun g => hns (hnn.mp g), x, ?_, rfl⟩⟩
      · rw [hrun]
        simp only [M.bind_apply, htn1, M.pure_apply]
      · rw [sourcePos_later hlr hp1]
        exact hx'

theorem member_declared {R : Reg} {q p' : Ptr} {D n m : Str} {k sel} (hd : Declared R D q)
    (hk : R.kind q = some (.message n false) ∨ R.kind q = some (.service n)) (hmem : (k, p') ∈ membersOf R q sel)
    (hn : HasName R p' m) : Declared R (D ++ dot :: m) p' := by
  obtain ⟨f, hf, hq⟩ := hd
  rw [membersOf_kids, List.mem_filterMap] at hmem
  obtain ⟨⟨x, e⟩, hx, hsel⟩ := hmem
  obtain ⟨i, hi, hel⟩ := kids_mem hx
  simp only [Option.map_eq_some_iff, Prod.mk.injEq] at hsel
  obtain ⟨_, _, _, rfl⟩ := hsel
  subst hi
  have hname : e.kind.declName = some m := by
    obtain ⟨kd, h1, h2⟩ := hn
    simp only [Reg.kind, hel, Option.map_some, Option.some.injEq] at h1
    rw [h1]; exact h2
  refine ⟨f, hf, ?_⟩
  rcases q with ⟨qf, qp⟩
  cases qp with
  | nil => simp [ProtoFile.fqn] at hq
  | cons j rest =>
    simp only [Reg.elem, Ptr.child, hf, Option.bind_some] at hel
    have hscope : f.scopeAt (j :: rest) = some D := by
      simp only [ProtoFile.fqn] at hq
      simp only [ProtoFile.scopeAt]
      cases h1 : f.scopeAt rest with
      | none => rw [h1] at hq; cases hq
      | some s0 =>
        cases h2 : f.elemAt (j :: rest) with
        | none => rw [h1, h2] at hq; cases hq
        | some e0 =>
          rw [h1, h2] at hq
          simp only [Reg.kind, Reg.elem, hf, Option.bind_some, h2, Option.map_some, Option.some.injEq] at hk
          simp only
          simp only [Option.bind_some] at hq
          rcases hk with hk | hk <;> rw [hk] at hq ⊢ <;>
            simpa [Kind.declName, Kind.memberScope] using hq
    simp only [ProtoFile.fqn, Ptr.child, hscope, hel, Option.bind_some, hname]

theorem chain_fields {R st tn ps s s'} (h : Chain (FieldStep R st tn) ps s s') (htn : Declared R tn st) :
    ∃ ls, FieldLines R st ps ls ∧ s'.2 = s.2 ++ ls ∧
      (s'.1 = true ↔ s.1 = true ∨ ∃ p ∈ ps, OfType R st p ∧ HasName R p statusField) := by
  induction h with
  | nil => exact ⟨[], .nil, by simp, by simp⟩
  | @cons p ps s s1 s' h1 _ ih =>
    obtain ⟨ls, h2, h3, h4⟩ := ih
    rcases h1 with ⟨ho, hn, x, hx, rfl⟩ | ⟨ho, hn, rfl⟩ | ⟨ho, rfl⟩
    · refine ⟨_ :: ls, .wrong ho hn hx htn h2, by simp [h3], ?_⟩
      rw [h4]
      simp [hn]
    · refine ⟨ls, .fine (fun _ => hn) h2, h3, ?_⟩
      rw [h4]
      simp [ho, hn]
    · refine ⟨ls, .fine (fun g => absurd g ho) h2, h3, ?_⟩
      rw [h4]
      simp [ho]

/-! ### The body of the loop over the methods -/

theorem ro_lintMethod (fuel sa sp ls n) : RO (lintMethod fuel sa sp ls n) := by
  unfold lintMethod
  split
  · refine RO.bind (RO.methodOutput _) fun t => ?_
    rcases t with ⟨isStream, resp⟩
    dsimp only
    split
    · exact RO.pure _
    · refine RO.bind (RO.optionNamed _ _) fun o => ?_
      split
      · exact RO.pure _
      · split
        · refine RO.bind (RO.run (ROSeq.messageFields _) (fun s a => ro_lintField _ _ _ s a) _) fun d => ?_
          split
          · exact RO.pure _
          · exact RO.bind (RO.pos _ _) fun _ => RO.bind (RO.typeName _) fun _ => RO.bind (RO.nodeIndex _) fun _ => RO.pure _
        · exact RO.panic _
  · exact RO.panic _

theorem clean_descriptor {P c} (h : CleanReachable P c) : c.reg.protos descriptorPath = some 0 := by
  obtain ⟨W, fuel, r, ops, _, h2, _, _, rfl⟩ := h
  obtain ⟨nm, elems, _, _, hr⟩ := newRegistry_ok h2
  have hl := runActs_lext (imp := visitImport W fuel) (fileActs (.at ⟨0, []⟩) 0 elems)
    (fun f _ r => visitImport_lext W fuel f r) (addFile Reg.empty descriptorPath elems)
  rw [hr] at hl
  exact (exec_later ops ⟨r, []⟩).protos _ _ (hl.protos _ _ (by simp [addFile, Reg.empty, upd]))

theorem method_class {R c} (hc : CleanReachable WFFile c) (hl : Later c.reg R) (hv : Valid R) :
    ∃ cls, ClassAt c.reg b!".google.protobuf.MethodOptions" cls := by
  obtain ⟨cls, n, h1, h2, h3⟩ := hv.methodOptions
  have h0 := clean_descriptor hc
  obtain ⟨o, hi, _⟩ := reachable_inv (clean_reachable hc)
  obtain ⟨g, hg, _⟩ := hi.protosHeap _ _ h0
  have := hl.protos _ _ h0
  rw [show descriptorPath = b!"google/protobuf/descriptor.proto" from rfl, h1] at this
  have hlt : cls.file < c.reg.heap.length := by
    rw [Option.some.inj this]
    exact (List.getElem?_eq_some_iff.mp hg).1
  have hd := declared_earlier hl hlt h2
  obtain ⟨f, hf, hq⟩ := id hd
  have := (clean_complete hc _ f (Nat.zero_le _) hf).names _ _ hq
  obtain ⟨p, hp⟩ := Option.isSome_iff_exists.mp this
  have hpd := (reachable_sound (clean_reachable hc)).names _ _ hp
  have := unique_earlier hl hv.unique _ _ _ hpd hd
  subst this
  exact ⟨p, hp, n, false, by rw [← hl.kind hlt]; exact h3⟩

theorem protocType_declared {r D t q} (h : ProtocType r D t q) : ∃ D', Declared r D' q := by
  unfold ProtocType at h
  split at h
  · exact ⟨_, h.1⟩
  · obtain ⟨_, _, h, _⟩ := h
    exact ⟨_, h⟩

theorem elem_option {r : Reg} {p x : Ptr} {w : Str} (h : (x, w) ∈ optionsOf r p) : ∃ l, r.kind x = some (.option w l) := by
  rw [optionsOf_kids, List.mem_filterMap] at h
  obtain ⟨⟨y, e⟩, hy, ho⟩ := h
  obtain ⟨i, hi, hel⟩ := kids_mem hy
  unfold optionOf at ho
  split at ho
  · next w' l hk =>
    simp only [Option.some.injEq, Prod.mk.injEq] at ho
    obtain ⟨rfl, rfl⟩ := ho
    refine ⟨l, ?_⟩
    unfold Reg.kind
    simp only at hk hel ⊢
    simp [hel, hk]
  · cases ho

/-- What the outer loop does with a method. -/
def MethodStep (R : Reg) (st : Ptr) (p : Ptr) (s s' : List Line) : Prop := ∃ ls, MethodLines R st p ls ∧ s' = s ++ ls

theorem method_step {R sa st c a p mn tn fuel s} (h : Tracks R sa st c) (hv : Valid R)
    (hm : Node.wrapped a .method p ∈ c.pool) (hd : ∀ n, HasName R p n → Declared R (mn ++ dot :: n) p)
    (htn : Declared R tn st) (hl : Later (lintMethod fuel sa st s (.wrapped a .method p) c.reg).2 R) :
    ∃ s' r' pool', lintMethod fuel sa st s (.wrapped a .method p) c.reg = (.ok (s', true), r') ∧
      Tracks R sa st ⟨r', pool'⟩ ∧ c.pool ⊆ pool' ∧ MethodStep R st p s s' := by
  have hlc : Later c.reg R := ((ro_lintMethod fuel sa st s _).ext c.reg).later.trans hl
  have hr := clean_reachable h.clean
  have hp := pool_file hr rfl hm
  obtain ⟨kd, hk, hw⟩ := handle_kind hr hm (by decide)
  obtain ⟨n, req, ret, sreq, sret, rfl⟩ : ∃ n req ret sreq sret, kd = .rpc n req ret sreq sret := by
    cases kd <;> simp [wrapKind] at hw
    exact ⟨_, _, _, _, _, rfl⟩
  have hkR : R.kind p = some (.rpc n req ret sreq sret) := by rw [hlc.kind hp]; exact hk
  have hdR := hd n ⟨_, hkR, rfl⟩
  obtain ⟨hnk, ⟨q, m, hq, hqk, hvis⟩, honly⟩ := hv.methods _ _ _ _ _ _ _ hkR hdR
  have hqf := visible_earlier (lint_clean h.clean) hlc hp hvis
  have hden : DenotesMessage c.reg p ret q :=
    ⟨hnk, refers_now h.clean hlc hv hp hkR rfl rfl hdR hq hqf honly, m, false, by rw [← hlc.kind hqf]; exact hqk⟩
  obtain ⟨b, r1, e1⟩ := (C41_output hr hk).1 q hden
  have hq1 : Query.run (.plain .methodOutput) (.wrapped a .method p) c.reg = (.ok [.wrapped b .message q], r1) := by
    simp [Query.run, PlainQ.run, e1]
  have t1 := h.query hm (by simp) hq1
  have hm1 : Node.wrapped a .method p ∈ (⟨r1, c.pool ++ [.wrapped b .message q]⟩ : Client).pool :=
    List.mem_append_left _ hm
  have hX : Node.wrapped b .message q ∈ (⟨r1, c.pool ++ [.wrapped b .message q]⟩ : Client).pool := by simp
  have hsub : c.pool ⊆ c.pool ++ [Node.wrapped b .message q] := fun _ h => List.mem_append_left _ h
  have hresp : Responds R p q := ⟨n, req, ret, sreq, sret, mn, hkR, hdR, hq⟩
  cases sret with
  | true =>
    refine ⟨s, r1, _, ?_, t1, hsub, [], .stream ?_, by simp⟩
    · simp only [lintMethod, M.bind_apply, e1, if_true, M.pure_apply]
    · rintro ⟨n', req', ret', sreq', hk'⟩
      rw [hkR] at hk'
      cases hk'
  | false =>
    have hun : Unary R p := ⟨_, _, _, _, hkR⟩
    have hc1 : CacheExt c.reg r1 := by
      have := (RO.methodOutput p).ext c.reg
      rw [e1] at this
      exact this
    -- the rest of the body, from `r1`
    have hl1 : Later r1 R := by
      refine Later.trans ?_ hl
      simp only [lintMethod, M.bind_apply, e1]
      refine CacheExt.later (RO.ext ?_ r1)
      refine RO.bind (RO.optionNamed _ _) fun o => ?_
      split
      · exact RO.pure _
      · refine RO.bind (RO.run (ROSeq.messageFields _) (fun s a => ro_lintField _ _ _ s a) _) fun d => ?_
        split
        · exact RO.pure _
        · exact RO.bind (RO.pos _ _) fun _ => RO.bind (RO.typeName _) fun _ => RO.bind (RO.nodeIndex _) fun _ => RO.pure _
    obtain ⟨cls, hcls⟩ := method_class (lint_clean t1.clean) hl1 hv
    have hp1 := pool_file (clean_reachable t1.clean) rfl hm1
    have hopt : optionNamed (.wrapped a .method p) exemption r1 = (.ok none, r1) := by
      refine (C76_option_named (lint_clean t1.clean) hm1 rfl ⟨p, rfl, declared_earlier hl1 hp1 hdR⟩ hcls ?_ exemption).1 ?_
      · intro x b d g i hx
        rw [← hl1.kind hp1, hkR] at hx
        cases hx
      · rintro ⟨x, w⟩ hx rfl
        obtain ⟨l, hx⟩ := elem_option hx
        have hxf : x.file < r1.heap.length := by
          unfold Reg.kind Reg.elem at hx
          cases hh : r1.heap[x.file]? with
          | none => simp [hh] at hx
          | some f => exact (List.getElem?_eq_some_iff.mp hh).1
        rw [← hl1.kind hxf] at hx
        have := hv.options _ _ _ hx
        simp [exemption, hasDotPrefix] at this
    have hrun : lintMethod fuel sa st s (.wrapped a .method p) c.reg =
        (do
          let (detected, lines) ← (Message.fields q).run (lintField fuel sa st) (false, s)
          if detected then pure (lines, true)
          else do
            let x ← pos fuel (.wrapped a .method p)
            let tn ← typeName (.wrapped sa .message st)
            let idx ← nodeIndex (.wrapped a .method p)
            pure (lines ++ [Line.missing x tn idx], true) : M (List Line × Bool)) r1 := by
      simp only [lintMethod, mainExemption_eq, M.bind_apply, e1, Bool.false_eq_true, if_false, hopt]
    rw [hrun] at hl ⊢
    simp only [M.bind_apply] at hl ⊢
    have hl2 : Later ((Message.fields q).run (lintField fuel sa st) (false, s) r1).2 R := by
      refine Later.trans ?_ hl
      rcases (Message.fields q).run (lintField fuel sa st) (false, s) r1 with ⟨res, r2⟩
      cases res with
      | ok v =>
        simp only
        split
        · exact Later.refl _
        · exact CacheExt.later (RO.ext (RO.bind (RO.pos _ _) fun _ => RO.bind (RO.typeName _) fun _ =>
            RO.bind (RO.nodeIndex _) fun _ => RO.pure _) r2)
      | panic e => exact Later.refl _
      | timeout => exact Later.refl _
    obtain ⟨D', hDq⟩ := protocType_declared hq
    have hqf1 := pool_file (clean_reachable t1.clean) rfl hX
    obtain ⟨o, hi, hg⟩ := reachable_inv (clean_reachable t1.clean)
    obtain ⟨s', r2, pool2, e2, t2, hsub2, hch⟩ := loop_run (q := .messageFields) (X := .wrapped b .message q)
      (T := FieldStep R st tn) (body := lintField fuel sa st)
      (shape_fields q) (ROSeq.messageFields q) (fun i => rfl) (fun s n => ro_lintField fuel sa st s n)
      (fun s c a k p' ht hXc hmem hin hlb => by
        have hlcc : Later c.reg R := ((ro_lintField fuel sa st s _).ext c.reg).later.trans hlb
        have hk' : k = .messageField := by
          rw [membersOf_kids, List.mem_filterMap] at hin
          obtain ⟨⟨y, e⟩, _, hsel⟩ := hin
          simp only [Option.map_eq_some_iff, Prod.mk.injEq] at hsel
          obtain ⟨k', hsel, rfl, _⟩ := hsel
          unfold fieldSel at hsel
          split at hsel <;> simp at hsel
          all_goals exact hsel.symm
        subst hk'
        rw [← membersOf_later hlcc (pool_file (clean_reachable ht.clean) rfl hXc)] at hin
        exact field_step (D := D') ht hv hmem (fun n hn => member_declared hDq (.inl hqk) hin hn) htn hlb)
      t1 hX (GoodW.rooted (hg _ hX)) hl2
    have e2' : (Message.fields q).run (lintField fuel sa st) (false, s) r1 = (.ok s', r2) := e2
    rw [e2'] at hl ⊢
    simp only at hl ⊢
    rw [show (⟨r1, c.pool ++ [.wrapped b .message q]⟩ : Client).reg = r1 from rfl,
      ← membersOf_later hl1 hqf1] at hch
    obtain ⟨ls, hls, hs2, hdet⟩ := chain_fields hch htn
    simp only [Bool.false_eq_true, false_or] at hdet
    have hsubs : c.pool ⊆ pool2 := fun y hy => hsub2 (hsub hy)
    cases hs1 : s'.1 with
    | true =>
      refine ⟨s'.2, r2, pool2, ?_, t2, hsubs, ls, .good hun hresp hls (hdet.mp hs1), hs2⟩
      simp only [if_true, M.pure_apply]
    | false =>
      have hno : ¬ HasStatus R st q := fun g => by
        have := hdet.mpr g
        rw [hs1] at this
        cases this
      rw [hs1] at hl
      have hlr2 : Later r2 R := by
        refine Later.trans ?_ hl
        exact CacheExt.later (RO.ext (RO.bind (RO.pos _ _) fun _ => RO.bind (RO.typeName _) fun _ =>
            RO.bind (RO.nodeIndex _) fun _ => RO.pure _) r2)
      have hm2 : Node.wrapped a .method p ∈ pool2 := hsubs hm
      have hp2 := pool_file (c := ⟨r2, pool2⟩) (clean_reachable t2.clean) rfl hm2
      obtain ⟨x, f, hx, hx', _⟩ := (C37_partial (lint_positioned t2.clean)).1 _ hm2 p rfl fuel
      simp only at hx hx' hp2
      have htn2 := status_name t2 hlr2 htn
      have hidx : nodeIndex (.wrapped a .method p) r2 = (.ok (mn ++ dot :: n), r2) := by
        refine C11_partial (c := ⟨r2, pool2⟩) (lint_clean t2.clean) hm2 rfl (declared_earlier hlr2 hp2 hdR) ?_
        intro s' v hx
        simp only at hx
        rw [← hlr2.kind hp2, hkR] at hx
        cases hx
      simp only at htn2
      refine ⟨s'.2 ++ [.missing x tn (mn ++ dot :: n)], r2, pool2, ?_, t2, hsubs, ls ++ [.missing x tn (mn ++ dot :: n)],
        .bad hun hresp hls hno ?_ htn hdR, by simp [hs2]⟩
      · simp only [Bool.false_eq_true, if_false, M.bind_apply, hx, htn2, hidx, M.pure_apply]
      · rw [sourcePos_later hlr2 hp2]
        exact hx'

theorem chain_methods {R st ps s s'} (h : Chain (MethodStep R st) ps s s') :
    ∃ lss, Matching (MethodLines R st) ps lss ∧ s' = s ++ lss.flatten := by
  induction h with
  | nil => exact ⟨[], .nil, by simp⟩
  | cons h1 _ ih =>
    obtain ⟨lss, h2, h3⟩ := ih
    obtain ⟨ls, h4, rfl⟩ := h1
    exact ⟨ls :: lss, .cons h4 h2, by simp [h3]⟩

/-! ### The loop over the services -/

theorem proto_file {W fuel path f r r'} (h : proto W fuel path r = (.ok (.ok f), r')) :
    ∃ a i, f = .wrapped a .file ⟨i, []⟩ ∧ r'.protos path = some i := by
  rcases proto_cases W path r with ⟨i, hi, e⟩ | ⟨_, er, e⟩ | ⟨hn, nm, elems, _, hload, e⟩
  · rw [e] at h; cases h; exact ⟨_, i, rfl, hi⟩
  · rw [e] at h; cases h
  · rw [e] at h
    unfold protoNew at h
    have hl := runActs_lext (fileActs (.at ⟨r.heap.length, []⟩) r.heap.length elems)
      (fun g _ => visitImport_lext W fuel g) (addFile r path elems)
    rcases hr : runActs (visitImport W fuel) (fileActs (.at ⟨r.heap.length, []⟩) r.heap.length elems)
      (addFile r path elems) with ⟨res, r1⟩
    rw [hr] at h hl
    have h1 : r1.protos path = some r.heap.length := hl.protos _ _ (by simp [addFile, upd])
    cases res with
    | panic p => cases h
    | timeout => cases h
    | ok u =>
      simp only [Prod.mk.injEq, Res.ok.injEq, Except.ok.injEq] at h
      obtain ⟨rfl, rfl⟩ := h
      exact ⟨_, _, rfl, h1⟩

theorem first_or_none (l : List Elem) (P : Kind → Prop) :
    (∃ i, FirstIn l P i) ∨ ∀ e ∈ l, ¬ P e.kind := by
  induction l with
  | nil => exact .inr (by simp)
  | cons x l ih =>
    by_cases hx : P x.kind
    · exact .inl ⟨0, ⟨x, rfl, hx⟩, by intro j hj; omega⟩
    · rcases ih with ⟨i, ⟨e, he, hp⟩, hmin⟩ | h
      · refine .inl ⟨i + 1, ⟨e, by simpa using he, hp⟩, ?_⟩
        intro j hj e' he'
        cases j with
        | zero => simp only [List.getElem?_cons_zero, Option.some.injEq] at he'; subst he'; exact hx
        | succ j => exact hmin j (by omega) e' (by simpa using he')
      · refine .inr ?_
        intro e he
        rcases List.mem_cons.mp he with rfl | he
        · exact hx
        · exact h e he

theorem file_service {P c a p name} (hr : Reachable P c) (hn : Node.wrapped a .file p ∈ c.pool) :
    (∀ i, FirstAt ((c.reg.children p).getD []) (fun k => k = .service name) i →
      ∃ a' r', File.service p name c.reg = (.ok (some (.wrapped a' .service (childPtr p i))), r')) ∧
    ((∀ e ∈ (c.reg.children p).getD [], e.kind ≠ .service name) →
      File.service p name c.reg = (.ok none, c.reg)) := by
  obtain ⟨o, hi, hg⟩ := reachable_inv hr
  have hroot := GoodW.rooted (hg _ hn)
  have hf : ∀ k : Kind, (match k with | .service n => n == name | _ => false) = true ↔ k = .service name := by
    intro k; cases k <;> simp
  obtain ⟨h1, h2⟩ := find_first hf c.reg p rfl
  refine ⟨fun i h => ?_, fun h => ?_⟩
  · obtain ⟨e, he, hk⟩ := h1 i h
    obtain ⟨hel, hund⟩ := present_kids hroot _ (List.mem_of_find?_eq_some he)
    have hkd : c.reg.kind (childPtr p i) = some (.service name) := by
      have : c.reg.elem (childPtr p i) = some e := hel
      simp [Reg.kind, this, hk]
    obtain ⟨a', _, r', hw, _⟩ := wrap_full hi (target_of_kind hkd (k := .service) rfl) hund
    refine ⟨a', r', ?_⟩
    unfold File.service firstKid
    simp only [M.bind_apply, M.get_apply]
    erw [he]
    simp [wrapAs, assertKind, hw]
  · unfold File.service firstKid
    simp only [M.bind_apply, M.get_apply]
    erw [h2 h]
    rfl

theorem Tracks.proto {R sa st c W fuel path n r'} (h : Tracks R sa st c) (hW : W.Sat LintFile)
    (e : proto W fuel path c.reg = (.ok (.ok n), r')) : Tracks R sa st ⟨r', c.pool ++ [n]⟩ := by
  refine ⟨clean_proto h.clean hW e, List.mem_append_left _ h.status, ?_⟩
  intro a t ht
  have hk := proto_ftcache W fuel path c.reg
  rw [e] at hk
  simp only at hk ht
  rw [hk] at ht
  obtain ⟨p, h1, h2⟩ := h.types a t ht
  exact ⟨p, List.mem_append_left _ h1, h2⟩

theorem top_declared {r : Reg} {i j : Nat} {es : List Elem} {e : Elem} {n : Str}
    (hc : r.children ⟨i, []⟩ = some es) (hj : es[j]? = some e) (hn : e.kind.declName = some n) :
    r.kind ⟨i, [j]⟩ = some e.kind ∧ ∃ D, Declared r (D ++ dot :: n) ⟨i, [j]⟩ := by
  unfold Reg.children at hc
  cases hf : r.heap[i]? with
  | none => simp [hf] at hc
  | some f =>
    have hes : f.elems = es := by simpa [hf, ProtoFile.childrenAt] using hc
    have hel : f.elemAt [j] = some e := by
      simp [ProtoFile.elemAt, ProtoFile.childrenAt, hes, hj]
    refine ⟨by simp [Reg.kind, Reg.elem, hf, hel], packageDot f.elems, f, hf, ?_⟩
    simp [ProtoFile.fqn, ProtoFile.scopeAt, hel, hn]

theorem run_later {σ : Type} {seq : Seq Node} {body : σ → Node → M (σ × Bool)} (h1 : ROSeq seq)
    (h2 : ∀ s n, RO (body s n)) (s : σ) (r : Reg) : Later r (Seq.run seq body s r).2 :=
  ((RO.run h1 h2 s).ext r).later

/-- Relations between the registries before and after. -/
theorem lintServices_rel {W : World} {fuel : Nat} {T : Reg → Reg → Prop} (hrefl : ∀ r, T r r)
    (htrans : ∀ {a b c}, T a b → T b c → T a c) (hro : ∀ {r r'}, CacheExt r r' → T r r')
    (hproto : ∀ path r, T r (proto W fuel path r).2) (sa st) : ∀ svcs lines r,
    T r (lintServices W fuel sa st svcs lines r).2 := by
  intro svcs
  induction svcs with
  | nil => intro lines r; exact hrefl _
  | cons x rest ih =>
    intro lines r
    obtain ⟨path, name⟩ := x
    have hp := hproto path r
    unfold lintServices
    simp only [M.bind_apply]
    rcases hpr : proto W fuel path r with ⟨res, r1⟩
    rw [hpr] at hp
    cases res with
    | panic e => exact hp
    | timeout => exact hp
    | ok v =>
      cases v with
      | error e => exact hp
      | ok f =>
        obtain ⟨a, i, rfl, _⟩ := proto_file hpr
        refine htrans hp ?_
        simp only [M.bind_apply]
        have hs := hro ((RO.firstKid ⟨i, []⟩ .service fun k => match k with | .service n => n == name | _ => false).ext r1)
        rcases hsr : File.service ⟨i, []⟩ name r1 with ⟨res, r2⟩
        rw [show firstKid ⟨i, []⟩ .service (fun k => match k with | .service n => n == name | _ => false) r1 = (res, r2)
          from hsr] at hs
        cases res with
        | panic e => exact hs
        | timeout => exact hs
        | ok v =>
          refine htrans hs ?_
          cases v with
          | none => exact hrefl _
          | some nd =>
            cases nd with
            | wrapped b k s =>
              cases k with
              | service =>
                simp only [M.bind_apply]
                have := hro ((RO.run (ROSeq.serviceMethods s) (fun l n => ro_lintMethod fuel sa st l n) lines).ext r2)
                rcases hrr : (Service.methods s).run (lintMethod fuel sa st) lines r2 with ⟨res, r3⟩
                rw [hrr] at this
                cases res with
                | ok v => exact htrans this (ih _ _)
                | panic e => exact this
                | timeout => exact this
              | _ => exact hrefl _
            | _ => exact hrefl _

theorem lintServices_later (W : World) (fuel sa st) : ∀ svcs lines r,
    Later r (lintServices W fuel sa st svcs lines r).2 :=
  lintServices_rel Later.refl (fun a b => a.trans b) (fun h => h.later) (proto_later W fuel) sa st

theorem proto_heapSat {P} {W : World} (hW : W.Sat P) (fuel path r) (h : HeapSat P r) :
    HeapSat P (proto W fuel path r).2 := by
  have hn := proto_newFrom W fuel path r
  have hl := proto_later W fuel path r
  intro i f hf
  by_cases hlt : i < r.heap.length
  · rw [hl.file hlt] at hf; exact h i f hf
  · exact readable_sat hW (hn i f (by omega) hf)

theorem lintServices_heapSat {P} {W : World} (hW : W.Sat P) (fuel sa st svcs lines r) (h : HeapSat P r) :
    HeapSat P (lintServices W fuel sa st svcs lines r).2 :=
  lintServices_rel (T := fun r r' => HeapSat P r → HeapSat P r') (fun _ h => h) (fun a b h => b (a h))
    (fun hx h => heapSat_cacheExt h hx) (fun path r h => proto_heapSat hW fuel path r h) sa st svcs lines r h

/-- How the loop over the services can end, with `lines` printed before it. -/
def Ends (W : World) (fuel : Nat) (R : Reg) (st : Ptr) (svcs : List (Str × Str)) (lines : List Line) :
    Res (Except Failure (List Line)) → Prop
  | .ok (.ok out) => ∃ ls, out = lines ++ ls ∧ ReportOf R st svcs ls
  | .ok (.error .noService) => ∃ x ∈ svcs, (R.protos x.1).isSome = true ∧ ∀ s, ¬ ServiceAt R x s
  | .ok (.error (.noServiceFile e)) => ∃ x ∈ svcs, LoadEnds W fuel x.1 (.ok (.error e))
  | .ok (.error _) => False
  | .panic e => ∃ x ∈ svcs, LoadEnds W fuel x.1 (.panic e)
  | .timeout => ∃ x ∈ svcs, LoadEnds W fuel x.1 .timeout

theorem Ends.cons {W fuel R st x rest lines ls res} (hx : ServiceLines R st x ls)
    (h : Ends W fuel R st rest (lines ++ ls) res) : Ends W fuel R st (x :: rest) lines res := by
  cases res with
  | ok v =>
    cases v with
    | ok out =>
      obtain ⟨ls', rfl, lss, h1, rfl⟩ := h
      exact ⟨ls ++ lss.flatten, by simp, ls :: lss, .cons hx h1, by simp⟩
    | error e =>
      cases e with
      | noService => obtain ⟨y, hy, h⟩ := h; exact ⟨y, List.mem_cons_of_mem _ hy, h⟩
      | noServiceFile e => obtain ⟨y, hy, h⟩ := h; exact ⟨y, List.mem_cons_of_mem _ hy, h⟩
      | _ => exact h
  | panic e => obtain ⟨y, hy, h⟩ := h; exact ⟨y, List.mem_cons_of_mem _ hy, h⟩
  | timeout => obtain ⟨y, hy, h⟩ := h; exact ⟨y, List.mem_cons_of_mem _ hy, h⟩

theorem service_step {W fuel R sa st tn} (hW : W.Sat LintFile) (hv : Valid R) (htn : Declared R tn st) {path name rest}
    {lines : List Line} {c} (ht : Tracks R sa st c)
    (hl : Later (lintServices W fuel sa st ((path, name) :: rest) lines c.reg).2 R) :
    (∃ res r1, proto W fuel path c.reg = (res, r1) ∧ ∀ n, res ≠ .ok (.ok n)) ∨
    (∃ a f r1 r2, proto W fuel path c.reg = (.ok (.ok (.wrapped a .file f)), r1) ∧ File.service f name r1 = (.ok none, r2) ∧
      (R.protos path).isSome = true ∧ ∀ s, ¬ ServiceAt R (path, name) s) ∨
    (∃ a f r1 b s r2 ls r3 pool3, proto W fuel path c.reg = (.ok (.ok (.wrapped a .file f)), r1) ∧
      File.service f name r1 = (.ok (some (.wrapped b .service s)), r2) ∧
      (Service.methods s).run (lintMethod fuel sa st) lines r2 = (.ok (lines ++ ls), r3) ∧ Tracks R sa st ⟨r3, pool3⟩ ∧
      ServiceLines R st (path, name) ls) := by
  unfold lintServices at hl
  simp only [M.bind_apply] at hl
  rcases hpr : proto W fuel path c.reg with ⟨res, r1⟩
  rw [hpr] at hl
  cases res with
  | panic e => exact .inl ⟨_, _, rfl, by simp⟩
  | timeout => exact .inl ⟨_, _, rfl, by simp⟩
  | ok v =>
    cases v with
    | error e => exact .inl ⟨_, _, rfl, by simp⟩
    | ok f =>
      obtain ⟨a, i, rfl, hi⟩ := proto_file hpr
      simp only [M.bind_apply] at hl
      have t1 := ht.proto hW hpr
      have hr1 := clean_reachable t1.clean
      have hm : Node.wrapped a .file ⟨i, []⟩ ∈ (⟨r1, c.pool ++ [.wrapped a .file ⟨i, []⟩]⟩ : Client).pool := by simp
      have hif := pool_file hr1 rfl hm
      simp only at hif
      obtain ⟨hs1, hs2⟩ := file_service (name := name) hr1 hm
      simp only at hs1 hs2
      rcases first_or_none ((r1.children ⟨i, []⟩).getD []) (fun k => k = .service name) with ⟨j, hj⟩ | hno
      · obtain ⟨b, r2, e2⟩ := hs1 j hj
        rw [e2] at hl
        simp only [M.bind_apply] at hl
        have hq2 : Query.run (.named .fileService name) (.wrapped a .file ⟨i, []⟩) r1 =
            (.ok [.wrapped b .service (childPtr ⟨i, []⟩ j)], r2) := by
          simp [Query.run, NamedQ.run, e2]
        have t2 := t1.query hm (by simp) hq2
        have hX : Node.wrapped b .service (childPtr ⟨i, []⟩ j) ∈
          (⟨r2, (c.pool ++ [.wrapped a .file ⟨i, []⟩]) ++ [.wrapped b .service (childPtr ⟨i, []⟩ j)]⟩ : Client).pool := by
          simp
        have hr2 := clean_reachable t2.clean
        have hl2 : Later ((Service.methods (childPtr ⟨i, []⟩ j)).run (lintMethod fuel sa st) lines r2).2 R := by
          refine Later.trans ?_ hl
          rcases (Service.methods (childPtr ⟨i, []⟩ j)).run (lintMethod fuel sa st) lines r2 with ⟨res, r3⟩
          cases res with
          | ok v => exact lintServices_later W fuel sa st rest v r3
          | panic e => exact Later.refl _
          | timeout => exact Later.refl _
        have hlr2 : Later r2 R := (run_later (ROSeq.serviceMethods _) (fun l n => ro_lintMethod fuel sa st l n)
          lines r2).trans hl2
        have hlr1 : Later r1 R := by
          refine Later.trans ?_ hlr2
          have hs := ((RO.firstKid ⟨i, []⟩ .service fun k => match k with
            | .service n => n == name | _ => false).ext r1).later
          rw [show firstKid ⟨i, []⟩ .service (fun k => match k with | .service n => n == name | _ => false) r1 =
            (_, r2) from e2] at hs
          exact hs
        have hat : ServiceAt R (path, name) (childPtr ⟨i, []⟩ j) := by
          refine ⟨i, j, hlr1.protos _ _ hi, rfl, ?_⟩
          rw [hlr1.children (p := ⟨i, []⟩) hif]
          exact hj
        obtain ⟨hkR, D, hD⟩ : R.kind (childPtr ⟨i, []⟩ j) = some (.service name) ∧
            ∃ D, Declared R (D ++ dot :: name) (childPtr ⟨i, []⟩ j) := by
          obtain ⟨i', j', g1, g2, ⟨e, he, hk⟩, _⟩ := hat
          cases g2
          cases hc : R.children ⟨i, []⟩ with
          | none => simp [hc] at he
          | some es =>
            rw [hc] at he
            obtain ⟨g3, g4⟩ := top_declared hc he (n := name) (by rw [hk]; rfl)
            rw [hk] at g3
            exact ⟨g3, g4⟩
        obtain ⟨o, hin, hg⟩ := reachable_inv hr2
        have hXf := pool_file hr2 rfl hX
        obtain ⟨s', r3, pool3, e3, t3, _, hch⟩ := loop_run (q := .serviceMethods)
          (X := .wrapped b .service (childPtr ⟨i, []⟩ j))
          (T := MethodStep R st) (body := lintMethod fuel sa st)
          (shape_methods _) (ROSeq.serviceMethods _) (fun i => rfl) (fun s n => ro_lintMethod fuel sa st s n)
          (fun s c a k p' ht hXc hmem hin hlb => by
            have hlcc : Later c.reg R := ((ro_lintMethod fuel sa st s _).ext c.reg).later.trans hlb
            have hk' : k = .method := by
              rw [membersOf_kids, List.mem_filterMap] at hin
              obtain ⟨⟨y, e⟩, _, hsel⟩ := hin
              simp only [Option.map_eq_some_iff, Prod.mk.injEq] at hsel
              obtain ⟨k', hsel, rfl, _⟩ := hsel
              unfold methodSel at hsel
              split at hsel <;> simp at hsel
              all_goals exact hsel.symm
            subst hk'
            rw [← membersOf_later hlcc (pool_file (clean_reachable ht.clean) rfl hXc)] at hin
            exact method_step (mn := D ++ dot :: name) ht hv hmem
              (fun n hn => member_declared hD (.inr hkR) hin hn) htn hlb)
          t2 hX (GoodW.rooted (hg _ hX)) hl2
        have e3' : (Service.methods (childPtr ⟨i, []⟩ j)).run (lintMethod fuel sa st) lines r2 = (.ok s', r3) := e3
        rw [e3'] at hl
        simp only at hl hch
        rw [← membersOf_later hlr2 hXf] at hch
        obtain ⟨lss, hml, rfl⟩ := chain_methods hch
        exact .inr (.inr ⟨a, _, r1, b, _, r2, _, r3, pool3, rfl, e2, e3', t3, _, lss, hat, hml, rfl⟩)
      · have e2 := hs2 hno
        rw [e2] at hl
        simp only at hl
        refine .inr (.inl ⟨a, _, r1, r1, rfl, e2, ?_, ?_⟩)
        · have hlr : Later r1 R := hl
          simp only [hlr.protos _ _ hi, Option.isSome_some]
        · rintro s ⟨i', j, g1, rfl, ⟨e, he, hk⟩, _⟩
          have hlr : Later r1 R := hl
          simp only [hlr.protos _ _ hi, Option.some.injEq] at g1
          subst g1
          rw [hlr.children (p := ⟨i, []⟩) hif] at he
          exact hno e (List.mem_of_getElem? he) hk

theorem services_end {W fuel R sa st tn} (hW : W.Sat LintFile) (hv : Valid R) (htn : Declared R tn st) :
    ∀ svcs lines c, Tracks R sa st c → Later (lintServices W fuel sa st svcs lines c.reg).2 R →
      Ends W fuel R st svcs lines (lintServices W fuel sa st svcs lines c.reg).1 := by
  intro svcs
  induction svcs with
  | nil => intro lines c _ _; exact ⟨[], by simp, [], .nil, rfl⟩
  | cons x rest ih =>
    intro lines c ht hl
    obtain ⟨path, name⟩ := x
    rcases service_step hW hv htn ht hl with ⟨res, r1, hpr, hno⟩ | ⟨a, f, r1, r2, h1, h2, h3, h4⟩ |
      ⟨a, f, r1, b, s, r2, ls, r3, pool3, h1, h2, h3, h4, h5⟩
    · have hthis : (proto W fuel path c.reg).1 = res := by rw [hpr]
      unfold lintServices
      simp only [M.bind_apply, hpr]
      cases res with
      | panic e => exact ⟨_, List.mem_cons_self, c, ht.clean, hthis⟩
      | timeout => exact ⟨_, List.mem_cons_self, c, ht.clean, hthis⟩
      | ok v =>
        cases v with
        | error e => exact ⟨_, List.mem_cons_self, c, ht.clean, hthis⟩
        | ok n => exact absurd rfl (hno n)
    · unfold lintServices
      simp only [M.bind_apply, h1, h2]
      exact ⟨_, List.mem_cons_self, h3, h4⟩
    · have e : lintServices W fuel sa st ((path, name) :: rest) lines c.reg =
          lintServices W fuel sa st rest (lines ++ ls) r3 := by
        rw [lintServices]
        simp only [M.bind_apply, h1, h2, h3]
      rw [e] at hl ⊢
      exact Ends.cons h5 (ih _ ⟨r3, pool3⟩ h4 hl)

/-! ### The program -/

theorem Ends.main {W fuel R st svcs res} (hst : StatusType R st) (h : Ends W fuel R st svcs [] res) :
    Outcome W fuel R svcs res := by
  cases res with
  | ok v =>
    cases v with
    | ok out => obtain ⟨ls, rfl, h⟩ := h; exact ⟨st, hst, by simpa using h⟩
    | error e =>
      cases e with
      | noService => exact h
      | noServiceFile e => exact h
      | _ => exact absurd h (by simp [Ends])
  | panic e => obtain ⟨x, hx, h⟩ := h; exact .inr ⟨x.1, by simp; exact .inr ⟨_, hx⟩, h⟩
  | timeout => obtain ⟨x, hx, h⟩ := h; exact .inr ⟨x.1, by simp; exact .inr ⟨_, hx⟩, h⟩

theorem status_step {W fuel r res r'} (hW : W.Sat LintFile) (hn : newRegistry W fuel = (.ok (.ok ()), r))
    (svcs : List (Str × Str)) (h : lint W fuel svcs r = (res, r')) (hv : Valid r') :
    (∃ res1 r1, proto W fuel statusPath r = (res1, r1) ∧ (∀ n, res1 ≠ .ok (.ok n)) ∧ LoadEnds W fuel statusPath res1) ∨
    (∃ a f r1, proto W fuel statusPath r = (.ok (.ok (.wrapped a .file f)), r1) ∧
      File.message f statusName r1 = (.ok none, r') ∧ (r'.protos statusPath).isSome = true ∧ ∀ st, ¬ StatusType r' st) ∨
    (∃ a f r1 b st r2 pool tn, proto W fuel statusPath r = (.ok (.ok (.wrapped a .file f)), r1) ∧
      File.message f statusName r1 = (.ok (some (.wrapped b .message st)), r2) ∧ StatusType r' st ∧ Declared r' tn st ∧
      Tracks r' b st ⟨r2, pool⟩ ∧ lintServices W fuel b st svcs [] r2 = (res, r')) := by
  have hc0 : CleanReachable LintFile ⟨r, []⟩ := ⟨W, fuel, r, [], hW, hn, by simp, trivial, rfl⟩
  unfold lint at h
  simp only [mainStatusPath_eq, mainStatusName_eq, M.bind_apply] at h
  rcases hpr : proto W fuel statusPath r with ⟨res1, r1⟩
  rw [hpr] at h
  have hthis : (proto W fuel statusPath r).1 = res1 := by rw [hpr]
  cases res1 with
  | panic e => exact .inl ⟨_, _, rfl, by simp, _, hc0, hthis⟩
  | timeout => exact .inl ⟨_, _, rfl, by simp, _, hc0, hthis⟩
  | ok v =>
    cases v with
    | error e => exact .inl ⟨_, _, rfl, by simp, _, hc0, hthis⟩
    | ok f =>
      obtain ⟨a, i, rfl, hi⟩ := proto_file hpr
      simp only [M.bind_apply] at h
      have hc1 := clean_proto hc0 hW hpr
      have hr1 := clean_reachable hc1
      have hm : Node.wrapped a .file ⟨i, []⟩ ∈ (⟨r1, [] ++ [.wrapped a .file ⟨i, []⟩]⟩ : Client).pool := by simp
      have hif := pool_file hr1 rfl hm
      simp only at hif
      obtain ⟨hs1, hs2⟩ := C71_file_message (name := statusName) hr1 hm
      simp only at hs1 hs2
      rcases first_or_none ((r1.children ⟨i, []⟩).getD []) (fun k => ∃ ext, k = .message statusName ext) with ⟨j, hj⟩ | hno
      · obtain ⟨b, r2, e2⟩ := hs1 j hj
        rw [e2] at h
        simp only at h
        have hl : Later r2 r' := by
          have := lintServices_later W fuel b (childPtr ⟨i, []⟩ j) svcs [] r2
          rw [h] at this
          exact this
        have hq2 : Query.run (.named .fileMessage statusName) (.wrapped a .file ⟨i, []⟩) r1 =
            (.ok [.wrapped b .message (childPtr ⟨i, []⟩ j)], r2) := by
          simp [Query.run, NamedQ.run, e2]
        have hc2 := clean_query hc1 hm hq2
        have hlr1 : Later r1 r' := by
          refine Later.trans ?_ hl
          have hs := ((RO.firstKid ⟨i, []⟩ .message fun k => match k with
            | .message n _ => n == statusName | _ => false).ext r1).later
          rw [show firstKid ⟨i, []⟩ .message (fun k => match k with | .message n _ => n == statusName | _ => false) r1 =
            (_, r2) from e2] at hs
          exact hs
        have hst : StatusType r' (childPtr ⟨i, []⟩ j) := by
          refine ⟨i, j, hlr1.protos _ _ hi, rfl, ?_⟩
          have hne := hv.status i (hlr1.protos _ _ hi)
          unfold NotExtended at hne
          rw [hlr1.children (p := ⟨i, []⟩) hif] at hne ⊢
          obtain ⟨⟨e, he, ext, hk⟩, hmin⟩ := hj
          refine ⟨⟨e, he, ?_⟩, fun j' hj' e' he' hk' => hmin j' hj' e' he' ⟨_, hk'⟩⟩
          cases ext with
          | false => exact hk
          | true => exact absurd hk (hne e (List.mem_of_getElem? he))
        obtain ⟨tn, htn⟩ : ∃ tn, Declared r' tn (childPtr ⟨i, []⟩ j) := by
          obtain ⟨i', j', g1, g2, ⟨e, he, hk⟩, _⟩ := id hst
          cases g2
          cases hc : r'.children ⟨i, []⟩ with
          | none => simp [hc] at he
          | some es =>
            rw [hc] at he
            obtain ⟨g3, D, g4⟩ := top_declared hc he (n := statusName) (by rw [hk]; rfl)
            exact ⟨_, g4⟩
        have ht : Tracks r' b (childPtr ⟨i, []⟩ j)
            ⟨r2, ([] ++ [.wrapped a .file ⟨i, []⟩]) ++ [.wrapped b .message (childPtr ⟨i, []⟩ j)]⟩ := by
          refine ⟨hc2, by simp, ?_⟩
          intro x t hx
          exfalso
          have hk := (NK.queryRun (R := SameFt x) (.named .fileMessage statusName) (.wrapped a .file ⟨i, []⟩)
            fun _ _ h1 _ => absurd h1 (by simp)).ext r1
          rw [hq2] at hk
          have hk' : r2.ftcache x = r1.ftcache x := hk
          have h0 := proto_ftcache W fuel statusPath r
          rw [hpr] at h0
          simp only at h0 hx
          rw [hk', h0, newRegistry_ftcache hn] at hx
          cases hx
        exact .inr (.inr ⟨a, _, r1, b, _, r2, _, tn, rfl, e2, hst, htn, ht, h⟩)
      · have e2 := hs2 fun e he ext hx => hno e he ⟨ext, hx⟩
        rw [e2] at h
        cases h
        refine .inr (.inl ⟨a, _, _, rfl, e2, by rw [hi]; rfl, ?_⟩)
        rintro st ⟨i', j, g1, rfl, ⟨e, he, hk⟩, _⟩
        rw [hi] at g1
        cases g1
        exact hno e (List.mem_of_getElem? he) ⟨_, hk⟩

theorem main_ends {W fuel r res r'} (hW : W.Sat LintFile) (hn : newRegistry W fuel = (.ok (.ok ()), r))
    (svcs : List (Str × Str)) (h : lint W fuel svcs r = (res, r')) (hv : Valid r') : Outcome W fuel r' svcs res := by
  rcases status_step hW hn svcs h hv with ⟨res1, r1, h1, hno, h2⟩ | ⟨a, f, r1, h1, h2, h3, h4⟩ |
    ⟨a, f, r1, b, st, r2, pool, tn, h1, h2, h3, h4, h5, h6⟩
  · unfold lint at h
    simp only [mainStatusPath_eq, mainStatusName_eq, M.bind_apply, h1] at h
    cases res1 with
    | panic e => cases h; exact .inr ⟨_, List.mem_cons_self, h2⟩
    | timeout => cases h; exact .inr ⟨_, List.mem_cons_self, h2⟩
    | ok v =>
      cases v with
      | error e => cases h; exact h2
      | ok n => exact absurd rfl (hno n)
  · unfold lint at h
    simp only [mainStatusPath_eq, mainStatusName_eq, M.bind_apply, h1, h2] at h
    cases h
    exact ⟨h3, h4⟩
  · have := services_end hW hv h4 svcs [] _ h5 (by simp only; rw [h6]; exact Later.refl _)
    simp only [h6] at this
    exact this.main h3

theorem lint_heapSat {P W fuel svcs r} (hW : W.Sat P) (h : HeapSat P r) : HeapSat P (lint W fuel svcs r).2 := by
  unfold lint
  simp only [mainStatusPath_eq, mainStatusName_eq, M.bind_apply]
  have h1 := proto_heapSat hW fuel statusPath r h
  rcases hpr : proto W fuel statusPath r with ⟨res, r1⟩
  rw [hpr] at h1
  cases res with
  | panic e => exact h1
  | timeout => exact h1
  | ok v =>
    cases v with
    | error e => exact h1
    | ok f =>
      obtain ⟨a, i, rfl, hi⟩ := proto_file hpr
      simp only [M.bind_apply]
      have h2 := heapSat_cacheExt h1 ((RO.firstKid ⟨i, []⟩ .message fun k => match k with
        | .message n _ => n == statusName | _ => false).ext r1)
      rcases hsr : File.message ⟨i, []⟩ statusName r1 with ⟨res, r2⟩
      rw [show firstKid ⟨i, []⟩ .message (fun k => match k with | .message n _ => n == statusName | _ => false) r1 =
        (res, r2) from hsr] at h2
      cases res with
      | panic e => exact h2
      | timeout => exact h2
      | ok v =>
        cases v with
        | none => exact h2
        | some nd =>
          cases nd with
          | wrapped b k s =>
            cases k with
            | message => exact lintServices_heapSat hW fuel b s svcs [] r2 h2
            | _ => exact h2
          | _ => exact h2

end Protoast.Props
