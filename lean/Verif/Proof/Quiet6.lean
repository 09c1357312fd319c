import Verif.Proof.Quiet5
/-
  Registries that differ in what was asked of them: clients of the two.
-/
namespace Protoast.Quiet

/-! ### Registries of histories are healthy -/

theorem base_flat {typ : Str} {t : Option Node} (h : BaseShape typ t) : Flat t := by
  unfold BaseShape at h
  split at h
  · subst h; exact .builtin
  · rcases h with rfl | ⟨a, k, p, rfl, -⟩
    · exact .none
    · exact .wrapped

theorem fieldShape_shape {r : Reg} {p : Ptr} {t : Option Node} (h : FieldShape r p t) : TShape t := by
  rcases h with ⟨_, _, _, _, _, h⟩ | ⟨_, _, _, _, _, a, t', rfl, h⟩ | ⟨_, a, rfl⟩ | ⟨_, a, rfl⟩
  · exact .flat (base_flat h)
  · exact .repeated (base_flat h)
  · exact .oneof
  · exact .map

/-- The types made for fields were made for one field each. -/
def Uniq (r : Reg) : Prop := ∀ a t a' t' b, r.ftcache a = some t → r.ftcache a' = some t' → top t = some b →
  top t' = some b → a' = a

theorem top_owner {o : Ghost} {r : Reg} {t : Node} {b : Nat} (hg : Good o r t) (ht : top (some t) = some b) :
    ∃ n, o b = some n ∧ ∀ k p, n ≠ .wrapped b k p := by
  cases t with
  | «repeated» a u =>
    cases ht
    cases u with
    | none => exact ⟨_, hg, fun _ _ e => by cases e⟩
    | some u => exact ⟨_, hg.1, fun _ _ e => by cases e⟩
  | oneof a p => cases ht; exact ⟨_, hg.1, fun _ _ e => by cases e⟩
  | map a p => cases ht; exact ⟨_, hg.1, fun _ _ e => by cases e⟩
  | _ => cases ht

theorem inv_healthy {o : Ghost} {r : Reg} (hi : Inv o r) (hu : Uniq r) : Healthy r := by
  refine ⟨?_, ?_, ?_, ?_, ?_, ?_, ?_, ?_⟩
  · intro v n h
    obtain ⟨a, k, p, h1, h2, h3, h4⟩ := hi.cacheSome v n h
    exact ⟨a, k, p, h1, h2, h3, hi.fresh _ _ h4⟩
  · exact fun v h => (hi.cacheNone v h).1
  · intro v w a k p k' p' h1 h2
    obtain ⟨_, _, q, rfl, e1, _, ho1⟩ := hi.cacheSome v _ h1
    obtain ⟨_, _, q', rfl, e2, _, ho2⟩ := hi.cacheSome w _ h2
    cases e1; cases e2
    rw [ho1] at ho2
    cases ho2
    rfl
  · exact fun name p h => (hi.regRooted name p h).target
  · intro a t h
    obtain ⟨p, h1, -⟩ := hi.ftKey a t h
    exact hi.fresh _ _ h1
  · intro a t h
    obtain ⟨p, -, ⟨rfl, -⟩ | h2⟩ := hi.ftKey a t h
    · exact .flat .none
    · exact fieldShape_shape h2
  · intro a t b h ht
    cases t with
    | none => cases ht
    | some t =>
      obtain ⟨n, ho, hn⟩ := top_owner (hi.ftGood a t h).2 ht
      refine ⟨hi.fresh _ _ ho, ?_, fun a' t' h' ht' => hu a _ a' t' b h h' ht ht'⟩
      intro v k p hc
      obtain ⟨_, _, _, -, e, -, ho'⟩ := hi.cacheSome v _ hc
      cases e
      rw [ho] at ho'
      exact hn _ _ (Option.some.inj ho')
  · intro a t b k p h ht
    obtain ⟨q, -, hs⟩ := hi.ftKey a t h
    have hbase : ∀ {typ : Str} {u : Node}, BaseShape typ (some u) → u = .wrapped b k p → k ≠ .file := by
      intro typ u hb e hk
      unfold BaseShape at hb
      split at hb
      · cases hb; cases e
      · rcases hb with hb | ⟨_, _, _, hb, hk'⟩
        · cases hb
        · cases hb; cases e
          subst hk
          rcases hk' with h | h | h <;> cases h
    cases t with
    | none => cases ht
    | some t =>
      have hg := (hi.ftGood a t h).2
      cases t with
      | wrapped b' k' p' =>
        cases ht
        refine hg.cached ?_
        rcases hs with ⟨e, -⟩ | ⟨_, _, _, _, _, hb⟩ | ⟨_, _, _, _, _, _, _, e, -⟩ | ⟨_, _, e⟩ | ⟨_, _, e⟩
        · cases e
        · exact hbase hb rfl
        · cases e
        · cases e
        · cases e
      | «repeated» a' u =>
        cases u with
        | none => cases ht
        | some u =>
          cases u with
          | wrapped b' k' p' =>
            cases ht
            have hg2 : GoodW o r b k p := hg.2.2
            refine hg2.cached ?_
            rcases hs with ⟨e, -⟩ | ⟨_, _, _, _, _, hb⟩ | ⟨_, _, _, _, _, _, _, e, hb⟩ | ⟨_, _, e⟩ | ⟨_, _, e⟩
            · cases e
            · have := base_flat hb; cases this
            · cases e; exact hbase hb rfl
            · cases e
            · cases e
          | _ => cases ht
      | _ => cases ht

theorem handed {o : Ghost} {r : Reg} {n : Node} (hg : Good o r n) : Handed r n := by
  rintro a p rfl
  exact GoodW.cached hg (by intro e; cases e)

theorem top_some {t b} (h : top t = some b) : ∃ n, t = some n := by
  cases t with
  | none => cases h
  | some n => exact ⟨n, rfl⟩

/-! ### Every node matches itself -/

/-- Addresses match themselves. -/
abbrev Self (r : Reg) : Match := fun a b => a = b ∧ a < r.next

set_option linter.unusedSectionVars false

section
variable {o : Ghost} {r : Reg} (hi : Inv o r)
include hi

mutual
theorem val_refl : (v : OptVal) → GoodVal o r v → VRel (Self r) v v
  | .bool _ _ _, _ => .bool
  | .int _ _ _, _ => .int
  | .uint _ _ _, _ => .uint
  | .float _ _ _, _ => .float
  | .string _ _ _, _ => .string
  | .bytes _ _ _, _ => .bytes
  | .enum _ _ _ _, g => .enum ⟨rfl, hi.fresh _ _ g.2.owner⟩
  | .array _ vs, g => .array (vals_refl vs g.2)
  | .map _ _ items, g => .map (items_refl items g.2)
theorem vals_refl : (vs : List OptVal) → GoodVals o r vs → VRels (Self r) vs vs
  | [], _ => .nil
  | v :: vs, g => .cons (val_refl v g.1) (vals_refl vs g.2)
theorem items_refl : (vs : List (Str × OptVal)) → GoodItems o r vs → VItems (Self r) vs vs
  | [], _ => .nil
  | (_, v) :: vs, g => .cons (val_refl v g.1) (items_refl vs g.2)
end

theorem node_refl : (n : Node) → Good o r n → NRel (Self r) n n
  | .wrapped _ _ _, g => .wrapped ⟨rfl, hi.fresh _ _ g.owner⟩
  | .option _ _ _ _, g => .option ⟨rfl, hi.fresh _ _ g.1⟩
  | .oneof _ _, g => .oneof ⟨rfl, hi.fresh _ _ g.1⟩
  | .map _ _, g => .map ⟨rfl, hi.fresh _ _ g.1⟩
  | .repeated _ none, g => .repeatedNil ⟨rfl, hi.fresh _ _ g⟩
  | .repeated _ (some t), g => .repeated ⟨rfl, hi.fresh _ _ g.1⟩ (node_refl t g.2.2)
  | .builtin _, _ => .builtin
  | .value v, g => .value (val_refl hi v g)
  | .mapItem _ v, g => .mapItem (val_refl hi v g)

theorem pool_refl : (ns : List Node) → GoodL o r ns → LRel (Self r) ns ns
  | [], _ => .nil
  | n :: ns, g => .cons (node_refl hi n (g n List.mem_cons_self)) (pool_refl ns fun n hn => g n (List.mem_cons_of_mem _ hn))

end

/-! ### Loading -/

/-- What a client needs. -/
structure Fine (c : Client) : Prop where
  good : ∃ o, Inv o c.reg ∧ GoodL o c.reg c.pool
  uniq : Uniq c.reg

theorem Fine.healthy {c} (h : Fine c) : Healthy c.reg := by
  obtain ⟨o, hi, -⟩ := h.good
  exact inv_healthy hi h.uniq

theorem Healthy.uniq {r} (h : Healthy r) : Uniq r := fun a t a' t' b h1 h2 h3 h4 =>
  (h.ftTop a t b h1 h3).2.2 a' t' h2 h4

theorem ftOf_congr {r r' : Reg} (hc : r'.cache = r.cache) (hf : r'.ftcache = r.ftcache) (p : Ptr) : ftOf r' p = ftOf r p := by
  unfold ftOf
  rw [hc, hf]

/-- Both registries load the same files. -/
theorem Sim.load {fl : Bool} {m : Match} {r1 r2 r1' r2' : Reg} (h : Sim fl m r1 r2) (hf : Front r1' r2')
    (h1 : Healthy r1') (h2 : Healthy r2')
    (c1 : r1'.cache = r1.cache) (c2 : r2'.cache = r2.cache) (f1 : r1'.ftcache = r1.ftcache) (f2 : r2'.ftcache = r2.ftcache)
    (n1 : r1.next ≤ r1'.next) (n2 : r2.next ≤ r2'.next) (hfl : fl = true ∨ Front r1 r1') : Sim fl m r1' r2' := by
  refine ⟨hf.heap, hf.protos, hf.names, hf.scopes, h1, h2, ?_, h.inj1, h.inj2, ?_, ?_, ?_, ?_, ?_⟩
  · intro a b e
    have := h.bound a b e
    exact ⟨Nat.lt_of_lt_of_le this.1 n1, Nat.lt_of_lt_of_le this.2 n2⟩
  · rw [c1, c2]; exact h.poison
  · rw [c1, c2]; exact h.both
  · rw [c1, c2]; exact h.left
  · rw [c1, c2]; exact h.right
  · intro p
    rw [ftOf_congr c1 f1, ftOf_congr c2 f2]
    have := h.ft p
    generalize ftOf r1 p = x at this
    generalize ftOf r2 p = y at this
    cases this with
    | none => exact .none
    | both e => exact .both e
    | left e1 e2 e3 =>
      rcases hfl with hfl | hfl
      · rw [hfl] at e1; cases e1
      · exact .left e1 (hfl.computes e2) e3
    | right e1 e2 e3 =>
      rcases hfl with hfl | hfl
      · rw [hfl] at e1; cases e1
      · exact .right e1 (hfl.computes e2) e3

/-! ### One call -/

/-- Two clients that differ only in what was asked of their registries. -/
structure Rel (fl : Bool) (m : Match) (c1 c2 : Client) : Prop where
  sim : Sim fl m c1.reg c2.reg
  pool : LRel m c1.pool c2.pool
  good1 : ∃ o, Inv o c1.reg ∧ GoodL o c1.reg c1.pool
  good2 : ∃ o, Inv o c2.reg ∧ GoodL o c2.reg c2.pool

theorem Fine.rel {c} (h : Fine c) (fl : Bool) : Rel fl (Self c.reg) c c := by
  obtain ⟨o, hi, hg⟩ := h.good
  exact ⟨(Grow.refl c.reg).sim h.healthy h.healthy fl fun _ => rfl, pool_refl hi _ hg, h.good, h.good⟩

/-- The call loads nothing that is not there. -/
def Loaded' (r : Reg) : Op → Prop
  | .proto _ _ path => (r.protos path).isSome = true
  | _ => True

theorem proto_loaded {W : World} {fuel : Nat} {path : Str} {r : Reg} (h : (r.protos path).isSome = true) :
    ∃ i, proto W fuel path r = (.ok (.ok (.wrapped r.next .file ⟨i, []⟩)), { r with next := r.next + 1 }) := by
  obtain ⟨i, hi⟩ := Option.isSome_iff_exists.mp h
  refine ⟨i, ?_⟩
  unfold proto
  simp only [M.bind_apply, M.get_apply, hi]
  rfl

theorem byName_at {fl : Bool} {m : Match} {r1 r2 : Reg} (hs : Sim fl m r1 r2) (name : Str) (pool1 pool2 : List Node) :
    At fl m LRel ((Op.byName name).run pool1) ((Op.byName name).run pool2) r1 r2 :=
  (opt_of_eqv (nodeByFullName_eqv name)).at hs

theorem query_at {fl : Bool} {m : Match} {c1 c2 : Client} (h : Rel fl m c1 c2) (i : Nat) (q : Query) :
    At fl m LRel ((Op.query i q).run c1.pool) ((Op.query i q).run c2.pool) c1.reg c2.reg := by
  simp only [Op.run]
  rcases h.pool.get i with ⟨e1, e2⟩ | ⟨n1, n2, e1, e2, hn⟩
  · rw [e1, e2]
    exact (Eqv.pure fun _ _ => .nil).at h.sim
  · rw [e1, e2]
    obtain ⟨_, _, g1⟩ := h.good1
    obtain ⟨_, _, g2⟩ := h.good2
    exact queryRun_at q hn h.sim (handed (g1 _ (List.mem_of_getElem? e1))) (handed (g2 _ (List.mem_of_getElem? e2)))

theorem proto_at {fl : Bool} {m : Match} {c1 c2 : Client} (h : Rel fl m c1 c2) (W : World) (fuel : Nat) (path : Str)
    (hfl : fl = true ∨ (c1.reg.protos path).isSome = true) (pool1 pool2 : List Node) :
    ∃ m', m.le m' ∧ ResRel (LRel m') ((Op.proto W fuel path).run pool1 c1.reg).1 ((Op.proto W fuel path).run pool2 c2.reg).1 ∧
      Sim fl m' ((Op.proto W fuel path).run pool1 c1.reg).2 ((Op.proto W fuel path).run pool2 c2.reg).2 := by
  have hf := proto_front W fuel path h.sim.front
  have hc1 := proto_caches W fuel path c1.reg
  have hc2 := proto_caches W fuel path c2.reg
  obtain ⟨o1, hi1, -⟩ := h.good1
  obtain ⟨o2, hi2, -⟩ := h.good2
  obtain ⟨o1', -, hi1', -⟩ := proto_tri (W := W) (fuel := fuel) (path := path) hi1
  obtain ⟨o2', -, hi2', -⟩ := proto_tri (W := W) (fuel := fuel) (path := path) hi2
  have hh1 := inv_healthy hi1' (by unfold Uniq; rw [hc1.2]; exact h.sim.h1.uniq)
  have hh2 := inv_healthy hi2' (by unfold Uniq; rw [hc2.2]; exact h.sim.h2.uniq)
  have hfr : fl = true ∨ Front c1.reg (proto W fuel path c1.reg).2 := by
    rcases hfl with hfl | hfl
    · exact .inl hfl
    · obtain ⟨i, e⟩ := proto_loaded (W := W) (fuel := fuel) hfl
      rw [e]
      exact .inr ⟨rfl, rfl, rfl, rfl⟩
  simp only [Op.run, M.bind_apply]
  rcases e1 : proto W fuel path c1.reg with ⟨res1, r1'⟩
  rcases e2 : proto W fuel path c2.reg with ⟨res2, r2'⟩
  rw [e1, e2] at hf
  rw [e1] at hc1 hh1 hfr
  rw [e2] at hc2 hh2
  simp only at hf hc1 hc2 hh1 hh2 hfr
  obtain ⟨hf, ⟨i, rfl, rfl, n1, n2⟩ | ⟨rfl, hno, n1, n2⟩⟩ := hf
  · refine ⟨m.add c1.reg.next c2.reg.next, Match.le_add _ _ _, .cons (.wrapped (.inr ⟨rfl, rfl⟩)) .nil, ?_⟩
    exact h.sim.alloc.load hf hh1 hh2 hc1.1 hc2.1 hc1.2 hc2.2 (Nat.le_of_eq n1.symm) (Nat.le_of_eq n2.symm)
      (hfr.imp id fun h => ⟨h.heap, h.protos, h.names, h.scopes⟩)
  · refine ⟨m, Match.le_refl _, ?_, ?_⟩
    · cases res2 with
      | ok x =>
        cases x with
        | ok n => exact (hno n rfl).elim
        | error e => exact .nil
      | panic e => exact rfl
      | timeout => trivial
    · have := h.sim.load hf hh1 hh2 hc1.1 hc2.1 hc1.2 hc2.2 (Nat.le_of_eq n1.symm) (Nat.le_of_eq n2.symm) hfr
      cases res2 with
      | ok x => cases x <;> exact this
      | panic e => exact this
      | timeout => exact this

theorem op_sim {fl : Bool} {m : Match} {c1 c2 : Client} (h : Rel fl m c1 c2) (op : Op)
    (hfl : fl = true ∨ Loaded' c1.reg op) :
    ∃ m', m.le m' ∧ ResRel (LRel m') (op.run c1.pool c1.reg).1 (op.run c2.pool c2.reg).1 ∧
      Sim fl m' (op.run c1.pool c1.reg).2 (op.run c2.pool c2.reg).2 := by
  cases op with
  | proto W fuel path => exact proto_at h W fuel path hfl _ _
  | byName name =>
    obtain ⟨m', a, b, c, -⟩ := byName_at h.sim name c1.pool c2.pool
    exact ⟨m', a, b, c⟩
  | query i q =>
    obtain ⟨m', a, b, c, -⟩ := query_at h i q
    exact ⟨m', a, b, c⟩

theorem good_step {c : Client} (h : ∃ o, Inv o c.reg ∧ GoodL o c.reg c.pool) (op : Op) :
    ∃ o, Inv o (c.step op).reg ∧ GoodL o (c.step op).reg (c.step op).pool := by
  obtain ⟨o, hi, hg⟩ := h
  obtain ⟨o', -, h1, h2⟩ := step_inv hi hg op
  exact ⟨o', h1, h2⟩

theorem Rel.step {fl : Bool} {m : Match} {c1 c2 : Client} (h : Rel fl m c1 c2) (op : Op)
    (hfl : fl = true ∨ Loaded' c1.reg op) : ∃ m', m.le m' ∧ Rel fl m' (c1.step op) (c2.step op) := by
  obtain ⟨m', hle, hr, hs⟩ := op_sim h op hfl
  have g1 := good_step h.good1 op
  have g2 := good_step h.good2 op
  refine ⟨m', hle, ?_, ?_, g1, g2⟩
  all_goals
    clear g1 g2
    unfold Client.step
    rcases e1 : op.run c1.pool c1.reg with ⟨res1, r1'⟩
    rcases e2 : op.run c2.pool c2.reg with ⟨res2, r2'⟩
    rw [e1, e2] at hr hs
    cases res1 <;> cases res2 <;> simp only [ResRel] at hr <;> first
      | exact hr.elim
      | exact hs
      | exact (LRel.mono hle h.pool).append hr
      | exact LRel.mono hle h.pool

theorem step_protos (c : Client) (op : Op) (path : Str) (h : (c.reg.protos path).isSome = true)
    (hg : ∃ o, Inv o c.reg ∧ GoodL o c.reg c.pool) : ((c.step op).reg.protos path).isSome = true := by
  obtain ⟨o, hi, hg⟩ := hg
  obtain ⟨o', hx, -⟩ := step_inv hi hg op
  obtain ⟨i, hp⟩ := Option.isSome_iff_exists.mp h
  rw [hx.protos _ _ hp]
  rfl

theorem step_loaded {c : Client} {op op' : Op} (h : Loaded' c.reg op')
    (hg : ∃ o, Inv o c.reg ∧ GoodL o c.reg c.pool) : Loaded' (c.step op).reg op' := by
  cases op' with
  | proto W fuel path => exact step_protos c op path h hg
  | _ => trivial

theorem Rel.exec {fl : Bool} (ops : List Op) : ∀ {m : Match} {c1 c2 : Client}, Rel fl m c1 c2 →
    (∀ op ∈ ops, fl = true ∨ Loaded' c1.reg op) → ∃ m', m.le m' ∧ Rel fl m' (c1.exec ops) (c2.exec ops) := by
  induction ops with
  | nil => exact fun h _ => ⟨_, Match.le_refl _, h⟩
  | cons op ops ih =>
    intro m c1 c2 h hl
    obtain ⟨m1, l1, h1⟩ := h.step op (hl op List.mem_cons_self)
    obtain ⟨m2, l2, h2⟩ := ih h1 fun op' hop' => (hl op' (List.mem_cons_of_mem _ hop')).imp id fun x => step_loaded x h.good1
    exact ⟨m2, Match.le_trans l1 l2, h2⟩

/-! ### Histories -/

theorem Fine.step {c : Client} (h : Fine c) (op : Op) : Fine (c.step op) := by
  refine ⟨good_step h.good op, ?_⟩
  obtain ⟨m', -, h1⟩ := (h.rel true).step op (.inl rfl)
  exact h1.sim.h1.uniq

theorem Fine.exec (ops : List Op) : ∀ {c : Client}, Fine c → Fine (c.exec ops) := by
  induction ops with
  | nil => exact fun h => h
  | cons op ops ih => exact fun h => ih (h.step op)

theorem reachable_fine {P c} (h : Reachable P c) : Fine c := by
  obtain ⟨W, fuel, r, ops, -, hn, -, rfl⟩ := h
  refine Fine.exec ops ⟨?_, ?_⟩
  · obtain ⟨o, hi⟩ := newRegistry_inv hn
    exact ⟨o, hi, by intro n hn; cases hn⟩
  · intro a t a' t' b h1
    rw [(newRegistry_caches hn).2] at h1
    cases h1

theorem Fine.grow {c : Client} (h : Fine c) (op : Op) (hl : Loaded' c.reg op)
    (hok : Tidy (op.run c.pool c.reg).1) : Grow c.reg (c.step op).reg := by
  have he : (c.step op).reg = (op.run c.pool c.reg).2 := by
    unfold Client.step
    rcases op.run c.pool c.reg with ⟨res, r'⟩
    cases res <;> rfl
  rw [he]
  cases op with
  | proto W fuel path =>
    obtain ⟨i, e⟩ := proto_loaded (W := W) (fuel := fuel) hl
    simp only [Op.run, M.bind_apply, e]
    refine ⟨rfl, rfl, rfl, rfl, Nat.le_succ _, fun _ _ h => h, ?_, fun _ _ h => h, ?_⟩
    · intro v x h h'
      have h' : c.reg.cache v = some x := h'
      rw [h] at h'; cases h'
    · intro a x h h'
      have h' : c.reg.ftcache a = some x := h'
      rw [h] at h'; cases h'
  | byName name =>
    obtain ⟨m', -, -, -, hg⟩ := byName_at (h.rel false).sim name c.pool c.pool
    exact hg hok
  | query i q =>
    obtain ⟨m', -, -, -, hg⟩ := query_at (h.rel false) i q
    exact hg hok

/-! ### What the clients hold -/

theorem goEq_rel {m : Match} (j1 : ∀ a b b', m a b → m a b' → b = b') (j2 : ∀ a a' b, m a b → m a' b → a = a')
    {n1 n2 k1 k2 : Node} (h : NRel m n1 n2) (g : NRel m k1 k2) : GoEq n1 k1 ↔ GoEq n2 k2 := by
  have e : ∀ {a b c d : Nat}, m a b → m c d → (a = c ↔ b = d) := fun h g =>
    ⟨fun e => j1 _ _ _ h (e ▸ g), fun e => j2 _ _ _ h (e ▸ g)⟩
  cases h <;> cases g <;> first
    | exact Iff.rfl
    | exact e ‹_› ‹_›
    | exact and_congr_right fun _ => e ‹_› ‹_›

section
variable {m : Match} {o : Ghost} {r1 r2 : Reg} (hh : r2.heap = r1.heap)
include hh

theorem corr {p : Ptr} (hp : ∃ f, r1.heap[p.file]? = some f) : Corresponds r1 r2 p p := by
  obtain ⟨f, hf⟩ := hp
  exact ⟨rfl, f, hf, by rw [hh]; exact hf⟩

theorem optCorr {p : Option Ptr} (g : OptOK r1 p) : SameOption r1 r2 p p := by
  cases p with
  | none => trivial
  | some p =>
    obtain ⟨⟨n, c, hk⟩, -⟩ := g
    exact corr hh (kind_file' hk)

mutual
theorem sameVal : {v w : OptVal} → VRel m v w → GoodVal o r1 v → SameVal r1 r2 v w
  | _, _, .bool, g => .bool (optCorr hh g)
  | _, _, .int, g => .int (optCorr hh g)
  | _, _, .uint, g => .uint (optCorr hh g)
  | _, _, .float, g => .float (optCorr hh g)
  | _, _, .string, g => .string (optCorr hh g)
  | _, _, .bytes, g => .bytes (optCorr hh g)
  | _, _, .enum _, g => .enum (optCorr hh g.1) (corr hh (rooted_file' g.2.rooted))
  | _, _, .array e, g => .array (optCorr hh g.1) (sameVals e g.2).1 (sameVals e g.2).2
  | _, _, .map e, g => .map (optCorr hh g.1) (sameItems e g.2).1
      (fun i k v k' v' a b => ((sameItems e g.2).2 i k v k' v' a b).1)
      (fun i k v k' v' a b => ((sameItems e g.2).2 i k v k' v' a b).2)
theorem sameVals : {vs ws : List OptVal} → VRels m vs ws → GoodVals o r1 vs → vs.length = ws.length ∧
    ∀ (i : Nat) (v v' : OptVal), vs[i]? = some v → ws[i]? = some v' → SameVal r1 r2 v v'
  | _, _, .nil, _ => ⟨rfl, fun i v v' a _ => by cases a⟩
  | _, _, .cons e es, g => ⟨by simp [(sameVals es g.2).1], fun i v v' a b => by
      cases i with
      | zero => cases a; cases b; exact sameVal e g.1
      | succ i => exact (sameVals es g.2).2 i v v' a b⟩
theorem sameItems : {vs ws : List (Str × OptVal)} → VItems m vs ws → GoodItems o r1 vs → vs.length = ws.length ∧
    ∀ (i : Nat) (k : Str) (v : OptVal) (k' : Str) (v' : OptVal), vs[i]? = some (k, v) → ws[i]? = some (k', v') →
      k = k' ∧ SameVal r1 r2 v v'
  | _, _, .nil, _ => ⟨rfl, fun i k v k' v' a _ => by cases a⟩
  | _, _, .cons e es, g => ⟨by simp [(sameItems es g.2).1], fun i k v k' v' a b => by
      cases i with
      | zero => cases a; cases b; exact ⟨rfl, sameVal e g.1⟩
      | succ i => exact (sameItems es g.2).2 i k v k' v' a b⟩
end

theorem sameNode {n1 n2 : Node} (h : NRel m n1 n2) (g : Good o r1 n1) : SameNode r1 r2 n1 n2 := by
  induction h with
  | wrapped _ => exact .wrapped (corr hh (rooted_file' g.rooted))
  | option _ =>
    obtain ⟨_, ⟨⟨_, _, k1⟩, _⟩, ⟨_, _, k2⟩, ⟨_, _, _, _, _, k3⟩, _⟩ := g
    exact .option (corr hh (kind_file' k1)) (corr hh (kind_file' k2)) (corr hh (kind_file' k3))
  | oneof _ => exact .oneof (corr hh (rooted_file' g.2.2))
  | map _ =>
    obtain ⟨_, _, _, _, _, k⟩ := g
    exact .map (corr hh (kind_file' k))
  | repeatedNil _ => exact .repeatedNil
  | «repeated» _ _ ih => exact .repeated (ih g.2.2)
  | builtin => exact .builtin
  | value e => exact .value (sameVal hh e g)
  | mapItem e => exact .mapItem (sameVal hh e g)

end

theorem allRel_length {α β : Type} {R : α → β → Prop} {l1 l2} (h : AllRel R l1 l2) : l1.length = l2.length := by
  induction h with
  | nil => rfl
  | cons _ _ ih => simp [ih]

theorem Rel.pair {fl : Bool} {m : Match} {c1 c2 : Client} (h : Rel fl m c1 c2) {i : Nat} {n1 n2 : Node}
    (e1 : c1.pool[i]? = some n1) (e2 : c2.pool[i]? = some n2) : NRel m n1 n2 := by
  rcases h.pool.get i with ⟨e, -⟩ | ⟨a, b, h1, h2, hr⟩
  · rw [e1] at e; cases e
  · rw [e1] at h1; rw [e2] at h2
    cases h1; cases h2
    exact hr

theorem Rel.same {fl : Bool} {m : Match} {c1 c2 : Client} (h : Rel fl m c1 c2) : SameHandles c1 c2 := by
  obtain ⟨o, -, hg⟩ := h.good1
  exact ⟨allRel_length h.pool,
    fun i n1 n2 e1 e2 => sameNode h.sim.heap (h.pair e1 e2) (hg _ (List.mem_of_getElem? e1)),
    fun i j n1 n2 m1 m2 e1 e2 e3 e4 => goEq_rel h.sim.inj1 h.sim.inj2 (h.pair e1 e2) (h.pair e3 e4)⟩

theorem resRel_eq {α : Type} {a b : Res α} (h : ResRel (fun x y => x = y) a b) : a = b := by
  cases a <;> cases b <;> simp only [ResRel] at h
  · rw [h]
  · rw [h]
  · rfl

theorem Rel.answer {fl : Bool} {m : Match} {c1 c2 : Client} (h : Rel fl m c1 c2) (op : Op) :
    (op.answer c1.pool c1.reg).1 = (op.answer c2.pool c2.reg).1 := by
  cases op with
  | proto W fuel path =>
    obtain ⟨-, hf⟩ := proto_front W fuel path h.sim.front
    simp only [Op.answer, M.bind_apply]
    rcases e1 : proto W fuel path c1.reg with ⟨res1, r1'⟩
    rcases e2 : proto W fuel path c2.reg with ⟨res2, r2'⟩
    rw [e1, e2] at hf
    simp only at hf
    obtain ⟨i, rfl, rfl, -⟩ | ⟨rfl, -⟩ := hf
    · rfl
    · cases res2 with
      | ok x => cases x <;> rfl
      | panic e => rfl
      | timeout => rfl
  | byName name =>
    obtain ⟨m', -, hr, -⟩ := (nothing_eqv (nodeByFullName_eqv name)).at h.sim
    exact resRel_eq hr
  | query i q =>
    simp only [Op.answer]
    rcases h.pool.get i with ⟨e1, e2⟩ | ⟨n1, n2, e1, e2, hn⟩
    · rw [e1, e2]; rfl
    · rw [e1, e2]
      obtain ⟨_, _, g1⟩ := h.good1
      obtain ⟨_, _, g2⟩ := h.good2
      obtain ⟨m', -, hr, -⟩ := queryAnswer_at q hn h.sim (handed (g1 _ (List.mem_of_getElem? e1)))
        (handed (g2 _ (List.mem_of_getElem? e2)))
      exact resRel_eq hr

theorem Rel.index {fl : Bool} {m : Match} {c1 c2 : Client} (h : Rel fl m c1 c2) {i : Nat} {n1 n2 : Node}
    (e1 : c1.pool[i]? = some n1) (e2 : c2.pool[i]? = some n2) : (nodeIndex n1 c1.reg).1 = (nodeIndex n2 c2.reg).1 := by
  obtain ⟨m', -, hr, -⟩ := (nodeIndex_eqv (h.pair e1 e2)).at h.sim
  exact resRel_eq hr

end Protoast.Quiet
