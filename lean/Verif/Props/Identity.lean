import Verif.Spec.Identity
import Verif.Examples
import Verif.Props.Names2
/-
  C24-C28, C57: identity of nodes, stability, and what queries can change.
-/
namespace Protoast.Props
open Protoast

/-! ### C24 -/

/-- C24: all handles a client ever obtains for the same element, by whichever route, are the identical node
    (files are the exception, C26). -/
theorem C24_one_node {P c a k p a' k'} (hr : Reachable P c) (h : Node.wrapped a k p ∈ c.pool)
    (h' : Node.wrapped a' k' p ∈ c.pool) (hk : k ≠ .file) :
    GoEq (.wrapped a k p) (.wrapped a' k' p) := by
  obtain ⟨o, hi, hg⟩ := reachable_inv hr
  have g := hg _ h
  have g' := hg _ h'
  have e := g.target.symm.trans g'.target
  simp only [Option.some.injEq, Prod.mk.injEq, and_true] at e
  subst e
  have := (g.cached hk).symm.trans (g'.cached hk)
  simp only [Option.some.injEq, Node.wrapped.injEq, and_true] at this
  exact ⟨rfl, this⟩

/-- C24 over time: a handle obtained now and one obtained for the same element after any further calls are
    the identical node. -/
theorem C24_over_time {P c ops a k p a' k'} (hr : Reachable P c) (hs : ∀ op ∈ ops, Op.Sat P op)
    (h : Node.wrapped a k p ∈ c.pool) (h' : Node.wrapped a' k' p ∈ (c.exec ops).pool) (hk : k ≠ .file) :
    GoEq (.wrapped a k p) (.wrapped a' k' p) := by
  refine C24_one_node (reachable_exec hr ops hs) ?_ h' hk
  obtain ⟨l, hl⟩ := exec_pool ops c
  rw [hl]
  exact List.mem_append_left _ h

/-- The message M reached as top-level message and as parent of one of its fields. -/
example : ∃ c, Reachable AnyTree c ∧ Ex.hasA c 1 1 .message ⟨1, [4]⟩ = true ∧
    Ex.hasA c 14 1 .message ⟨1, [4]⟩ = true :=
  ⟨Client.exec ⟨Ex.r0, []⟩ (Ex.ops2 ++ [.query 2 (.plain .parent)]), Ex.reach_any _, by decide +kernel,
    by decide +kernel⟩

/-! ### C25 -/

/-- C25: if two handles are the identical node, they are the same handle in every respect; in particular
    they stand for the same element. -/
theorem C25_different_nodes {P c n m} (hr : Reachable P c) (hn : n ∈ c.pool) (hm : m ∈ c.pool)
    (he : GoEq n m) : n = m := by
  obtain ⟨o, hi, hg⟩ := reachable_inv hr
  have g := hg _ hn
  have g' := hg _ hm
  have key : ∀ a, o a = some n → o a = some m → n = m := by
    intro a h1 h2; rw [h1] at h2; cases h2; rfl
  have hrep : ∀ a t, Good o c.reg (.repeated a t) → o a = some (.repeated a t) := by
    intro a t h
    cases t with
    | none => exact h
    | some t => exact h.1
  cases n <;> cases m <;> simp only [GoEq] at he
  case wrapped.wrapped a k p b k' p' =>
    obtain ⟨rfl, rfl⟩ := he
    exact key _ g.owner g'.owner
  case option.option => subst he; exact key _ g.1 g'.1
  case oneof.oneof => subst he; exact key _ g.1 g'.1
  case map.map => subst he; exact key _ g.1 g'.1
  case repeated.repeated => subst he; exact key _ (hrep _ _ g) (hrep _ _ g')
  case builtin.builtin => rw [he]

/-- C24 and C25 together: comparing message, enum and field handles with `==` decides whether they stand for
    the same declaration. -/
theorem C25_eq_iff_same_declaration {P c a k p b k' q} (hr : Reachable P c)
    (hn : Node.wrapped a k p ∈ c.pool) (hm : Node.wrapped b k' q ∈ c.pool) (hk : k ≠ .file) :
    GoEq (.wrapped a k p) (.wrapped b k' q) ↔ p = q := by
  constructor
  · intro h
    have := C25_different_nodes hr hn hm h
    cases this; rfl
  · rintro rfl
    exact C24_one_node hr hn hm hk

example : Reachable AnyTree Ex.c2 ∧ (∃ a, Node.wrapped a .message ⟨1, [4]⟩ ∈ Ex.c2.pool) ∧
    (∃ a, Node.wrapped a .message ⟨1, [5, 4]⟩ ∈ Ex.c2.pool) :=
  ⟨Ex.c2_reach, Ex.hasW_spec (i := 1) (by decide +kernel), Ex.hasW_spec (i := 7) (by decide +kernel)⟩

/-! ### C26 -/

/-- The full statement of C26: any two handles for the same file are the identical node. -/
def C26_statement : Prop :=
  ∀ (c : Client) (a a' : Nat) (p : Ptr), Reachable WFFile c → Node.wrapped a .file p ∈ c.pool →
    Node.wrapped a' .file p ∈ c.pool → GoEq (.wrapped a .file p) (.wrapped a' .file p)

/-- Two `Proto` calls for one path and a `NodeFile`: three different nodes. -/
def fileOps : List Op := Ex.ops2 ++ [.proto Ex.W 5 Ex.pa, .query 1 (.plain .file)]
def fileClient : Client := Client.exec ⟨Ex.r0, []⟩ fileOps
theorem fileClient_wf : Reachable WFFile fileClient := Ex.reach_exec Ex.W_wf _ (Ex.opsW_sat _ (by
  intro op hop W' f p e
  subst e
  simp only [fileOps, Ex.ops2, List.cons_append, List.nil_append, List.mem_cons, Op.proto.injEq,
    reduceCtorEq, List.not_mem_nil, or_false, false_or] at hop
  rcases hop with hop | hop <;> (rw [hop.1]; exact Ex.W_wf)))

/-- C26 is false of the code: `Proto` allocates a new `*File` on each call and bypasses the node cache. -/
theorem C26_false : ¬ C26_statement := by
  intro h
  have := h fileClient 0 14 ⟨1, []⟩ fileClient_wf (Ex.hasA_spec (i := 0) (by decide +kernel))
    (Ex.hasA_spec (i := 14) (by decide +kernel))
  exact absurd this.2 (by decide)

/-- Also the file of a node is not identical to what `Proto` returned. -/
theorem C26_false_nodeFile : ∃ a a' p, Node.wrapped a .file p ∈ fileClient.pool ∧
    Node.wrapped a' .file p ∈ fileClient.pool ∧ a ≠ a' ∧
    fileClient.pool[15]? = some (.wrapped a' .file p) ∧ fileClient.pool[0]? = some (.wrapped a .file p) :=
  ⟨0, 15, ⟨1, []⟩, Ex.hasA_spec (i := 0) (by decide +kernel), Ex.hasA_spec (i := 15) (by decide +kernel),
    by decide, by rfl, by rfl⟩

theorem wrapAs_ok_cache {k p r n r'} (h : wrapAs k p r = (.ok n, r')) :
    r'.cache (.at p) = some (some n) := by
  unfold wrapAs at h
  simp only [M.bind_apply] at h
  rcases hw : wrap (.at p) r with ⟨res, r1⟩
  rw [hw] at h
  cases res with
  | panic e => cases h
  | timeout => cases h
  | ok x =>
    simp only at h
    have hc := wrap_ok_cache hw
    cases x with
    | none => cases h
    | some x =>
      cases x <;> simp only [assertKind] at h
      case wrapped a k' q =>
        by_cases e : k' = k
        · rw [if_pos e] at h; cases h; exact hc
        · rw [if_neg e] at h; cases h
      all_goals cases h

theorem nodeParent_cached : (n : Node) → ∀ {r x r'}, nodeParent n r = (.ok (some x), r') →
    ∃ v, r'.cache v = some (some x)
  | .repeated _ (some t), r, x, r', h => nodeParent_cached t (by simpa [nodeParent] using h)
  | .repeated _ none, r, x, r', h => by cases h
  | .wrapped _ k p, r, x, r', h => by
    unfold nodeParent at h
    simp only [M.bind_apply, M.get_apply] at h
    cases k <;> simp only at h
    case messageField =>
      rcases hk : r.kind p with _ | kd
      · rw [hk] at h; cases h
      · rw [hk] at h
        cases kd <;> first | cases h; done | exact ⟨_, wrap_ok_cache h⟩
    case file => cases h
    all_goals exact ⟨_, wrap_ok_cache h⟩
  | .oneof _ p, r, x, r', h => ⟨_, wrap_ok_cache h⟩
  | .option _ p _ _, r, x, r', h => ⟨_, wrap_ok_cache h⟩
  | .value v, r, x, r', h => by
    unfold nodeParent at h
    cases hv : v.opt with
    | none => rw [hv] at h; exact ⟨_, wrap_ok_cache h⟩
    | some q => rw [hv] at h; exact ⟨_, wrap_ok_cache h⟩
  | .map _ _, r, x, r', h => by cases h
  | .builtin _, r, x, r', h => by cases h
  | .mapItem _ _, r, x, r', h => by cases h

theorem nodeHierarchy_cached : ∀ (fuel : Nat) {n : Node} {r r' : Reg} {l : List Node},
    nodeHierarchy fuel (some n) r = (.ok l, r') →
    ∃ rest, l = n :: rest ∧ ∀ f ∈ rest, ∃ v, r'.cache v = some (some f) := by
  intro fuel
  induction fuel with
  | zero => intro n r r' l h; cases h
  | succ fuel ih =>
    intro n r r' l h
    unfold nodeHierarchy at h
    simp only [M.bind_apply] at h
    rcases hp : nodeParent n r with ⟨res, r1⟩
    rw [hp] at h
    cases res with
    | panic e => cases h
    | timeout => cases h
    | ok x =>
      simp only at h
      rcases hh : nodeHierarchy fuel x r1 with ⟨res2, r2⟩
      rw [hh] at h
      cases res2 with
      | panic e => cases h
      | timeout => cases h
      | ok rest =>
        cases h
        refine ⟨rest, rfl, ?_⟩
        cases x with
        | none =>
          cases fuel <;> (cases hh; intro f hf; cases hf)
        | some y =>
          obtain ⟨rest', rfl, h2⟩ := ih hh
          intro f hf
          rcases List.mem_cons.mp hf with rfl | hf
          · obtain ⟨v, hv⟩ := nodeParent_cached n hp
            refine ⟨v, ?_⟩
            have := ((RO.nodeHierarchy fuel (some f)).ext r1).cache _ _ hv
            rw [hh] at this
            exact this
          · exact h2 f hf

theorem fileRoute_cached {o r n f r'} (hi : Inv o r) (hg : Good o r n) (h : FileRoute n r f r')
    {a p} (hf : f = .wrapped a .file p) : r'.cache (.at p) = some (some (.wrapped a .file p)) := by
  have done : ∀ o' r', Inv o' r' → (∃ v, r'.cache v = some (some f)) →
      r'.cache (.at p) = some (some (.wrapped a .file p)) := by
    rintro o' r' hi' ⟨v, hv⟩
    rw [hf] at hv
    obtain ⟨a', k', p', h1, h2, _⟩ := hi'.cacheSome _ _ hv
    cases h2; subst h1
    exact hv
  cases h with
  | file h =>
    obtain ⟨o', _, hi', _⟩ := nodeFile_tri hi n
    rw [h] at hi'
    refine done o' _ hi' ?_
    unfold nodeFile at h
    simp only [M.bind_apply] at h
    rcases hp : nodePos n r with ⟨res, r1⟩
    rw [hp] at h
    cases res with
    | panic e => cases h
    | timeout => cases h
    | ok ps =>
      simp only [M.get_apply] at h
      cases hpr : r1.protos ps.filename with
      | none => rw [hpr] at h; cases h
      | some i =>
        rw [hpr] at h
        simp only [M.bind_apply] at h
        rcases hw : wrapAs .file ⟨i, []⟩ r1 with ⟨res2, r2⟩
        rw [hw] at h
        cases res2 with
        | panic e => cases h
        | timeout => cases h
        | ok x => cases h; exact ⟨_, wrapAs_ok_cache hw⟩
  | parent h =>
    obtain ⟨o', _, hi', _⟩ := nodeParent_tri hi n hg
    rw [h] at hi'
    exact done o' _ hi' (nodeParent_cached n h)
  | @hierarchy fuel _ rest _ h hm =>
    obtain ⟨o', _, hi', _⟩ := nodeHierarchy_tri fuel hi (x := some n) (by intro m hm; cases hm; exact hg)
    rw [h] at hi'
    obtain ⟨rest', e, h2⟩ := nodeHierarchy_cached fuel h
    cases e
    exact done o' _ hi' (h2 f hm)

/-- C26, the part that holds: file handles obtained through `NodeFile`, `NodeParent` or `NodeHierarchy` (other
    than the starting node itself) are the identical node for the same file, whatever calls happen in
    between. Missing: handles returned by `Proto`. -/
theorem C26_partial {P c n1 a1 p r1 ops n2 a2 r2} (hr : Reachable P c) (hn1 : n1 ∈ c.pool)
    (h1 : FileRoute n1 c.reg (.wrapped a1 .file p) r1)
    (hn2 : n2 ∈ (Client.exec ⟨r1, c.pool ++ [.wrapped a1 .file p]⟩ ops).pool)
    (h2 : FileRoute n2 (Client.exec ⟨r1, c.pool ++ [.wrapped a1 .file p]⟩ ops).reg (.wrapped a2 .file p) r2) :
    GoEq (.wrapped a1 .file p) (.wrapped a2 .file p) := by
  obtain ⟨o, hi, hg⟩ := reachable_inv hr
  have hc1 := fileRoute_cached hi (hg _ hn1) h1 rfl
  have hstep : ∃ o', Inv o' r1 ∧ GoodL o' r1 (c.pool ++ [.wrapped a1 .file p]) := by
    have fin : ∀ {o' : Ghost}, Ext o c.reg o' r1 → Inv o' r1 →
        ∃ o', Inv o' r1 ∧ GoodL o' r1 (c.pool ++ [.wrapped a1 .file p]) := by
      intro o' hx hi'
      refine ⟨o', hi', ?_⟩
      intro m hm
      rcases List.mem_append.mp hm with h | h
      · exact hx.good _ (hg _ h)
      · simp only [List.mem_singleton] at h
        subst h
        obtain ⟨a, k, q, e1, e2, e3, e4⟩ := hi'.cacheSome _ _ hc1
        cases e2
        exact ⟨e4, e3, (by cases e1; exact hi'.cacheRooted _ _ hc1), fun h => absurd rfl h⟩
    cases h1 with
    | file h =>
      obtain ⟨o', hx, hi', _⟩ := nodeFile_tri hi n1
      rw [h] at hx hi'
      exact fin hx hi'
    | parent h =>
      obtain ⟨o', hx, hi', _⟩ := nodeParent_tri hi n1 (hg _ hn1)
      rw [h] at hx hi'
      exact fin hx hi'
    | @hierarchy fuel _ _ _ h hm =>
      obtain ⟨o', hx, hi', _⟩ := nodeHierarchy_tri fuel hi (x := some n1)
        (by intro m hm; cases hm; exact hg _ hn1)
      rw [h] at hx hi'
      exact fin hx hi'
  obtain ⟨o', hi', hg'⟩ := hstep
  obtain ⟨o2, hx2, hi2, hg2⟩ := exec_inv ops (c := ⟨r1, c.pool ++ [.wrapped a1 .file p]⟩) hi' hg'
  have hc2 := fileRoute_cached hi2 (hg2 _ hn2) h2 rfl
  have hro : CacheExt (Client.exec ⟨r1, c.pool ++ [.wrapped a1 .file p]⟩ ops).reg r2 := by
    cases h2 with
    | file h => have := (RO.nodeFile n2).ext (Client.exec ⟨r1, c.pool ++ [.wrapped a1 .file p]⟩ ops).reg
                rw [h] at this; exact this
    | parent h => have := (RO.nodeParent n2).ext (Client.exec ⟨r1, c.pool ++ [.wrapped a1 .file p]⟩ ops).reg
                  rw [h] at this; exact this
    | @hierarchy fuel _ _ _ h hm =>
      have := (RO.nodeHierarchy fuel (some n2)).ext
        (Client.exec ⟨r1, c.pool ++ [.wrapped a1 .file p]⟩ ops).reg
      rw [h] at this; exact this
  have hc1' := hro.cache _ _ (hx2.cache _ _ hc1)
  rw [hc1'] at hc2
  cases hc2
  exact ⟨rfl, rfl⟩

/-- `NodeFile` of the message M and `NodeParent` of the service S. -/
example : ∃ a r1, FileRoute (.wrapped 1 .message ⟨1, [4]⟩) Ex.c2.reg (.wrapped a .file ⟨1, []⟩) r1 ∧
    Node.wrapped 1 .message ⟨1, [4]⟩ ∈ Ex.c2.pool ∧
    ∃ r2, FileRoute (.wrapped 9 .service ⟨1, [5]⟩)
      (Client.exec ⟨r1, Ex.c2.pool ++ [.wrapped a .file ⟨1, []⟩]⟩ [.proto Ex.W 5 Ex.pb]).reg
      (.wrapped a .file ⟨1, []⟩) r2 :=
  ⟨14, _, .file rfl, Ex.hasA_spec (i := 1) (by decide +kernel), _, .parent rfl⟩

/-! ### C27 -/

/-- C27: once `Type` of a field has returned, every later call on the same field, after any other calls
    including loads, returns the identical type and changes nothing. -/
theorem C27_type_stable {a p r t r1} (h : MessageField.type a p r = (.ok t, r1)) (pool : List Node)
    (ops : List Op) :
    MessageField.type a p (Client.exec ⟨r1, pool⟩ ops).reg = (.ok t, (Client.exec ⟨r1, pool⟩ ops).reg) := by
  have hc : r1.ftcache a = some t := by
    unfold MessageField.type at h
    split at h
    · next e => cases h; exact e
    · split at h
      · cases h; simp [upd]
      · cases h
      · cases h
  have := (exec_later ops ⟨r1, pool⟩).ftcache a t hc
  unfold MessageField.type
  rw [this]

/-- C27 with C24: two field handles for the same field, obtained by different routes at different times, give
    the identical type. -/
theorem C27_any_route {P c a k p t r1 ops a' k'} (hr : Reachable P c) (hs : ∀ op ∈ ops, Op.Sat P op)
    (hn : Node.wrapped a k p ∈ c.pool) (hk : k ≠ .file) (h : MessageField.type a p c.reg = (.ok t, r1))
    (hw : r1 = (Client.exec c [.query i (.plain .fieldType)]).reg)
    (hn' : Node.wrapped a' k' p ∈ (Client.exec c (.query i (.plain .fieldType) :: ops)).pool) :
    MessageField.type a' p (Client.exec c (.query i (.plain .fieldType) :: ops)).reg =
      (.ok t, (Client.exec c (.query i (.plain .fieldType) :: ops)).reg) := by
  have hs' : ∀ op ∈ (Op.query i (.plain .fieldType) :: ops), Op.Sat P op := by
    intro op hop
    rcases List.mem_cons.mp hop with rfl | h
    · trivial
    · exact hs op h
  have he := C24_over_time hr hs' hn hn' hk
  obtain ⟨rfl, rfl⟩ := he
  have := C27_type_stable h (Client.exec c [.query i (.plain .fieldType)]).pool ops
  rw [hw] at this
  exact this

/-- The field `n` of M, whose type is repeated. -/
example : ∃ t r1, MessageField.type 3 ⟨1, [1, 4]⟩ Ex.c2.reg = (.ok (some (.repeated 14 t)), r1) := ⟨_, _, rfl⟩

/-! ### C28 -/

/-- The full statement of C28, for `NodeByFullName`. -/
def C28_statement : Prop :=
  ∀ (c : Client) (name : Str) (e : Panic) (r' : Reg), Reachable WFFile c →
    nodeByFullName name c.reg = (.panic e, r') → ∃ e' r'', nodeByFullName name r' = (.panic e', r'')

/-- C28 is false of the code: looking up an unknown name panics the first time and returns nil from then on. -/
theorem C28_false : ¬ C28_statement := by
  intro h
  obtain ⟨e', r'', h2⟩ := h Ex.c2 b!".no.such" .unsupportedType _ Ex.c2_wf rfl
  cases h2

/-- C28, the part that holds: a registered name is found in every reachable state, so no earlier panic
    poisons it; an unregistered name never yields a node. Missing: for an unregistered name it panics the
    first time and is nil later. -/
theorem C28_partial {P c} (hr : Reachable P c) (name : Str) :
    (∀ p, c.reg.registry name = some p →
      ∃ a k r', nodeByFullName name c.reg = (.ok (some (.wrapped a k p)), r')) ∧
    (c.reg.registry name = none →
      (∃ r', nodeByFullName name c.reg = (.panic .unsupportedType, r')) ∨
      nodeByFullName name c.reg = (.ok none, c.reg)) := by
  obtain ⟨o, hi, -⟩ := reachable_inv hr
  constructor
  · intro p hp
    obtain ⟨a, k, _, r', h, _⟩ := byName_reg hi hp
    exact ⟨a, k, r', h⟩
  · intro hn
    unfold nodeByFullName
    simp only [M.bind_apply, M.get_apply, hn]
    unfold wrap
    cases hc : c.reg.cache .nil with
    | some x =>
      cases x with
      | none => exact .inr rfl
      | some n =>
        obtain ⟨a, k, p, h1, _⟩ := hi.cacheSome _ _ hc
        cases h1
    | none => exact .inl ⟨_, rfl⟩

/-- The field analogue: a `Type` call that panicked (the name resolves to a non-type) returns nil when it is
    repeated. -/
theorem C28_type_after_panic {a p r e r1} (h : MessageField.type a p r = (.panic e, r1)) :
    MessageField.type a p r1 = (.ok none, r1) := by
  have hc : r1.ftcache a = some none := by
    unfold MessageField.type at h
    split at h
    · cases h
    · split at h
      · cases h
      · cases h; simp [upd]
      · cases h
  unfold MessageField.type
  rw [hc]

/-! ### C57 -/

/-- C57: no call on a handle, whether it returns or panics, changes which files are loaded, what any name
    denotes, or the fully qualified name of anything. -/
theorem C57_queries_preserve_meaning (q : Query) (n : Node) (r : Reg) :
    (∀ path, (q.run n r).2.protos path = r.protos path) ∧
    (∀ i : Nat, (q.run n r).2.heap[i]? = r.heap[i]?) ∧
    (∀ name, (q.run n r).2.registry name = r.registry name) ∧
    (∀ scope name, resolveNameRaw (q.run n r).2.defined scope name = resolveNameRaw r.defined scope name) ∧
    (∀ m, (nodeIndex m (q.run n r).2).1 = (nodeIndex m r).1) := by
  have h := (RO.queryRun q n).ext r
  refine ⟨fun _ => by rw [h.protos], fun _ => by rw [h.heap], fun _ => by rw [h.registry], ?_, ?_⟩
  · intro scope name
    have : (q.run n r).2.defined = r.defined := by funext s; simp [Reg.defined, h.registry]
    rw [this]
  · intro m
    have hs : ∀ v, (q.run n r).2.scope v = r.scope v := by intro v; simp [Reg.scope, h.scopes]
    have hk : ∀ p, (q.run n r).2.kind p = r.kind p := by intro p; simp [Reg.kind, Reg.elem, h.heap]
    unfold nodeIndex
    split
    · simp only [M.bind_apply, M.get_apply]
      split <;> simp only [M.pure_apply, hs, hk]
      next p _ =>
        rcases r.kind p with _ | kd
        · rfl
        · cases kd <;> rfl
    · simp only [M.bind_apply, M.get_apply, M.pure_apply, hs]
    · simp only [M.bind_apply, M.get_apply, M.pure_apply, hs]
    · rfl

/-- The same for lookups by full name. -/
theorem C57_byName_preserves_meaning (s : Str) (r : Reg) :
    (∀ path, (nodeByFullName s r).2.protos path = r.protos path) ∧
    (∀ i : Nat, (nodeByFullName s r).2.heap[i]? = r.heap[i]?) ∧
    (∀ name, (nodeByFullName s r).2.registry name = r.registry name) ∧
    (∀ v, (nodeByFullName s r).2.scope v = r.scope v) := by
  have h := (RO.nodeByFullName s).ext r
  exact ⟨fun _ => by rw [h.protos], fun _ => by rw [h.heap], fun _ => by rw [h.registry],
    fun _ => by simp [Reg.scope, h.scopes]⟩

end Protoast.Props
