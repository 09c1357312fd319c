import Verif.Proof.NewFiles
import Verif.Proof.Types
import Verif.Proof.Types2
import Verif.Examples
/-
  C09–C13, C15, C17, C18, C20: registered names.
-/
namespace Protoast.Props
open Protoast

theorem byName_reg {o r} (hi : Inv o r) {name p} (h : r.registry name = some p) :
    ∃ a k kd r', nodeByFullName name r = (.ok (some (.wrapped a k p)), r') ∧ r.kind p = some kd ∧
      wrapKind kd = some k := by
  obtain ⟨e, k, he, hk⟩ := hi.regPtr _ _ h
  obtain ⟨a, r', h1, _⟩ := wrap_ok hi (target_of_elem he hk)
  refine ⟨a, k, e.kind, r', ?_, by simp [Reg.kind, he], hk⟩
  unfold nodeByFullName
  simp [h, h1]

/-! ### C09 -/

/-- C09: after a successful `Proto` call in a registry whose loads did not panic, every file reachable
    through imports is loaded, and each of its declarations can be found by its fully qualified name: looking
    the name up gives a handle to a declaration of that name, which is that very declaration unless the
    loaded files declare the name twice. -/
theorem C09_import_closure {c W fuel path n r'} (hc : CleanReachable WFFile c) (hW : W.Sat WFFile)
    (h : proto W fuel path c.reg = (.ok (.ok n), r')) (q : Str) (hq : ImportReach r' path q) :
    ∃ i f, r'.protos q = some i ∧ r'.heap[i]? = some f ∧ f.filename = q ∧
      ∀ p name, f.fqn p = some name → ∃ d a k r'', Declared r' name d ∧
        nodeByFullName name r' = (.ok (some (.wrapped a k d)), r'') ∧
        (UniqueNames r' → d = ⟨i, p⟩) := by
  have hc' := clean_proto hc hW h
  obtain ⟨o, hi, -⟩ := reachable_inv (clean_reachable hc')
  have hcomp := clean_complete hc'
  have hsound := reachable_sound (clean_reachable hc')
  simp only at hi hcomp hsound
  have := complete_reach hcomp (proto_ok_protos h) hq
  rw [Option.isSome_iff_exists] at this
  obtain ⟨i, hpi⟩ := this
  obtain ⟨f, hf, hn⟩ := hi.protosHeap _ _ hpi
  refine ⟨i, f, hpi, hf, hn, ?_⟩
  intro p name hname
  have hs := (hcomp i f (Nat.zero_le _) hf).names p name hname
  rw [Option.isSome_iff_exists] at hs
  obtain ⟨d, hd⟩ := hs
  obtain ⟨a, k, kd, r'', e, _, _⟩ := byName_reg hi hd
  have hdec := hsound.names _ _ hd
  exact ⟨d, a, k, r'', hdec, e, fun hu => hu name _ _ hdec ⟨f, hf, hname⟩⟩

/-- The contents of the closure are those of the world: whatever is reachable in the world from `path` is
    reachable in the registry after the call. -/
theorem C09_world_closure {c W fuel path n r'} (hc : CleanReachable WFFile c) (hW : W.Sat WFFile)
    (h : proto W fuel path c.reg = (.ok (.ok n), r')) (q : Str) (hq : WorldReach c.reg W path q) :
    ImportReach r' path q ∧ ∀ elems, Contents c.reg W q elems →
      ∃ i f, r'.protos q = some i ∧ r'.heap[i]? = some f ∧ f.elems = elems := by
  have hc' := clean_proto hc hW h
  obtain ⟨o, hi, -⟩ := reachable_inv (clean_reachable hc')
  have hcomp := clean_complete hc'
  simp only at hi hcomp
  have hl : Later c.reg r' := by have := proto_later W fuel path c.reg; rw [h] at this; exact this
  have hnew : NewFrom W c.reg.heap.length r' := by
    have := proto_newFrom W fuel path c.reg; rw [h] at this; exact this
  have key : ∀ q, ImportReach r' path q → ∀ elems, Contents c.reg W q elems →
      ∃ i f, r'.protos q = some i ∧ r'.heap[i]? = some f ∧ f.elems = elems := by
    intro q hq elems hcont
    rcases hcont with ⟨i, f, h1, h2, h3⟩ | ⟨h1, h2⟩
    · exact ⟨i, f, hl.protos _ _ h1, by rw [hl.file (List.getElem?_eq_some_iff.mp h2).1]; exact h2, h3⟩
    · have := complete_reach hcomp (proto_ok_protos h) hq
      rw [Option.isSome_iff_exists] at this
      obtain ⟨i, hpi⟩ := this
      obtain ⟨f, hf, hn⟩ := hi.protosHeap _ _ hpi
      refine ⟨i, f, hpi, hf, ?_⟩
      have hge : c.reg.heap.length ≤ i := by
        by_cases hlt : i < c.reg.heap.length
        · exfalso
          rw [hl.file hlt] at hf
          obtain ⟨o', hi', -⟩ := reachable_inv (clean_reachable hc)
          have := hi'.heapProtos _ _ hf
          rw [hn, h1] at this
          cases this
        · omega
      have hrd := hnew i f hge hf
      rw [hn] at hrd
      exact readable_unique hrd h2
  have hreach : ImportReach r' path q := by
    induction hq with
    | refl => exact .refl _
    | step _ hcont hmem ih =>
      obtain ⟨i, f, h1, h2, h3⟩ := key _ ih _ hcont
      exact .step ih ⟨i, f, h1, h2, by rw [h3]; exact hmem⟩
  exact ⟨hreach, key q hreach⟩

/-- The example registry: loading `b.proto`, which imports `a.proto`, which imports `b.proto`. -/
example : ∃ n r', proto Ex.W 5 Ex.pb Ex.c2.reg = (.ok (.ok n), r') ∧ ImportReach r' Ex.pb Ex.pa ∧
    CleanReachable WFFile Ex.c2 ∧ Ex.W.Sat WFFile := by
  refine ⟨_, _, rfl, .step (.refl _) ⟨2, ⟨Ex.pb, Ex.fileB⟩, by decide +kernel, by rfl, by decide +kernel⟩,
    Ex.c2_clean, Ex.W_wf⟩

/-! ### C10 -/

/-- C10: in every reachable registry, every registered name is the fully qualified name of the declaration
    of a loaded file it is registered for. -/
theorem C10_names_sound {c} (hr : Reachable WFFile c) (name : Str) (p : Ptr)
    (h : c.reg.registry name = some p) : Declared c.reg name p := (reachable_sound hr).names _ _ h

/-- C10 through the API: a node found by name stands for a declaration with that fully qualified name, and
    the node's type fits the declaration. -/
theorem C10_found_is_declared {c} (hr : Reachable WFFile c) (name : Str) (n : Node) (r' : Reg)
    (h : nodeByFullName name c.reg = (.ok (some n), r')) :
    ∃ a k p kd, n = .wrapped a k p ∧ Declared c.reg name p ∧ c.reg.kind p = some kd ∧
      k.standsFor kd = true := by
  obtain ⟨o, hi, -⟩ := reachable_inv hr
  cases hreg : c.reg.registry name with
  | some p =>
    obtain ⟨a, k, kd, r'', e, h1, h2⟩ := byName_reg hi hreg
    rw [e] at h
    cases h
    exact ⟨a, k, p, kd, rfl, (reachable_sound hr).names _ _ hreg, h1, standsFor_of_wrapKind h2⟩
  | none =>
    unfold nodeByFullName at h
    simp only [M.bind_apply, M.get_apply, hreg] at h
    unfold wrap at h
    split at h
    · next x hx =>
      cases h
      obtain ⟨a, k, p, h1, _⟩ := hi.cacheSome _ _ hx
      cases h1
    · simp [Reg.wrapTarget] at h

/-- A deeply nested name of the example, a oneof branch and an extension field. -/
example : Reachable WFFile Ex.c2 ∧
    Ex.c2.reg.registry b!".p.q.M.N.Deep.up" = some ⟨1, [0, 0, 5, 4]⟩ ∧
    Ex.c2.reg.registry b!".p.q.M.left" = some ⟨1, [0, 3, 4]⟩ ∧
    Ex.c2.reg.registry b!".p.mark" = some ⟨2, [0, 4]⟩ :=
  ⟨Ex.c2_wf, by decide +kernel, by decide +kernel, by decide +kernel⟩

/-! ### C11 -/

/-- The full statement of C11. -/
def C11_statement : Prop :=
  ∀ (c : Client) (n : Node) (p : Ptr) (name : Str), CleanReachable WFFile c → n ∈ c.pool →
    n.decl = some p → Declared c.reg name p → nodeIndex n c.reg = (.ok name, c.reg)

/-- A client holding an enum value. -/
def enumValueOps : List Op :=
  [.proto Ex.W 5 Ex.pa, .byName b!".p.q.M.ZERO"]
def enumValueClient : Client := Client.exec ⟨Ex.r0, []⟩ enumValueOps
theorem enumValueClient_clean : CleanReachable WFFile enumValueClient :=
  ⟨Ex.W, 5, Ex.r0, enumValueOps, Ex.W_wf, Ex.W_ok, Ex.opsW_sat _ (by
    intro op hop W' f p e
    subst e
    simp only [enumValueOps, List.mem_cons, Op.proto.injEq, reduceCtorEq, List.not_mem_nil, or_false] at hop
    rw [hop.1]; exact Ex.W_wf), Ex.loadsB_spec (by decide +kernel), rfl⟩

/-- C11 is false of the code: enum values have an empty index. -/
theorem C11_false : ¬ C11_statement := by
  intro h
  have := h enumValueClient (.wrapped 1 .enumValue ⟨1, [0, 6, 4]⟩) ⟨1, [0, 6, 4]⟩ b!".p.q.M.ZERO"
    enumValueClient_clean (Ex.hasA_spec (i := 1) (by decide +kernel)) rfl
    ⟨⟨Ex.pa, Ex.fileA⟩, by rfl, by decide +kernel⟩
  have h2 : nodeIndex (.wrapped 1 .enumValue ⟨1, [0, 6, 4]⟩) enumValueClient.reg
      = (.ok [], enumValueClient.reg) := by rfl
  rw [h2] at this
  cases this

theorem nodeIndex_scope {o r} {n : Node} (g : Good o r n) {p : Ptr} (hd : n.decl = some p) :
    nodeIndex n r = (.ok (r.scope (.at p)), r) ∨ ∀ name, ¬ Declared r name p := by
  cases n with
  | oneof a q => simp only [Node.decl, Option.some.injEq] at hd; subst hd; exact .inl rfl
  | map a q => simp only [Node.decl, Option.some.injEq] at hd; subst hd; exact .inl rfl
  | wrapped a k q =>
    simp only [Node.decl, Option.some.injEq] at hd
    subst hd
    have ht := g.target
    have hdecl : ∀ kd, r.kind q = some kd → kd.declName = none → ∀ name, ¬ Declared r name q := by
      rintro kd hk hdn name ⟨f, hf, hq⟩
      rcases q with ⟨qi, path⟩
      cases path with
      | nil => simp [ProtoFile.fqn] at hq
      | cons j rest =>
        unfold Reg.kind Reg.elem at hk
        simp only at hk hf
        rw [hf] at hk
        simp only [Option.bind_some, Option.map_eq_some_iff] at hk
        obtain ⟨e, he, rfl⟩ := hk
        simp only [ProtoFile.fqn, he, Option.bind_some, hdn] at hq
        revert hq
        cases f.scopeAt rest <;> simp
    cases hp : q.path with
    | nil =>
      have : k = .file := by
        rcases q with ⟨qi, path⟩; simp only at hp; subst hp
        simp only [Reg.wrapTarget] at ht
        split at ht
        · cases ht; rfl
        · cases ht
      subst this
      exact .inl rfl
    | cons j rest =>
      have ht' : ((r.kind q).bind wrapKind) = some k := by
        rcases q with ⟨qi, path⟩; simp only at hp; subst hp
        simp only [Reg.wrapTarget, Option.map_eq_some_iff] at ht
        obtain ⟨k', h1, h2⟩ := ht
        cases h2; exact h1
      rw [Option.bind_eq_some_iff] at ht'
      obtain ⟨kd, hk, hw⟩ := ht'
      cases kd <;> simp only [wrapKind, Option.some.injEq, reduceCtorEq] at hw <;>
        (subst hw; first
          | (left; unfold nodeIndex; simp [hk]; done)
          | (right; exact hdecl _ hk rfl))
  | _ => cases hd

/-- What holds of C11: for every declaration handle that is not an enum value, `NodeIndex` is the fully
    qualified name. Missing: enum values, where it is false (`C11_false`). -/
theorem C11_partial {c n p name} (hc : CleanReachable WFFile c) (hn : n ∈ c.pool) (hp : n.decl = some p)
    (hd : Declared c.reg name p) (hne : ∀ s v, c.reg.kind p ≠ some (.enumField s v)) :
    nodeIndex n c.reg = (.ok name, c.reg) := by
  obtain ⟨o, hi, hg⟩ := reachable_inv (clean_reachable hc)
  rcases nodeIndex_scope (hg n hn) hp with h | h
  · rw [h]
    obtain ⟨f, hf, hq⟩ := hd
    have hs := (clean_complete hc p.file f (Nat.zero_le _) hf).scopes p.path name hq (by
      intro e he s v hk
      apply hne s v
      unfold Reg.kind Reg.elem
      rw [hf]
      simp [he, hk])
    rw [Option.isSome_iff_exists] at hs
    obtain ⟨s, hs⟩ := hs
    have hpath : p.path ≠ [] := by intro h0; rw [h0] at hq; simp [ProtoFile.fqn] at hq
    obtain ⟨g, hg', hq'⟩ := (reachable_sound (clean_reachable hc)).scopes p s hs hpath
    rw [hf] at hg'
    cases hg'
    rw [hq] at hq'
    cases hq'
    simp [Reg.scope, hs]
  · exact absurd hd (h name)

/-- In every reachable state, panics while loading included: `NodeIndex` of a declaration handle is either
    empty or the fully qualified name, never another name. -/
theorem C11_never_wrong {c n p name} (hr : Reachable WFFile c) (hn : n ∈ c.pool) (hp : n.decl = some p)
    (hd : Declared c.reg name p) :
    nodeIndex n c.reg = (.ok name, c.reg) ∨ nodeIndex n c.reg = (.ok [], c.reg) := by
  obtain ⟨o, hi, hg⟩ := reachable_inv hr
  rcases nodeIndex_scope (hg n hn) hp with h | h
  · rw [h]
    obtain ⟨f, hf, hq⟩ := hd
    have hpath : p.path ≠ [] := by intro h0; rw [h0] at hq; simp [ProtoFile.fqn] at hq
    cases hs : c.reg.scopes (.at p) with
    | none => right; simp [Reg.scope, hs]
    | some s =>
      left
      obtain ⟨g, hg', hq'⟩ := (reachable_sound hr).scopes p s hs hpath
      rw [hf] at hg'
      cases hg'
      rw [hq] at hq'
      cases hq'
      simp [Reg.scope, hs]
  · exact absurd hd (h name)

/-- The oneof of the example is not a component of the name of its branch. -/
example : (∃ a, Node.wrapped a .oneofBranch ⟨1, [0, 3, 4]⟩ ∈ Ex.c2.pool) ∧
    Declared Ex.c2.reg b!".p.q.M.left" ⟨1, [0, 3, 4]⟩ :=
  ⟨Ex.hasW_spec (i := 12) (by decide +kernel), ⟨Ex.pa, Ex.fileA⟩, by rfl, by decide +kernel⟩

/-! ### C12 -/

/-- C12: with unique names, looking a declaration handle's index up gives the identical node (same address).
    `OneOf` and `Map` type nodes are not declaration handles of their own: their name denotes the field. Enum
    values have no index (C11). -/
theorem C12_byName_inverts_index {c a k p name} (hc : CleanReachable WFFile c)
    (hu : UniqueNames c.reg) (hn : Node.wrapped a k p ∈ c.pool) (hd : Declared c.reg name p)
    (hne : k ≠ .enumValue) :
    nodeIndex (.wrapped a k p) c.reg = (.ok name, c.reg) ∧
      nodeByFullName name c.reg = (.ok (some (.wrapped a k p)), c.reg) := by
  obtain ⟨o, hi, hg⟩ := reachable_inv (clean_reachable hc)
  have hgood := hg _ hn
  have hpath : p.path ≠ [] := by
    obtain ⟨f, hf, hq⟩ := hd
    intro h0; rw [h0] at hq; simp [ProtoFile.fqn] at hq
  have htgt := hgood.target
  have hkf : k ≠ .file ∧ ∀ s v, c.reg.kind p ≠ some (.enumField s v) := by
    rcases p with ⟨pi, path⟩
    cases path with
    | nil => exact absurd rfl hpath
    | cons j rest =>
      simp only [Reg.wrapTarget, Option.map_eq_some_iff, Option.bind_eq_some_iff, Prod.mk.injEq,
        and_true] at htgt
      obtain ⟨k', ⟨kd, hkd, hw⟩, rfl⟩ := htgt
      constructor
      · intro e; subst e; cases kd <;> simp [wrapKind] at hw
      · intro s v e
        rw [hkd] at e; cases e
        simp only [wrapKind, Option.some.injEq] at hw
        exact hne hw.symm
  refine ⟨C11_partial hc hn rfl hd hkf.2, ?_⟩
  obtain ⟨f, hf, hq⟩ := hd
  have hs := (clean_complete hc p.file f (Nat.zero_le _) hf).names p.path name hq
  rw [Option.isSome_iff_exists] at hs
  obtain ⟨q, hs⟩ := hs
  have hqp : q = p := hu name _ _ ((reachable_sound (clean_reachable hc)).names _ _ hs) ⟨f, hf, hq⟩
  subst hqp
  have hcache := hgood.cached hkf.1
  unfold nodeByFullName wrap
  simp [hs, hcache]

/-- Reaching the same declaration by name: by C12 also enum values are found by their name. -/
theorem C12_enum_values {c a p name} (hc : CleanReachable WFFile c)
    (hu : UniqueNames c.reg) (hn : Node.wrapped a .enumValue p ∈ c.pool) (hd : Declared c.reg name p) :
    nodeByFullName name c.reg = (.ok (some (.wrapped a .enumValue p)), c.reg) := by
  obtain ⟨o, hi, hg⟩ := reachable_inv (clean_reachable hc)
  have hgood := hg _ hn
  obtain ⟨f, hf, hq⟩ := hd
  have hs := (clean_complete hc p.file f (Nat.zero_le _) hf).names p.path name hq
  rw [Option.isSome_iff_exists] at hs
  obtain ⟨q, hs⟩ := hs
  have hqp : q = p := hu name _ _ ((reachable_sound (clean_reachable hc)).names _ _ hs) ⟨f, hf, hq⟩
  subst hqp
  have hcache := hgood.cached (by simp)
  unfold nodeByFullName wrap
  simp [hs, hcache]

/-- The example has unique names and handles for a message, a field, an enum, a service and a method. -/
example : CleanReachable WFFile Ex.c2 ∧ UniqueNames Ex.c2.reg ∧
    (∃ a, Node.wrapped a .method ⟨1, [0, 5]⟩ ∈ Ex.c2.pool) ∧
    Declared Ex.c2.reg b!".p.q.S.Do" ⟨1, [0, 5]⟩ :=
  ⟨Ex.c2_clean, Ex.c2_unique, Ex.hasW_spec (i := 10) (by decide +kernel),
    ⟨Ex.pa, Ex.fileA⟩, by rfl, by decide +kernel⟩

/-! ### C13 -/

/-- C13: two histories without loading panics that loaded the same files, in whatever order and through
    whatever entry points, register the same names for corresponding declarations. -/
theorem C13_order_independent {c1 c2} (h1 : CleanReachable WFFile c1) (h2 : CleanReachable WFFile c2)
    (hs : SameFiles c1.reg c2.reg) (hu : UniqueNames c1.reg) (name : Str) (p1 : Ptr)
    (hp : c1.reg.registry name = some p1) :
    ∃ p2, c2.reg.registry name = some p2 ∧ Corresponds c1.reg c2.reg p1 p2 := by
  obtain ⟨o1, hi1, -⟩ := reachable_inv (clean_reachable h1)
  obtain ⟨o2, hi2, -⟩ := reachable_inv (clean_reachable h2)
  obtain ⟨f, hf, hq⟩ := (reachable_sound (clean_reachable h1)).names _ _ hp
  obtain ⟨i2, f2, hp2, hf2, he2⟩ := (hs f.filename f.elems).mp ⟨p1.file, f, hi1.heapProtos _ _ hf, hf, rfl⟩
  obtain ⟨f2', hf2', hn2⟩ := hi2.protosHeap _ _ hp2
  rw [hf2] at hf2'
  cases hf2'
  have hff : f2 = f := by cases f; cases f2; simp_all
  subst hff
  have hreg := (clean_complete h2 i2 f2 (Nat.zero_le _) hf2).names _ _ hq
  rw [Option.isSome_iff_exists] at hreg
  obtain ⟨p2, hreg⟩ := hreg
  refine ⟨p2, hreg, ?_⟩
  obtain ⟨g, hg, hgq⟩ := (reachable_sound (clean_reachable h2)).names _ _ hreg
  obtain ⟨i1, g1, hp1, hg1, he1⟩ := (hs g.filename g.elems).mpr ⟨p2.file, g, hi2.heapProtos _ _ hg, hg, rfl⟩
  obtain ⟨g1', hg1', hn1⟩ := hi1.protosHeap _ _ hp1
  rw [hg1] at hg1'
  cases hg1'
  have hgg : g1 = g := by cases g; cases g1; simp_all
  subst hgg
  have := hu name p1 ⟨i1, p2.path⟩ ⟨f2, hf, hq⟩ ⟨g1, hg1, hgq⟩
  subst this
  refine ⟨rfl, g1, hg1, hg⟩

/-- C13 for the index of corresponding handles. -/
theorem C13_index {c1 c2 n1 n2 p1 p2 name} (h1 : CleanReachable WFFile c1) (h2 : CleanReachable WFFile c2)
    (hn1 : n1 ∈ c1.pool) (hn2 : n2 ∈ c2.pool) (hp1 : n1.decl = some p1) (hp2 : n2.decl = some p2)
    (hcorr : Corresponds c1.reg c2.reg p1 p2) (hd : Declared c1.reg name p1)
    (hne : ∀ s v, c1.reg.kind p1 ≠ some (.enumField s v)) :
    nodeIndex n1 c1.reg = (.ok name, c1.reg) ∧ nodeIndex n2 c2.reg = (.ok name, c2.reg) := by
  obtain ⟨hpath, f, hf1, hf2⟩ := hcorr
  refine ⟨C11_partial h1 hn1 hp1 hd hne, C11_partial h2 hn2 hp2 ?_ ?_⟩
  · obtain ⟨g, hg, hq⟩ := hd
    rw [hf1] at hg; cases hg
    exact ⟨f, hf2, by rw [← hpath]; exact hq⟩
  · intro s v hk
    apply hne s v
    unfold Reg.kind Reg.elem at hk ⊢
    rw [hf1, hpath]; rw [hf2] at hk; exact hk

/-- Loading `b.proto` first gives the same files in another order. -/
def otherOps : List Op := [.proto Ex.W 5 Ex.pb, .proto Ex.W 5 Ex.pa]
def otherClient : Client := Client.exec ⟨Ex.r0, []⟩ otherOps
theorem otherClient_clean : CleanReachable WFFile otherClient :=
  ⟨Ex.W, 5, Ex.r0, otherOps, Ex.W_wf, Ex.W_ok, Ex.opsW_sat _ (by
    intro op hop W' f p e
    subst e
    simp only [otherOps, List.mem_cons, Op.proto.injEq, List.not_mem_nil, or_false] at hop
    rcases hop with h | h <;> (rw [h.1]; exact Ex.W_wf)), Ex.loadsB_spec (by decide +kernel), rfl⟩

theorem sameFiles_ex : SameFiles Ex.c2.reg otherClient.reg := by
  have key : ∀ {P} {c : Client}, Reachable P c → ∀ path elems,
      (∃ i f, c.reg.protos path = some i ∧ c.reg.heap[i]? = some f ∧ f.elems = elems) ↔
        ⟨path, elems⟩ ∈ c.reg.heap := by
    intro P c hr path elems
    obtain ⟨o, hi, -⟩ := reachable_inv hr
    constructor
    · rintro ⟨i, f, h1, h2, h3⟩
      obtain ⟨f', hf', hn⟩ := hi.protosHeap _ _ h1
      rw [h2] at hf'; cases hf'
      subst h3; subst hn
      exact List.mem_of_getElem? h2
    · intro h
      obtain ⟨i, hi'⟩ := List.getElem?_of_mem h
      exact ⟨i, _, hi.heapProtos _ _ hi', hi', rfl⟩
  intro path elems
  rw [key Ex.c2_reach, key (clean_reachable otherClient_clean)]
  have h1 : Ex.c2.reg.heap = [⟨descriptorPath, Ex.descriptor⟩, ⟨Ex.pa, Ex.fileA⟩, ⟨Ex.pb, Ex.fileB⟩] := by rfl
  have h2 : otherClient.reg.heap = [⟨descriptorPath, Ex.descriptor⟩, ⟨Ex.pb, Ex.fileB⟩, ⟨Ex.pa, Ex.fileA⟩] := by
    rfl
  rw [h1, h2]
  simp only [List.mem_cons, List.not_mem_nil, or_false]
  constructor <;> (rintro (h | h | h) <;> simp [h])

example : CleanReachable WFFile Ex.c2 ∧ CleanReachable WFFile otherClient ∧
    SameFiles Ex.c2.reg otherClient.reg ∧ UniqueNames Ex.c2.reg ∧
    Ex.c2.reg.registry b!".p.q.M" = some ⟨1, [4]⟩ ∧ otherClient.reg.registry b!".p.q.M" = some ⟨2, [4]⟩ :=
  ⟨Ex.c2_clean, otherClient_clean, sameFiles_ex, Ex.c2_unique, by decide +kernel, by decide +kernel⟩

end Protoast.Props
