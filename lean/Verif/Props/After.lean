import Verif.Props.Whole
import Verif.Props.Hidden
/-
  C124: Type in terms of NodeIndex and NodeByFullName, in every history; what that means after a failed load.
-/
namespace Protoast.Props
open Protoast

/-- `NodeByFullName(x)` returns the node `m`. -/
def Finds (r : Reg) (x : Str) (m : Node) : Prop := ∃ r', nodeByFullName x r = (.ok (some m), r')

/-- `m` is what `NodeByFullName` returns for the type name `t` as seen from `S`: for `t` itself if it begins with a dot,
    and else for `s'.t` in the innermost scope `s'` around `S` for which it returns a node. -/
def SeenFrom (r : Reg) (S t : Str) (m : Node) : Prop :=
  if hasDotPrefix t then Finds r t m
  else ∃ s', Encloses s' (dotted S) ∧ Finds r (s' ++ dot :: t) m ∧
    ∀ s'', Encloses s'' (dotted S) → s'.length < s''.length → ∀ y, ¬ Finds r (s'' ++ dot :: t) y

/-- The node is a message, an enum or an enum value: its Go type implements the interface `Type`. -/
def IsTypeNode (m : Node) : Prop := ∃ a k q, m = .wrapped a k q ∧ (k = .message ∨ k = .enum ∨ k = .enumValue)

theorem finds_iff {P c} (hr : Reachable P c) (x : Str) (m : Node) :
    Finds c.reg x m ↔ ∃ q, c.reg.registry x = some q ∧ ∃ r', wrap (.at q) c.reg = (.ok (some m), r') := by
  constructor
  · rintro ⟨r', h⟩
    cases hx : c.reg.registry x with
    | none =>
      rcases (C28_partial hr x).2 hx with ⟨r3, e⟩ | e
      · rw [e] at h; cases h
      · rw [e] at h; cases h
    | some q =>
      refine ⟨q, rfl, r', ?_⟩
      rw [← h]
      unfold nodeByFullName
      simp [hx]
  · rintro ⟨q, hx, r', h⟩
    refine ⟨r', ?_⟩
    unfold nodeByFullName
    simp [hx, h]

theorem finds_none {P c} (hr : Reachable P c) (x : Str) :
    (∀ m, ¬ Finds c.reg x m) ↔ c.reg.registry x = none := by
  constructor
  · intro h
    cases hx : c.reg.registry x with
    | none => rfl
    | some q =>
      obtain ⟨a, k, r', e⟩ := (C28_partial hr x).1 q hx
      exact absurd ⟨r', e⟩ (h _)
  · rintro h m hm
    obtain ⟨q, hq, _⟩ := (finds_iff hr x m).mp hm
    rw [h] at hq
    cases hq

theorem seenFrom_iff {P c} (hr : Reachable P c) (S t : Str) (m : Node) :
    SeenFrom c.reg S t m ↔ ∃ q, Refers c.reg S t q ∧ ∃ r', wrap (.at q) c.reg = (.ok (some m), r') := by
  unfold SeenFrom Refers
  split
  · exact finds_iff hr t m
  · constructor
    · rintro ⟨s', h1, h2, h3⟩
      obtain ⟨q, hq, hw⟩ := (finds_iff hr _ _).mp h2
      refine ⟨q, ⟨_, ⟨s', h1, rfl, by simp [Reg.defined, hq], fun s'' g1 g2 => ?_⟩, hq⟩, hw⟩
      have := (finds_none hr _).mp (h3 s'' g1 g2)
      simp [Reg.defined, this]
    · rintro ⟨q, ⟨x, ⟨s', h1, rfl, _, h4⟩, hq⟩, hw⟩
      refine ⟨s', h1, (finds_iff hr _ _).mpr ⟨q, hq, hw⟩, fun s'' g1 g2 => (finds_none hr _).mpr ?_⟩
      have := h4 s'' g1 g2
      simpa [Reg.defined] using this

theorem lookup_seen {P c p t m} (hr : Reachable P c) (hkw : ¬ IsKeyword t)
    (h : SeenFrom c.reg (c.reg.scope (.at p)) t m) :
    (IsTypeNode m → ∃ r', lookupType p t c.reg = (.ok (some m), r')) ∧
    (¬ IsTypeNode m → ∃ r', lookupType p t c.reg = (.panic .notAType, r')) := by
  obtain ⟨o, hi, -⟩ := reachable_inv hr
  obtain ⟨q, href, r', hw⟩ := (seenFrom_iff hr _ _ _).mp h
  have hb := (not_keyword_iff _).mp hkw
  obtain ⟨kd, k, h1, h2, _⟩ := lookupType_refers hi hb href
  obtain ⟨e, he, hek⟩ : ∃ e, c.reg.elem q = some e ∧ e.kind = kd := by
    unfold Reg.kind at h1
    rw [Option.map_eq_some_iff] at h1
    exact h1
  obtain ⟨a, r2, hw2, _⟩ := wrap_ok hi (target_of_elem he (by rw [hek]; exact h2))
  rw [hw] at hw2
  cases hw2
  obtain ⟨x, g1, g2⟩ := refers_resolve href
  have hty : (Node.wrapped a k q).isType = true ↔ IsTypeNode (.wrapped a k q) := by
    constructor
    · intro h
      refine ⟨a, k, q, rfl, ?_⟩
      cases k <;> simp [Node.isType] at h ⊢
    · rintro ⟨_, _, _, e, h⟩
      cases e
      rcases h with rfl | rfl | rfl <;> rfl
  constructor
  · intro ht
    refine ⟨r', ?_⟩
    unfold lookupType
    simp [hb, g1, g2, hw, hty.mpr ht]
  · intro ht
    refine ⟨r', ?_⟩
    have : (Node.wrapped a k q).isType = false := by
      cases e : (Node.wrapped a k q).isType with
      | false => rfl
      | true => exact absurd (hty.mp e) ht
    unfold lookupType
    simp [hb, g1, g2, hw, this]

theorem lookup_unseen {P c p t} (hr : Reachable P c) (hkw : ¬ IsKeyword t)
    (h : ∀ m, ¬ SeenFrom c.reg (c.reg.scope (.at p)) t m) : lookupType p t c.reg = (.ok none, c.reg) := by
  obtain ⟨o, hi, -⟩ := reachable_inv hr
  refine lookupType_unresolved ((not_keyword_iff _).mp hkw) ?_
  rcases refers_or c.reg (c.reg.scope (.at p)) t with ⟨q, hq⟩ | hun
  · obtain ⟨x, _, g2⟩ := refers_resolve hq
    obtain ⟨e, k, he, hk⟩ := hi.regPtr _ _ g2
    obtain ⟨a, r', hw, _⟩ := wrap_ok hi (target_of_elem he hk)
    exact absurd ((seenFrom_iff hr _ _ _).mpr ⟨q, hq, r', hw⟩) (h _)
  · exact hun

/-- C124 for the branches of a oneof: in every history, failed loads included, `Type` returns the very node that
    `NodeByFullName` returns for the type name as seen from the branch's `NodeIndex`, panics iff that node is not a type,
    and returns nil iff there is none. -/
theorem C124_branch {P c a p n t s S r1} (hr : Reachable P c) (_hm : Node.wrapped a .oneofBranch p ∈ c.pool)
    (hk : c.reg.kind p = some (.oneofField n t s)) (hkw : ¬ IsKeyword t)
    (hS : nodeIndex (.wrapped a .oneofBranch p) c.reg = (.ok S, r1)) :
    (∀ m, SeenFrom c.reg S t m →
      (IsTypeNode m → ∃ r', OneOfBranch.type p c.reg = (.ok (some m), r')) ∧
      (¬ IsTypeNode m → ∃ r', OneOfBranch.type p c.reg = (.panic .notAType, r'))) ∧
    ((∀ m, ¬ SeenFrom c.reg S t m) → OneOfBranch.type p c.reg = (.ok none, c.reg)) := by
  have e : S = c.reg.scope (.at p) := by cases hS; rfl
  subst e
  rw [branch_type_eq hk]
  exact ⟨fun m hm => lookup_seen hr hkw hm, lookup_unseen hr hkw⟩

/-- C124 for fields, on the first call of `Type` (later ones repeat the answer, C74); a repeated field has the repeated
    type of that node, or of nil. -/
theorem C124_field {P c a p n t s rep opt S r1} (hr : Reachable P c) (_hm : Node.wrapped a .messageField p ∈ c.pool)
    (hk : c.reg.kind p = some (.normalField n t s rep opt)) (hf : c.reg.ftcache a = none) (hkw : ¬ IsKeyword t)
    (hS : nodeIndex (.wrapped a .messageField p) c.reg = (.ok S, r1)) :
    (∀ m, SeenFrom c.reg S t m →
      (IsTypeNode m → ∃ ty r', MessageField.type a p c.reg = (.ok ty, r') ∧ TypeIs rep m ty) ∧
      (¬ IsTypeNode m → ∃ r', MessageField.type a p c.reg = (.panic .notAType, r'))) ∧
    ((∀ m, ¬ SeenFrom c.reg S t m) → ∃ ty r', MessageField.type a p c.reg = (.ok ty, r') ∧
      if rep then ∃ b, ty = some (.repeated b none) else ty = none) := by
  have e : S = c.reg.scope (.at p) := by
    have : nodeIndex (.wrapped a .messageField p) c.reg = (.ok (c.reg.scope (.at p)), c.reg) := by
      unfold nodeIndex
      simp [hk]
    rw [this] at hS
    cases hS
    rfl
  subst e
  have hg : rep = true → _ := fun h =>
    getTypeByName_repeated (r := c.reg) (p := p) (name := t) (by simp [Reg.isRepeatedField, hk, h])
  refine ⟨fun m hm => ?_, fun hno => ?_⟩
  · obtain ⟨h1, h2⟩ := lookup_seen hr hkw hm
    refine ⟨fun ht => ?_, fun ht => ?_⟩
    · obtain ⟨r', h5⟩ := h1 ht
      cases rep with
      | false => exact ⟨_, _, by rw [field_type_eq hk hf, h5], rfl⟩
      | true =>
        have hg := hg rfl
        rw [h5] at hg
        refine ⟨some (.repeated r'.next (some m)), { r' with next := r'.next + 1, ftcache := upd r'.ftcache a (
          some (.repeated r'.next (some m))) }, ?_, r'.next, rfl⟩
        unfold MessageField.type fieldTypeBody
        simp [hk, hf, hg]
    · obtain ⟨r', h5⟩ := h2 ht
      cases rep with
      | false => exact ⟨_, by rw [field_type_eq hk hf, h5]⟩
      | true =>
        have hg := hg rfl
        rw [h5] at hg
        refine ⟨{ r' with ftcache := upd r'.ftcache a none }, ?_⟩
        unfold MessageField.type fieldTypeBody
        simp [hk, hf, hg]
  · have h5 := lookup_unseen hr hkw hno
    cases rep with
    | false => exact ⟨_, _, by rw [field_type_eq hk hf, h5], rfl⟩
    | true =>
      have hg := hg rfl
      rw [h5] at hg
      refine ⟨some (.repeated c.reg.next none), { c.reg with next := c.reg.next + 1, ftcache := upd c.reg.ftcache a (
        some (.repeated c.reg.next none)) }, ?_, c.reg.next, rfl⟩
      unfold MessageField.type fieldTypeBody
      simp [hk, hf, hg]

/-- C124, where the lookup starts: the index of a handle is the full name of its declaration if that can be looked up by
    it, and empty if not, so that only full names are found from there. -/
theorem C124_index {c n p place} (hr : Reachable WFFile c) (hu : UniqueNames c.reg) (hn : n ∈ c.pool)
    (hd : n.decl = some p) (hp : Declared c.reg place p) (hne : ∀ s v, c.reg.kind p ≠ some (.enumField s v)) :
    (∀ m, Finds c.reg place m → m.decl = some p ∧ nodeIndex n c.reg = (.ok place, c.reg)) ∧
    ((∀ m, ¬ Finds c.reg place m) → nodeIndex n c.reg = (.ok [], c.reg)) := by
  obtain ⟨known, -, hk⟩ := C123_known hr
  obtain ⟨h1, h2⟩ := hk [] (by simp) c rfl place p hp
  by_cases hfr : InFront p.path (known p.file)
  · obtain ⟨⟨d, a, k, r', hdd, e, hdu⟩, hidx⟩ := h1 hfr
    have := hdu hu
    subst this
    refine ⟨?_, fun h => absurd ⟨r', e⟩ (h _)⟩
    rintro m ⟨r2, h⟩
    rw [e] at h
    cases h
    exact ⟨rfl, hidx n hn hd hne⟩
  · obtain ⟨h3, h4⟩ := h2 hfr
    refine ⟨fun m hm => ?_, fun _ => h4 n hn hd⟩
    obtain ⟨q, hq, r', hw⟩ := (finds_iff hr _ _).mp hm
    obtain ⟨a, k, r2, e⟩ := (C28_partial hr place).1 q hq
    have hqd := (reachable_sound hr).names _ _ hq
    have := hu place _ _ hqd hp
    subst this
    exact absurd rfl (h3 place _ _ e)

/-! ### The hypotheses are met, and a type that is silently another one -/

def afterIn : List Elem :=
  let f := b!"in.proto"
  [Ex.el f 1 (.packageK b!"p.q"), Ex.el f 2 (.importK b!"outer.proto"),
   Ex.el f 3 (.message b!"M" false)
     [Ex.fld f 4 b!"f" b!"X" 1, Ex.el f 5 (.oneof b!"o") [Ex.el f 6 (.oneofField b!"b" b!"X" 2)],
      Ex.fld f 7 b!"l" b!"X" 3 true],
   Ex.el f 8 (.importK b!"gone.proto"), Ex.el f 9 (.message b!"X" false)]
def afterOuter : List Elem :=
  let f := b!"outer.proto"
  [Ex.el f 1 (.packageK b!"p"), Ex.el f 2 (.message b!"X" false)]
def afterWorld : World := Ex.worldOf [(b!"in.proto", afterIn), (b!"outer.proto", afterOuter)]
theorem afterWorld_wf : afterWorld.Sat WFFile := by
  apply Ex.worldOf_sat
  intro x hx
  apply Ex.wfb_spec
  simp only [List.mem_cons, List.not_mem_nil, or_false] at hx
  rcases hx with rfl | rfl <;> decide +kernel

/-- The load of in.proto fails at gone.proto. The second call returns the file, and from there the client reaches the
    fields `f` and `l` and the branch `b`. -/
def afterOps : List Op :=
  [.proto afterWorld 5 b!"in.proto", .proto afterWorld 5 b!"in.proto", .query 0 (.named .fileMessage b!"M"),
   .query 1 (.iter .messageFields 0), .query 1 (.iter .messageFields 1), .query 3 (.plain .fieldType),
   .query 4 (.iter .oneofBranches 0), .query 1 (.iter .messageFields 2)]
def cAfter : Client := Client.exec ⟨Ex.r0, []⟩ afterOps

theorem cAfter_reach : Reachable WFFile cAfter := by
  refine reachable_exec (clean_reachable ex_start_clean) _ ?_
  intro op ho
  simp only [afterOps, List.mem_cons, List.not_mem_nil, or_false] at ho
  rcases ho with rfl | rfl | rfl | rfl | rfl | rfl | rfl | rfl <;> first | exact afterWorld_wf | trivial

theorem cAfter_fails : ∃ e r', proto afterWorld 5 b!"in.proto" Ex.r0 = (.panic (.importFailed b!"gone.proto" e), r') :=
  ⟨_, _, rfl⟩

theorem cAfter_seen {S : Str}
    (h : (resolveNameRaw cAfter.reg.defined S b!"X") = (b!".p.X", true)) :
    ∃ a, SeenFrom cAfter.reg S b!"X" (.wrapped a .message ⟨2, [1]⟩) := by
  obtain ⟨a, r', e⟩ : ∃ a r', wrap (.at ⟨2, [1]⟩) cAfter.reg = (.ok (some (.wrapped a .message ⟨2, [1]⟩)), r') :=
    ⟨_, _, rfl⟩
  have hreg : cAfter.reg.registry b!".p.X" = some ⟨2, [1]⟩ := by decide +kernel
  refine ⟨a, (seenFrom_iff cAfter_reach _ _ _).mpr ⟨_, ?_, r', e⟩⟩
  rcases refers_or cAfter.reg S b!"X" with ⟨q, hq⟩ | hun
  · obtain ⟨x, h1, h2⟩ := refers_resolve hq
    rw [h] at h1
    cases h1
    rw [hreg] at h2
    cases h2
    exact hq
  · have := unresolved_iff.mp hun
    rw [h] at this
    cases this

/-- `NodeIndex` of the three handles is their full name, although the file was not loaded to its end; the type name `X`
    seen from there is the message of outer.proto, because `.p.q.X`, which in.proto declares, cannot be looked up: the
    hypotheses of `C124_branch` and `C124_field` are met, and `Type` silently is another type. -/
theorem C124_wrong_type :
    Declared cAfter.reg b!".p.q.X" ⟨1, [4]⟩ ∧ Declared cAfter.reg b!".p.X" ⟨2, [1]⟩ ∧
    (∃ a m r', Node.wrapped a .oneofBranch ⟨1, [0, 1, 2]⟩ ∈ cAfter.pool ∧
      nodeIndex (.wrapped a .oneofBranch ⟨1, [0, 1, 2]⟩) cAfter.reg = (.ok b!".p.q.M.b", cAfter.reg) ∧
      SeenFrom cAfter.reg b!".p.q.M.b" b!"X" m ∧ m.decl = some ⟨2, [1]⟩ ∧
      OneOfBranch.type ⟨1, [0, 1, 2]⟩ cAfter.reg = (.ok (some m), r')) ∧
    (∃ a m r', Node.wrapped a .messageField ⟨1, [0, 2]⟩ ∈ cAfter.pool ∧
      nodeIndex (.wrapped a .messageField ⟨1, [0, 2]⟩) cAfter.reg = (.ok b!".p.q.M.f", cAfter.reg) ∧
      SeenFrom cAfter.reg b!".p.q.M.f" b!"X" m ∧ m.decl = some ⟨2, [1]⟩ ∧
      MessageField.type a ⟨1, [0, 2]⟩ cAfter.reg = (.ok (some m), r')) ∧
    (∃ a b m r', Node.wrapped a .messageField ⟨1, [2, 2]⟩ ∈ cAfter.pool ∧
      nodeIndex (.wrapped a .messageField ⟨1, [2, 2]⟩) cAfter.reg = (.ok b!".p.q.M.l", cAfter.reg) ∧
      SeenFrom cAfter.reg b!".p.q.M.l" b!"X" m ∧ m.decl = some ⟨2, [1]⟩ ∧
      MessageField.type a ⟨1, [2, 2]⟩ cAfter.reg = (.ok (some (.repeated b (some m))), r')) := by
  refine ⟨⟨⟨b!"in.proto", afterIn⟩, rfl, by decide +kernel⟩, ⟨⟨b!"outer.proto", afterOuter⟩, rfl, by decide +kernel⟩,
    ?_, ?_, ?_⟩
  · obtain ⟨a, ha⟩ := Ex.hasW_spec (c := cAfter) (i := 5) (k := .oneofBranch) (p := ⟨1, [0, 1, 2]⟩) (by decide +kernel)
    obtain ⟨b, hb⟩ := cAfter_seen (S := b!".p.q.M.b") (by decide +kernel)
    have hS : nodeIndex (.wrapped a .oneofBranch ⟨1, [0, 1, 2]⟩) cAfter.reg = (.ok b!".p.q.M.b", cAfter.reg) := by
      have : cAfter.reg.scope (.at ⟨1, [0, 1, 2]⟩) = b!".p.q.M.b" := by decide +kernel
      rw [← this]
      rfl
    obtain ⟨r', h⟩ := ((C124_branch cAfter_reach ha (n := b!"b") (s := 2) rfl ((not_keyword_iff _).mpr (by decide +kernel)) hS).1 _ hb).1
      ⟨_, _, _, rfl, .inl rfl⟩
    exact ⟨a, _, r', ha, hS, hb, rfl, h⟩
  · obtain ⟨a, ha⟩ : ∃ a, Node.wrapped a .messageField ⟨1, [0, 2]⟩ ∈ cAfter.pool ∧ cAfter.reg.ftcache a = none :=
      ⟨_, List.mem_of_getElem? (i := 2) rfl, rfl⟩
    obtain ⟨ha, hf⟩ := ha
    obtain ⟨b, hb⟩ := cAfter_seen (S := b!".p.q.M.f") (by decide +kernel)
    have hS : nodeIndex (.wrapped a .messageField ⟨1, [0, 2]⟩) cAfter.reg = (.ok b!".p.q.M.f", cAfter.reg) := by
      have : cAfter.reg.scope (.at ⟨1, [0, 2]⟩) = b!".p.q.M.f" := by decide +kernel
      rw [← this]
      rfl
    obtain ⟨ty, r', h, h2⟩ := ((C124_field cAfter_reach ha (n := b!"f") (s := 1) (rep := false) (opt := false) rfl hf
      ((not_keyword_iff _).mpr (by decide +kernel)) hS).1 _ hb).1 ⟨_, _, _, rfl, .inl rfl⟩
    cases h2
    exact ⟨a, _, r', ha, hS, hb, rfl, h⟩
  · obtain ⟨a, ha⟩ : ∃ a, Node.wrapped a .messageField ⟨1, [2, 2]⟩ ∈ cAfter.pool ∧ cAfter.reg.ftcache a = none :=
      ⟨_, List.mem_of_getElem? (i := 6) rfl, rfl⟩
    obtain ⟨ha, hf⟩ := ha
    obtain ⟨b, hb⟩ := cAfter_seen (S := b!".p.q.M.l") (by decide +kernel)
    have hS : nodeIndex (.wrapped a .messageField ⟨1, [2, 2]⟩) cAfter.reg = (.ok b!".p.q.M.l", cAfter.reg) := by
      have : cAfter.reg.scope (.at ⟨1, [2, 2]⟩) = b!".p.q.M.l" := by decide +kernel
      rw [← this]
      rfl
    obtain ⟨ty, r', h, b2, h2⟩ := ((C124_field cAfter_reach ha (n := b!"l") (s := 3) (rep := true) (opt := false) rfl hf
      ((not_keyword_iff _).mpr (by decide +kernel)) hS).1 _ hb).1 ⟨_, _, _, rfl, .inl rfl⟩
    cases h2
    exact ⟨a, b2, _, r', ha, hS, hb, rfl, h⟩

/-- The hypotheses of `C124_index` are met by the branch `b`, which can be looked up, and by what stands behind the failed
    import, which cannot. -/
example : Reachable WFFile cAfter ∧ UniqueNames cAfter.reg ∧
    (∃ n ∈ cAfter.pool, n.decl = some ⟨1, [0, 1, 2]⟩ ∧ Declared cAfter.reg b!".p.q.M.b" ⟨1, [0, 1, 2]⟩) ∧
    Declared cAfter.reg b!".p.q.X" ⟨1, [4]⟩ ∧ ∀ m, ¬ Finds cAfter.reg b!".p.q.X" m := by
  refine ⟨cAfter_reach, Ex.uniqueB_spec (by decide +kernel), ?_, ⟨⟨b!"in.proto", afterIn⟩, rfl, by decide +kernel⟩,
    (finds_none cAfter_reach _).mpr (by decide +kernel)⟩
  obtain ⟨a, ha⟩ := Ex.hasW_spec (c := cAfter) (i := 5) (k := .oneofBranch) (p := ⟨1, [0, 1, 2]⟩) (by decide +kernel)
  exact ⟨_, ha, rfl, ⟨⟨b!"in.proto", afterIn⟩, rfl, by decide +kernel⟩⟩

end Protoast.Props
