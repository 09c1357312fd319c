import Verif.Spec.Moved
import Verif.Props.FieldType
import Verif.Props.Names2
import Verif.Props.Exact
/-
  C127: declarations can be moved between files and within a file without changing any type.
-/
namespace Protoast.Props
open Protoast

/-! ### Two registries side by side -/

/-- The registry knows exactly the declared names. -/
theorem moved_clean_registry {c} (hc : CleanReachable WFFile c) (hu : UniqueNames c.reg) (name : Str) (q : Ptr) :
    c.reg.registry name = some q ↔ Declared c.reg name q := by
  have hs := reachable_sound (clean_reachable hc)
  refine ⟨hs.names _ _, fun h => ?_⟩
  obtain ⟨f, hf, hq⟩ := h
  obtain ⟨q', hq'⟩ := Option.isSome_iff_exists.mp ((clean_complete hc _ f (Nat.zero_le _) hf).names _ _ hq)
  rw [hq', hu name _ _ (hs.names _ _ hq') ⟨f, hf, hq⟩]

theorem declared_kind {r : Reg} {name : Str} {p : Ptr} (h : Declared r name p) : ∃ k, r.kind p = some k := by
  obtain ⟨f, hf, hq⟩ := h
  cases hp : p.path with
  | nil => rw [hp] at hq; simp [ProtoFile.fqn] at hq
  | cons i rest =>
    rw [hp] at hq
    cases he : f.elemAt (i :: rest) with
    | none =>
      exfalso
      simp only [ProtoFile.fqn, he, Option.bind_none] at hq
      revert hq
      cases f.scopeAt rest <;> simp
    | some e => exact ⟨e.kind, by simp [Reg.kind, Reg.elem, hf, hp, he]⟩

/-- Everything C127 supposes of the two registries. -/
structure Pair (c1 c2 : Client) : Prop where
  clean1 : CleanReachable WFFile c1
  clean2 : CleanReachable WFFile c2
  unique1 : UniqueNames c1.reg
  unique2 : UniqueNames c2.reg
  same : SameDeclarations c1.reg c2.reg

theorem Pair.kind {c1 c2} (P : Pair c1 c2) {name p1 p2} (h1 : Declared c1.reg name p1) (h2 : Declared c2.reg name p2) :
    c2.reg.kind p2 = c1.reg.kind p1 := by
  obtain ⟨k, hk⟩ := declared_kind h1
  obtain ⟨q, hq, hkq⟩ := (P.same name k).mp ⟨p1, h1, hk⟩
  rw [P.unique2 name _ _ h2 hq, hkq, hk]

theorem Pair.there {c1 c2} (P : Pair c1 c2) {name p1} (h1 : Declared c1.reg name p1) : ∃ p2, Declared c2.reg name p2 := by
  obtain ⟨k, hk⟩ := declared_kind h1
  obtain ⟨q, hq, -⟩ := (P.same name k).mp ⟨p1, h1, hk⟩
  exact ⟨q, hq⟩

theorem Pair.symm {c1 c2} (P : Pair c1 c2) : Pair c2 c1 :=
  ⟨P.clean2, P.clean1, P.unique2, P.unique1, fun n k => (P.same n k).symm⟩

theorem Pair.defined {c1 c2} (P : Pair c1 c2) : c1.reg.defined = c2.reg.defined := by
  have key : ∀ {c1 c2}, Pair c1 c2 → ∀ n, c1.reg.defined n = true → c2.reg.defined n = true := by
    intro c1 c2 P n h
    obtain ⟨q, hq⟩ := Option.isSome_iff_exists.mp h
    obtain ⟨q2, hq2⟩ := P.there ((moved_clean_registry P.clean1 P.unique1 _ _).mp hq)
    unfold Reg.defined
    rw [(moved_clean_registry P.clean2 P.unique2 _ _).mpr hq2]; rfl
  funext n
  have h1 := key P n
  have h2 := key P.symm n
  cases h : c1.reg.defined n <;> cases g : c2.reg.defined n <;> simp_all

/-- The scope recorded for a declaration is its full name. -/
theorem clean_scope {c} (hc : CleanReachable WFFile c) {name p} (hd : Declared c.reg name p)
    (hne : ∀ s v, c.reg.kind p ≠ some (.enumField s v)) : c.reg.scope (.at p) = name := by
  have hsound := reachable_sound (clean_reachable hc)
  obtain ⟨f, hf, hq⟩ := hd
  have hs := (clean_complete hc p.file f (Nat.zero_le _) hf).scopes p.path name hq (by
    intro e he s v hk
    apply hne s v
    unfold Reg.kind Reg.elem
    rw [hf]
    simp [he, hk])
  obtain ⟨s, hs⟩ := Option.isSome_iff_exists.mp hs
  have hpath : p.path ≠ [] := by intro h0; rw [h0] at hq; simp [ProtoFile.fqn] at hq
  obtain ⟨g, hg', hq'⟩ := hsound.scopes p s hs hpath
  rw [hf] at hg'
  cases hg'
  rw [hq] at hq'
  cases hq'
  simp [Reg.scope, hs]

/-- A reference means corresponding declarations in both. -/
theorem Pair.refers {c1 c2} (P : Pair c1 c2) {s t q1} (h : Refers c1.reg s t q1) :
    ∃ name q2, Declared c1.reg name q1 ∧ Declared c2.reg name q2 ∧ Refers c2.reg s t q2 := by
  obtain ⟨x, h1, h2⟩ := refers_resolve h
  have hd := (moved_clean_registry P.clean1 P.unique1 _ _).mp h2
  obtain ⟨q2, hq2⟩ := P.there hd
  refine ⟨x, q2, hd, hq2, resolve_refers (c := x) ?_ ((moved_clean_registry P.clean2 P.unique2 _ _).mpr hq2)⟩
  rw [← P.defined]; exact h1

/-- What a look-up gives in the one registry it gives in the other. -/
theorem Pair.lookup {c1 c2} (P : Pair c1 c2) {p1 p2 : Ptr} (hs : c1.reg.scope (.at p1) = c2.reg.scope (.at p2)) (typ : Str) :
    EndAlike (SameType c1.reg c2.reg) (lookupType p1 typ c1.reg).1 (lookupType p2 typ c2.reg).1 := by
  obtain ⟨o1, hi1, -⟩ := reachable_inv (clean_reachable P.clean1)
  obtain ⟨o2, hi2, -⟩ := reachable_inv (clean_reachable P.clean2)
  cases hb : builtinType typ with
  | some b => rw [lookupType_builtin hb, lookupType_builtin hb]; exact .ok (.builtin b)
  | none =>
    rcases refers_or c1.reg (c1.reg.scope (.at p1)) typ with ⟨q1, hq⟩ | hu
    · obtain ⟨name, q2, hd1, hd2, hq2⟩ := P.refers hq
      rw [hs] at hq2
      obtain ⟨kd, k, a1, a2, a3, a4⟩ := lookupType_refers hi1 hb hq
      obtain ⟨kd', k', b1, b2, b3, b4⟩ := lookupType_refers hi2 hb hq2
      rw [P.kind hd1 hd2, a1] at b1
      cases b1
      rw [a2] at b2
      cases b2
      cases ht : kd.isType with
      | true =>
        obtain ⟨x, r', e⟩ := a3 ht
        obtain ⟨x', r'', e'⟩ := b3 ht
        rw [e, e']
        exact .ok (.declared _ _ _ hd1 hd2)
      | false =>
        obtain ⟨r', e⟩ := a4 ht
        obtain ⟨r'', e'⟩ := b4 ht
        rw [e, e']
        exact .panic _
    · have hu2 : Unresolved c2.reg (c2.reg.scope (.at p2)) typ := by
        rw [unresolved_iff] at hu ⊢
        rw [← P.defined, ← hs]; exact hu
      rw [lookupType_unresolved hb hu, lookupType_unresolved hb hu2]
      exact .ok .nil

theorem Pair.scopes {c1 c2} (P : Pair c1 c2) {name p1 p2} (h1 : Declared c1.reg name p1) (h2 : Declared c2.reg name p2)
    (hne : ∀ s v, c1.reg.kind p1 ≠ some (.enumField s v)) : c1.reg.scope (.at p1) = c2.reg.scope (.at p2) := by
  rw [clean_scope P.clean1 h1 hne, clean_scope P.clean2 h2 (by rw [P.kind h1 h2]; exact hne)]

/-! ### C127 -/

/-- C127: let two registries have the same declarations, in whatever files and order (all names distinct, no load
    panicked). Then `Type`, called for the first time on a field of a message, ends alike in both for the field of that
    full name: the same type, nil in both, or the same panic. -/
theorem C127_field {c1 c2 a1 a2 name p1 p2} (hc1 : CleanReachable WFFile c1) (hc2 : CleanReachable WFFile c2)
    (hu1 : UniqueNames c1.reg) (hu2 : UniqueNames c2.reg) (hs : SameDeclarations c1.reg c2.reg)
    (hm1 : Node.wrapped a1 .messageField p1 ∈ c1.pool) (_hm2 : Node.wrapped a2 .messageField p2 ∈ c2.pool)
    (hd1 : Declared c1.reg name p1) (hd2 : Declared c2.reg name p2)
    (hf1 : c1.reg.ftcache a1 = none) (hf2 : c2.reg.ftcache a2 = none) :
    EndAlike (SameType c1.reg c2.reg) (MessageField.type a1 p1 c1.reg).1 (MessageField.type a2 p2 c2.reg).1 := by
  have P : Pair c1 c2 := ⟨hc1, hc2, hu1, hu2, hs⟩
  obtain ⟨kd, hk, hst⟩ := handle_kind (clean_reachable hc1) hm1 (by simp)
  have hk2 : c2.reg.kind p2 = some kd := by rw [P.kind hd1 hd2, hk]
  have hsc := P.scopes hd1 hd2 (by rw [hk]; rintro s v h; cases h; cases hst)
  cases kd <;> try cases hst
  case normalField n typ s rep opt =>
    have hl := P.lookup hsc typ
    cases rep with
    | false =>
      rw [field_type_eq hk hf1, field_type_eq hk2 hf2]
      revert hl
      rcases lookupType p1 typ c1.reg with ⟨res1, r1⟩
      rcases lookupType p2 typ c2.reg with ⟨res2, r2⟩
      rintro (h | e)
      · exact .ok h
      · exact .panic e
    | true =>
      rw [field_type_rep hk hf1, field_type_rep hk2 hf2]
      revert hl
      rcases lookupType p1 typ c1.reg with ⟨res1, r1⟩
      rcases lookupType p2 typ c2.reg with ⟨res2, r2⟩
      rintro (h | e)
      · exact .ok (.repeated _ _ h)
      · exact .panic e
  case oneof n =>
    have e : ∀ a p (r : Reg), r.kind p = some (.oneof n) → r.ftcache a = none →
        ∃ x, (MessageField.type a p r).1 = .ok (some (.oneof x p)) := by
      intro a p r h1 h2
      refine ⟨r.next, ?_⟩
      simp [MessageField.type, fieldTypeBody, h1, h2, M.bind_apply, M.get_apply, M.alloc]
    obtain ⟨x, e1⟩ := e _ _ _ hk hf1
    obtain ⟨y, e2⟩ := e _ _ _ hk2 hf2
    rw [e1, e2]
    exact .ok (.oneof _ _ hd1 hd2)
  case mapField n kt typ s =>
    have e : ∀ a p (r : Reg), r.kind p = some (.mapField n kt typ s) → r.ftcache a = none →
        ∃ x, (MessageField.type a p r).1 = .ok (some (.map x p)) := by
      intro a p r h1 h2
      refine ⟨r.next, ?_⟩
      simp [MessageField.type, fieldTypeBody, h1, h2, M.bind_apply, M.get_apply, M.alloc]
    obtain ⟨x, e1⟩ := e _ _ _ hk hf1
    obtain ⟨y, e2⟩ := e _ _ _ hk2 hf2
    rw [e1, e2]
    exact .ok (.map _ _ hd1 hd2)

/-- C127 for the branches of a oneof. -/
theorem C127_branch {c1 c2 a1 a2 name p1 p2} (hc1 : CleanReachable WFFile c1) (hc2 : CleanReachable WFFile c2)
    (hu1 : UniqueNames c1.reg) (hu2 : UniqueNames c2.reg) (hs : SameDeclarations c1.reg c2.reg)
    (hm1 : Node.wrapped a1 .oneofBranch p1 ∈ c1.pool) (_hm2 : Node.wrapped a2 .oneofBranch p2 ∈ c2.pool)
    (hd1 : Declared c1.reg name p1) (hd2 : Declared c2.reg name p2) :
    EndAlike (SameType c1.reg c2.reg) (OneOfBranch.type p1 c1.reg).1 (OneOfBranch.type p2 c2.reg).1 := by
  have P : Pair c1 c2 := ⟨hc1, hc2, hu1, hu2, hs⟩
  obtain ⟨kd, hk, hst⟩ := handle_kind (clean_reachable hc1) hm1 (by simp)
  have hk2 : c2.reg.kind p2 = some kd := by rw [P.kind hd1 hd2, hk]
  have hsc := P.scopes hd1 hd2 (by rw [hk]; rintro s v h; cases h; cases hst)
  cases kd <;> try cases hst
  case oneofField n typ s =>
    have hl := P.lookup hsc typ
    unfold OneOfBranch.type
    simp only [M.bind_apply, M.get_apply, hk, hk2]
    rw [getTypeByName_plain (by simp [Reg.isRepeatedField, hk]), getTypeByName_plain (by simp [Reg.isRepeatedField, hk2])]
    exact hl

theorem Pair.signature {c1 c2} (P : Pair c1 c2) {p1 p2 : Ptr} (hs : c1.reg.scope (.at p1) = c2.reg.scope (.at p2))
    (hr1 : c1.reg.isRepeatedField p1 = false) (hr2 : c2.reg.isRepeatedField p2 = false) (typ : Str) (flag : Bool) :
    EndAlike (SameSignature c1.reg c2.reg) ((do
        let t ← getTypeByName p1 typ
        let m ← assertKind .message t
        (pure (flag, m) : M (Bool × Node))) c1.reg).1 ((do
        let t ← getTypeByName p2 typ
        let m ← assertKind .message t
        (pure (flag, m) : M (Bool × Node))) c2.reg).1 := by
  have hl := P.lookup hs typ
  simp only [M.bind_apply, getTypeByName_plain hr1, getTypeByName_plain hr2]
  revert hl
  rcases lookupType p1 typ c1.reg with ⟨res1, r1⟩
  rcases lookupType p2 typ c2.reg with ⟨res2, r2⟩
  rintro (h | e)
  · cases h with
    | declared a1 a2 k h1 h2 =>
      by_cases hk : k = .message
      · subst hk
        exact .ok ⟨rfl, .declared _ _ _ h1 h2⟩
      · simp only [assertKind, hk]
        exact .panic _
    | nil => exact .panic _
    | builtin b => exact .panic _
    | oneof _ _ _ _ => exact .panic _
    | map _ _ _ _ => exact .panic _
    | repeated _ _ _ => exact .panic _
  · exact .panic e

/-- C127 for the methods of a service: the same stream flags and the same messages, or the same panic. -/
theorem C127_method {c1 c2 a1 a2 name p1 p2} (hc1 : CleanReachable WFFile c1) (hc2 : CleanReachable WFFile c2)
    (hu1 : UniqueNames c1.reg) (hu2 : UniqueNames c2.reg) (hs : SameDeclarations c1.reg c2.reg)
    (hm1 : Node.wrapped a1 .method p1 ∈ c1.pool) (_hm2 : Node.wrapped a2 .method p2 ∈ c2.pool)
    (hd1 : Declared c1.reg name p1) (hd2 : Declared c2.reg name p2) :
    EndAlike (SameSignature c1.reg c2.reg) (Method.input p1 c1.reg).1 (Method.input p2 c2.reg).1 ∧
    EndAlike (SameSignature c1.reg c2.reg) (Method.output p1 c1.reg).1 (Method.output p2 c2.reg).1 := by
  have P : Pair c1 c2 := ⟨hc1, hc2, hu1, hu2, hs⟩
  obtain ⟨kd, hk, hst⟩ := handle_kind (clean_reachable hc1) hm1 (by simp)
  have hk2 : c2.reg.kind p2 = some kd := by rw [P.kind hd1 hd2, hk]
  have hsc := P.scopes hd1 hd2 (by rw [hk]; rintro s v h; cases h; cases hst)
  cases kd <;> try cases hst
  case rpc n req ret sreq sret =>
    have h1 : c1.reg.isRepeatedField p1 = false := by simp [Reg.isRepeatedField, hk]
    have h2 : c2.reg.isRepeatedField p2 = false := by simp [Reg.isRepeatedField, hk2]
    constructor
    · have := P.signature hsc h1 h2 req sreq
      unfold Method.input
      simp only [M.bind_apply, M.get_apply, hk, hk2] at this ⊢
      exact this
    · have := P.signature hsc h1 h2 ret sret
      unfold Method.output
      simp only [M.bind_apply, M.get_apply, hk, hk2] at this ⊢
      exact this

/-- C127 for the values of maps. -/
theorem C127_map {c1 c2 a1 a2 name p1 p2} (hc1 : CleanReachable WFFile c1) (hc2 : CleanReachable WFFile c2)
    (hu1 : UniqueNames c1.reg) (hu2 : UniqueNames c2.reg) (hs : SameDeclarations c1.reg c2.reg)
    (hm1 : Node.map a1 p1 ∈ c1.pool) (_hm2 : Node.map a2 p2 ∈ c2.pool)
    (hd1 : Declared c1.reg name p1) (hd2 : Declared c2.reg name p2) :
    EndAlike (fun x y => SameType c1.reg c2.reg (some x) (some y)) (Map.value p1 c1.reg).1 (Map.value p2 c2.reg).1 := by
  have P : Pair c1 c2 := ⟨hc1, hc2, hu1, hu2, hs⟩
  obtain ⟨o1, hi1, hg1⟩ := reachable_inv (clean_reachable hc1)
  obtain ⟨o2, hi2, -⟩ := reachable_inv (clean_reachable hc2)
  obtain ⟨n, kt, typ, s, hk⟩ : ∃ n kt typ s, c1.reg.kind p1 = some (.mapField n kt typ s) := (hg1 _ hm1).2
  have hk2 : c2.reg.kind p2 = some (.mapField n kt typ s) := by rw [P.kind hd1 hd2, hk]
  unfold Map.value
  simp only [M.bind_apply, M.get_apply, hk, hk2]
  cases hb : builtinType typ with
  | some b => exact .ok (.builtin b)
  | none =>
    simp only
    cases hx : c1.reg.registry (mapValueName typ) with
    | none =>
      have : c2.reg.registry (mapValueName typ) = none := by
        have h := congrFun P.defined (mapValueName typ)
        unfold Reg.defined at h
        rw [hx] at h
        simpa using h.symm
      rw [this]
      exact .panic _
    | some q1 =>
      have h1 := (moved_clean_registry hc1 hu1 _ _).mp hx
      obtain ⟨q2, h2⟩ := P.there h1
      have hy := (moved_clean_registry hc2 hu2 _ _).mpr h2
      have hkk := P.kind h1 h2
      obtain ⟨kd, hkd⟩ := declared_kind h1
      rw [hkd] at hkk
      simp only [hy, hkd, hkk]
      have hun1 := (hi1.regRooted _ _ hx).under
      have hun2 := (hi2.regRooted _ _ hy).under
      cases kd with
      | message nm ext =>
        obtain ⟨a, _, r', hw, _⟩ := wrap_full hi1 (target_of_kind hkd (k := .message) rfl) hun1
        obtain ⟨b, _, r'', hv, _⟩ := wrap_full hi2 (target_of_kind hkk (k := .message) rfl) hun2
        simp only [wrapAs, M.bind_apply, hw, hv, assertKind]
        exact .ok (.declared _ _ _ h1 h2)
      | enum nm =>
        obtain ⟨a, _, r', hw, _⟩ := wrap_full hi1 (target_of_kind hkd (k := .enum) rfl) hun1
        obtain ⟨b, _, r'', hv, _⟩ := wrap_full hi2 (target_of_kind hkk (k := .enum) rfl) hun2
        simp only [wrapAs, M.bind_apply, hw, hv, assertKind]
        exact .ok (.declared _ _ _ h1 h2)
      | _ => exact .panic _

/-- C127 for names: what is found under a full name in the one registry is found in the other, as a handle of the same Go
    type for the declaration of that name. -/
theorem C127_byName {c1 c2 name n1 r1} (hc1 : CleanReachable WFFile c1) (hc2 : CleanReachable WFFile c2)
    (hu1 : UniqueNames c1.reg) (hu2 : UniqueNames c2.reg) (hs : SameDeclarations c1.reg c2.reg)
    (h : nodeByFullName name c1.reg = (.ok (some n1), r1)) :
    ∃ n2 r2, nodeByFullName name c2.reg = (.ok (some n2), r2) ∧ SameType c1.reg c2.reg (some n1) (some n2) := by
  have P : Pair c1 c2 := ⟨hc1, hc2, hu1, hu2, hs⟩
  obtain ⟨o1, hi1, -⟩ := reachable_inv (clean_reachable hc1)
  obtain ⟨o2, hi2, -⟩ := reachable_inv (clean_reachable hc2)
  obtain ⟨a, k, p, kd, rfl, hd1, hk, hst⟩ := C10_found_is_declared (clean_reachable hc1) name n1 r1 h
  obtain ⟨a1, k1, kd1, r1', e1, g1, g2⟩ := byName_reg hi1 ((moved_clean_registry hc1 hu1 _ _).mpr hd1)
  rw [h] at e1
  cases e1
  obtain ⟨p2, hd2⟩ := P.there hd1
  obtain ⟨a2, k2, kd2, r2, e2, g3, g4⟩ := byName_reg hi2 ((moved_clean_registry hc2 hu2 _ _).mpr hd2)
  rw [P.kind hd1 hd2, g1] at g3
  cases g3
  rw [g2] at g4
  cases g4
  exact ⟨_, r2, e2, .declared _ _ _ hd1 hd2⟩

theorem enumField_scope {c} (hr : Reachable WFFile c) {p n v} (hk : c.reg.kind p = some (.enumField n v)) :
    c.reg.scope (.at p) = [] := by
  have hne : p.path ≠ [] := by
    intro h0
    rcases p with ⟨i, path⟩
    cases h0
    simp [Reg.kind, Reg.elem, ProtoFile.elemAt] at hk
  unfold Reg.scope
  cases hsc : c.reg.scopes (.at p) with
  | none => rfl
  | some s =>
    obtain ⟨f, e, hf, he, h⟩ := (reachable_sound hr).holders p s hsc hne
    simp [Reg.kind, Reg.elem, hf, he] at hk
    rw [hk] at h
    cases h

theorem Pair.scopes' {c1 c2} (P : Pair c1 c2) {name p1 p2} (h1 : Declared c1.reg name p1) (h2 : Declared c2.reg name p2) :
    c1.reg.scope (.at p1) = c2.reg.scope (.at p2) := by
  by_cases h : ∃ s v, c1.reg.kind p1 = some (.enumField s v)
  · obtain ⟨s, v, hk⟩ := h
    rw [enumField_scope (clean_reachable P.clean1) hk,
      enumField_scope (clean_reachable P.clean2) (by rw [P.kind h1 h2]; exact hk)]
  · exact P.scopes h1 h2 (fun s v hk => h ⟨s, v, hk⟩)

theorem Pair.isDefined {c1 c2} (P : Pair c1 c2) {name p1 p2} (h1 : Declared c1.reg name p1) (h2 : Declared c2.reg name p2)
    (ref : Str) : (c1.reg.registry ref = some p1) ↔ (c2.reg.registry ref = some p2) := by
  have key : ∀ {c1 c2 p1 p2}, Pair c1 c2 → Declared c1.reg name p1 → Declared c2.reg name p2 →
      c1.reg.registry ref = some p1 → c2.reg.registry ref = some p2 := by
    intro c1 c2 p1 p2 P h1 h2 h
    have := (moved_clean_registry P.clean1 P.unique1 _ _).mp h
    obtain ⟨f, hf, hq⟩ := this
    obtain ⟨g, hg, hq'⟩ := h1
    rw [hf] at hg
    cases hg
    rw [hq] at hq'
    cases hq'
    exact (moved_clean_registry P.clean2 P.unique2 _ _).mpr h2
  exact ⟨key P h1 h2, key P.symm h2 h1⟩

/-- C127 for what the registry says of a type: of the same type both registries give the same index, print the same
    name (or panic alike), and give the same answer to every `TypeIsDefined`. -/
theorem C127_says {c1 c2 t1 t2} (hc1 : CleanReachable WFFile c1) (hc2 : CleanReachable WFFile c2)
    (hu1 : UniqueNames c1.reg) (hu2 : UniqueNames c2.reg) (hs : SameDeclarations c1.reg c2.reg)
    (h : SameType c1.reg c2.reg (some t1) (some t2)) :
    EndAlike (· = ·) (nodeIndex t1 c1.reg).1 (nodeIndex t2 c2.reg).1 ∧
    EndAlike (· = ·) (typeName t1 c1.reg).1 (typeName t2 c2.reg).1 ∧
    ∀ ref, EndAlike (· = ·) (typeIsDefined t1 ref c1.reg).1 (typeIsDefined t2 ref c2.reg).1 := by
  have P : Pair c1 c2 := ⟨hc1, hc2, hu1, hu2, hs⟩
  generalize hx : some t1 = x1 at h
  generalize hy : some t2 = x2 at h
  induction h generalizing t1 t2 with
  | nil => cases hx
  | builtin b => cases hx; cases hy; exact ⟨.ok rfl, .ok rfl, fun _ => .ok rfl⟩
  | @declared name p1 p2 a1 a2 k h1 h2 =>
    cases hx; cases hy
    have hsc := P.scopes' h1 h2
    refine ⟨?_, ?_, fun ref => ?_⟩
    · cases k <;> try exact .ok hsc
      case messageField =>
        obtain ⟨kd, hk⟩ := declared_kind h1
        have hk2 : c2.reg.kind p2 = some kd := by rw [P.kind h1 h2, hk]
        simp only [nodeIndex, M.bind_apply, M.get_apply, hk, hk2]
        cases kd <;> first | exact .ok hsc | exact .ok rfl
      all_goals exact .ok rfl
    · cases k <;> first | exact .ok hsc | exact .panic _
    · have hd := P.isDefined h1 h2 ref
      cases k <;> first | exact .ok rfl | skip
      all_goals
        show EndAlike _ (Res.ok (decide (c1.reg.registry ref = some p1))) (Res.ok (decide (c2.reg.registry ref = some p2)))
        exact .ok (decide_eq_decide.mpr hd)
  | oneof a1 a2 h1 h2 => cases hx; cases hy; exact ⟨.ok (P.scopes' h1 h2), .ok rfl, fun _ => .ok rfl⟩
  | map a1 a2 h1 h2 => cases hx; cases hy; exact ⟨.ok (P.scopes' h1 h2), .panic _, fun _ => .ok rfl⟩
  | @repeated a1 a2 e1 e2 h ih =>
    cases hx; cases hy
    refine ⟨.ok rfl, ?_, fun _ => .ok rfl⟩
    cases e1 with
    | none => cases h; exact .panic _
    | some t1 =>
      cases e2 with
      | none => cases h
      | some t2 =>
        have := (ih rfl rfl).2.1
        unfold typeName
        simp only [M.bind_apply]
        revert this
        rcases typeName t1 c1.reg with ⟨x, r1⟩
        rcases typeName t2 c2.reg with ⟨y, r2⟩
        rintro (h | e)
        · subst h; exact .ok rfl
        · exact .panic _

/-! ### The hypotheses are met -/

/-- A file with a message of which one field has a nested type, one a repeated type declared below, and a oneof. -/
def undividedFile : List Elem :=
  let f := b!"m.proto"
  [Ex.el f 1 (.packageK b!"m"),
   Ex.el f 2 (.message b!"M" false)
     [Ex.fld f 3 b!"t" b!"T" 1 true, Ex.fld f 4 b!"n" b!"N" 2,
      Ex.el f 5 (.oneof b!"choice") [Ex.el f 6 (.oneofField b!"left" b!"E" 3)],
      Ex.el f 7 (.mapField b!"dict" b!"string" b!"m.T" 4),
      Ex.el f 8 (.message b!"N" false)],
   Ex.el f 9 (.message b!"T" false), Ex.el f 10 (.enum b!"E") [Ex.el f 11 (.enumField b!"ZERO" 0)],
   Ex.el f 12 (.service b!"S") [Ex.el f 13 (.rpc b!"Do" b!"M" b!"M.N" false true)]]

/-- The same declarations in two files, in another order, with comments and options. -/
def firstHalf : List Elem :=
  let f := b!"m.proto"
  [Ex.el f 1 (.packageK b!"m"), Ex.el f 2 (.importK b!"types.proto"), Ex.el f 3 .comment,
   Ex.el f 4 (.service b!"S") [Ex.el f 5 (.rpc b!"Do" b!"M" b!"M.N" false true)],
   Ex.el f 6 (.message b!"M" false)
     [Ex.el f 7 (.message b!"N" false),
      Ex.el f 8 (.mapField b!"dict" b!"string" b!"m.T" 4),
      Ex.el f 9 (.oneof b!"choice") [Ex.el f 10 (.oneofField b!"left" b!"E" 3)],
      Ex.fld f 11 b!"n" b!"N" 2 false [Ex.el f 12 (.option b!"deprecated" (Ex.lit f b!"true"))],
      Ex.fld f 13 b!"t" b!"T" 1 true]]
def otherHalf : List Elem :=
  let f := b!"types.proto"
  [Ex.el f 1 (.packageK b!"m"), Ex.el f 2 (.enum b!"E") [Ex.el f 3 (.enumField b!"ZERO" 0)],
   Ex.el f 4 (.message b!"T" false)]

def undividedWorld : World := Ex.worldOf [(descriptorPath, Ex.descriptor), (b!"m.proto", undividedFile)]
def splitWorld : World :=
  Ex.worldOf [(descriptorPath, Ex.descriptor), (b!"m.proto", firstHalf), (b!"types.proto", otherHalf)]

def undividedReg : Reg := (newRegistry undividedWorld 5).2
def splitReg : Reg := (newRegistry splitWorld 5).2

/-- Both load the file and take the method and the fields of the message. -/
def movedOps (W : World) : List Op :=
  [.proto W 5 b!"m.proto", .byName b!".m.M.t", .byName b!".m.M.n", .byName b!".m.M.left", .byName b!".m.S.Do"]
def undividedClient : Client := Client.exec ⟨undividedReg, []⟩ (movedOps undividedWorld)
def splitClient : Client := Client.exec ⟨splitReg, []⟩ (movedOps splitWorld)

theorem undividedWorld_sat : undividedWorld.Sat WFFile := by
  apply Ex.worldOf_sat
  intro x hx
  refine Ex.wfb_spec ?_
  simp only [List.mem_cons, List.not_mem_nil, or_false] at hx
  rcases hx with rfl | rfl <;> decide +kernel

theorem splitWorld_sat : splitWorld.Sat WFFile := by
  apply Ex.worldOf_sat
  intro x hx
  refine Ex.wfb_spec ?_
  simp only [List.mem_cons, List.not_mem_nil, or_false] at hx
  rcases hx with rfl | rfl | rfl <;> decide +kernel

theorem wholeClient_clean : CleanReachable WFFile undividedClient := by
  refine ⟨undividedWorld, 5, undividedReg, movedOps undividedWorld, undividedWorld_sat, Ex.ok_of_okOk (by decide +kernel), ?_,
    Ex.loadsB_spec (by decide +kernel), rfl⟩
  intro op hop
  simp only [movedOps, List.mem_cons, List.not_mem_nil, or_false] at hop
  rcases hop with rfl | rfl | rfl | rfl | rfl <;> first | exact undividedWorld_sat | trivial

theorem splitClient_clean : CleanReachable WFFile splitClient := by
  refine ⟨splitWorld, 5, splitReg, movedOps splitWorld, splitWorld_sat, Ex.ok_of_okOk (by decide +kernel), ?_,
    Ex.loadsB_spec (by decide +kernel), rfl⟩
  intro op hop
  simp only [movedOps, List.mem_cons, List.not_mem_nil, or_false] at hop
  rcases hop with rfl | rfl | rfl | rfl | rfl <;> first | exact splitWorld_sat | trivial

/-- A checker for equality of the kinds that declare a name. -/
def sameKindB : Kind → Kind → Bool
  | .message a b, .message c d => decide (a = c) && decide (b = d)
  | .service a, .service b => decide (a = b)
  | .normalField a b c d e, .normalField a' b' c' d' e' =>
    decide (a = a') && decide (b = b') && decide (c = c') && decide (d = d') && decide (e = e')
  | .mapField a b c d, .mapField a' b' c' d' => decide (a = a') && decide (b = b') && decide (c = c') && decide (d = d')
  | .oneof a, .oneof b => decide (a = b)
  | .oneofField a b c, .oneofField a' b' c' => decide (a = a') && decide (b = b') && decide (c = c')
  | .enum a, .enum b => decide (a = b)
  | .enumField a b, .enumField c d => decide (a = c) && decide (b = d)
  | .rpc a b c d e, .rpc a' b' c' d' e' =>
    decide (a = a') && decide (b = b') && decide (c = c') && decide (d = d') && decide (e = e')
  | _, _ => false

theorem sameKindB_spec {k k' : Kind} (h : sameKindB k k' = true) : k = k' := by
  cases k <;> cases k' <;> simp_all [sameKindB]

/-- A checker for one half of `SameDeclarations`. -/
def halfB (r1 r2 : Reg) : Bool :=
  (Ex.fqnsFrom 0 r1.heap).all fun x => (Ex.fqnsFrom 0 r2.heap).any fun y =>
    decide ((r2.heap[y.2.file]?).bind (fun f => f.fqn y.2.path) = some x.1) &&
      (match r1.kind x.2, r2.kind y.2 with
        | some k, some k' => sameKindB k k'
        | _, _ => false)

theorem halfB_spec {r1 r2 : Reg} (h : halfB r1 r2 = true) (name : Str) (k : Kind)
    (hd : ∃ p, Declared r1 name p ∧ r1.kind p = some k) : ∃ p, Declared r2 name p ∧ r2.kind p = some k := by
  obtain ⟨⟨i, path⟩, ⟨f, hf, hq⟩, hk⟩ := hd
  have hm := Ex.fqnsFrom_complete _ 0 _ _ _ _ hf hq
  rw [Nat.zero_add] at hm
  unfold halfB at h
  rw [List.all_eq_true] at h
  have := h _ hm
  rw [List.any_eq_true] at this
  obtain ⟨y, -, hy⟩ := this
  rw [Bool.and_eq_true, decide_eq_true_eq] at hy
  obtain ⟨h1, h2⟩ := hy
  simp only [hk] at h2
  cases hk2 : r2.kind y.2 with
  | none => rw [hk2] at h2; cases h2
  | some k' =>
    rw [hk2] at h2
    exact ⟨y.2, Option.bind_eq_some_iff.mp h1, by rw [hk2, sameKindB_spec h2]⟩

theorem moved_same : SameDeclarations undividedClient.reg splitClient.reg :=
  fun name k => ⟨halfB_spec (by decide +kernel) name k, halfB_spec (by decide +kernel) name k⟩

/-- The fields, the branch and the method are in different places of different files. -/
example : CleanReachable WFFile undividedClient ∧ CleanReachable WFFile splitClient ∧
    UniqueNames undividedClient.reg ∧ UniqueNames splitClient.reg ∧
    SameDeclarations undividedClient.reg splitClient.reg ∧
    undividedClient.pool.map Node.decl =
      [some ⟨1, []⟩, some ⟨1, [0, 1]⟩, some ⟨1, [1, 1]⟩, some ⟨1, [0, 2, 1]⟩, some ⟨1, [0, 4]⟩] ∧
    splitClient.pool.map Node.decl =
      [some ⟨1, []⟩, some ⟨1, [4, 4]⟩, some ⟨1, [3, 4]⟩, some ⟨1, [0, 2, 4]⟩, some ⟨1, [0, 3]⟩] :=
  ⟨wholeClient_clean, splitClient_clean, Ex.uniqueB_spec (by decide +kernel), Ex.uniqueB_spec (by decide +kernel),
    moved_same, by decide +kernel, by decide +kernel⟩

/-- What C127 says of the repeated field `t`, whose type is in the other file now. -/
example : ∃ a1 a2, Node.wrapped a1 .messageField ⟨1, [0, 1]⟩ ∈ undividedClient.pool ∧
    Node.wrapped a2 .messageField ⟨1, [4, 4]⟩ ∈ splitClient.pool ∧
    EndAlike (SameType undividedClient.reg splitClient.reg) (MessageField.type a1 ⟨1, [0, 1]⟩ undividedClient.reg).1
      (MessageField.type a2 ⟨1, [4, 4]⟩ splitClient.reg).1 := by
  have h1 := Ex.hasA_spec (c := undividedClient) (i := 1) (a := 1) (k := .messageField) (p := ⟨1, [0, 1]⟩) (by decide +kernel)
  have h2 := Ex.hasA_spec (c := splitClient) (i := 1) (a := 1) (k := .messageField) (p := ⟨1, [4, 4]⟩) (by decide +kernel)
  exact ⟨1, 1, h1, h2, C127_field (name := b!".m.M.t") wholeClient_clean splitClient_clean
    (Ex.uniqueB_spec (by decide +kernel)) (Ex.uniqueB_spec (by decide +kernel)) moved_same h1 h2
    (Option.bind_eq_some_iff.mp (by decide +kernel)) (Option.bind_eq_some_iff.mp (by decide +kernel))
    (by decide +kernel) (by decide +kernel)⟩

end Protoast.Props
