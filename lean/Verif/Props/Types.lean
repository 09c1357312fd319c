import Verif.Proof.Types2
import Verif.Proof.NamesInv
import Verif.Examples
/-
  C38–C44: builtin types, repeated, maps, methods, TypeName, TypeIsDefined, reserved.
-/
namespace Protoast.Props
open Protoast

/-! ### C38 -/

/-- C38: there are fifteen builtin types, each prints as its own keyword; the keywords are all different. -/
theorem C38_prints (b : Builtin) (r : Reg) :
    typeName (.builtin b) r = (.ok b.toStr, r) ∧ b.toStr = b.keyword ∧ (∀ b' : Builtin, b'.toStr = b.toStr → b' = b) ∧
    b.toStr ∈ [b!"double", b!"float", b!"int32", b!"int64", b!"uint32", b!"uint64", b!"sint32", b!"sint64",
      b!"fixed32", b!"fixed64", b!"sfixed32", b!"sfixed64", b!"bool", b!"string", b!"bytes"] :=
  ⟨rfl, by cases b <;> rfl, fun _ h => toStr_inj h, by cases b <;> decide⟩

/-- The builtin type `b`, under a repeated label or not. -/
def IsBuiltin (rep : Bool) (b : Builtin) (t : Node) : Prop :=
  if rep then ∃ a, t = .repeated a (some (.builtin b)) else t = .builtin b

/-- C38 for fields: in every history, `Type` of a field whose declared type is the keyword of `b` is the builtin
    type `b` (under the repeated label, if there is one); and `Type` of a field declared with any other name is
    never a builtin type. -/
theorem C38_field {P c a p n typ s rep opt} (hr : Reachable P c) (hm : Node.wrapped a .messageField p ∈ c.pool)
    (hk : c.reg.kind p = some (.normalField n typ s rep opt)) :
    (∀ b : Builtin, typ = b.toStr → ∃ t r', MessageField.type a p c.reg = (.ok (some t), r') ∧ IsBuiltin rep b t) ∧
    (∀ t r', MessageField.type a p c.reg = (.ok (some t), r') → ∀ b rep', IsBuiltin rep' b t → typ = b.toStr) := by
  obtain ⟨o, hi, hg⟩ := reachable_inv hr
  obtain ⟨o', hx, hi', hq⟩ := fieldType_tri hi (hg _ hm)
  have hh : (MessageField.type a p c.reg).2.kind p = some (.normalField n typ s rep opt) := by
    have : (MessageField.type a p c.reg).2.heap = c.reg.heap := ((RO.fieldType a p).ext c.reg).heap
    simp only [Reg.kind, Reg.elem, this] at hk ⊢
    exact hk
  have shape : ∀ t, (MessageField.type a p c.reg).1 = .ok t →
      (t = none ∧ builtinType typ = none) ∨ (rep = false ∧ BaseShape typ t) ∨
      (rep = true ∧ ∃ a t', t = some (.repeated a t') ∧ BaseShape typ t') := by
    intro t ht
    rcases (hq t ht).2 with ⟨h1, n', typ', s', rep', opt', h2, h3⟩ | hs
    · rw [hh] at h2; cases h2; exact .inl ⟨h1, h3⟩
    · rcases hs with ⟨_, _, _, _, h2, h3⟩ | ⟨_, _, _, _, h2, h3⟩ | ⟨⟨_, h2⟩, _⟩ | ⟨⟨_, _, _, _, h2⟩, _⟩ <;>
        rw [hh] at h2 <;> cases h2
      · exact .inr (.inl ⟨rfl, h3⟩)
      · exact .inr (.inr ⟨rfl, h3⟩)
  constructor
  · rintro b hb
    have hb' := (builtin_iff typ b).mpr hb
    have hok : ∃ t r', MessageField.type a p c.reg = (.ok t, r') := by
      cases hc : c.reg.ftcache a with
      | some t => exact ⟨t, c.reg, by unfold MessageField.type; rw [hc]⟩
      | none =>
        cases rep with
        | false => rw [field_type_eq hk hc, lookupType_builtin hb']; exact ⟨_, _, rfl⟩
        | true => rw [field_type_rep hk hc, lookupType_builtin hb']; exact ⟨_, _, rfl⟩
    obtain ⟨t, r', e⟩ := hok
    rcases shape t (by rw [e]) with ⟨_, h2⟩ | ⟨h1, h2⟩ | ⟨h1, a', t', h2, h3⟩
    · rw [hb'] at h2; cases h2
    · unfold BaseShape at h2
      rw [hb'] at h2
      subst h2 h1
      exact ⟨_, _, e, rfl⟩
    · unfold BaseShape at h3
      rw [hb'] at h3
      subst h3 h2 h1
      exact ⟨_, _, e, a', rfl⟩
  · intro t r' e b rep' hb
    rw [← builtin_iff]
    rcases shape (some t) (by rw [e]) with ⟨h1, _⟩ | ⟨_, h2⟩ | ⟨_, a', t', h2, h3⟩
    · cases h1
    · unfold BaseShape at h2
      cases hbt : builtinType typ with
      | some b' =>
        rw [hbt] at h2
        cases h2
        unfold IsBuiltin at hb
        split at hb
        · obtain ⟨_, hb⟩ := hb; cases hb
        · cases hb; rfl
      | none =>
        rw [hbt] at h2
        rcases h2 with h2 | ⟨_, _, _, h2, _⟩
        · cases h2
        · cases h2
          unfold IsBuiltin at hb
          split at hb
          · obtain ⟨_, hb⟩ := hb; cases hb
          · cases hb
    · cases h2
      unfold IsBuiltin at hb
      split at hb
      · obtain ⟨_, hb⟩ := hb
        cases hb
        unfold BaseShape at h3
        cases hbt : builtinType typ with
        | some b' => rw [hbt] at h3; cases h3; rfl
        | none =>
          rw [hbt] at h3
          rcases h3 with h3 | ⟨_, _, _, h3, _⟩ <;> cases h3
      · cases hb

/-- C38 for the branches of a oneof. -/
theorem C38_branch {P c p n typ s} (hr : Reachable P c) (hk : c.reg.kind p = some (.oneofField n typ s)) :
    (∀ b : Builtin, typ = b.toStr → OneOfBranch.type p c.reg = (.ok (some (.builtin b)), c.reg)) ∧
    (∀ (b : Builtin) r', OneOfBranch.type p c.reg = (.ok (some (.builtin b)), r') → typ = b.toStr) := by
  obtain ⟨o, hi, hg⟩ := reachable_inv hr
  rw [branch_type_eq hk]
  constructor
  · intro b hb
    exact lookupType_builtin ((builtin_iff _ _).mpr hb)
  · intro b r' h
    rcases lookupType_denotes hi h with ⟨b', h1, h2⟩ | ⟨_, _, _, _, _, h2⟩ | ⟨_, _, h2⟩ <;> cases h2
    exact h1

/-- C38 for maps: the key type is the scalar of that keyword, every keyword but `bytes` is accepted and nothing
    else is; the value type is a builtin type exactly for the keywords. -/
theorem C38_map {P c p n kt typ s} (hr : Reachable P c) (hk : c.reg.kind p = some (.mapField n kt typ s)) :
    (∀ b : Builtin, (∃ r', Map.key p c.reg = (.ok (.builtin b), r')) ↔ (kt = b.toStr ∧ b ≠ .bytes)) ∧
    (∀ t r', Map.key p c.reg = (.ok t, r') → ∃ b : Builtin, t = .builtin b) ∧
    (∀ b : Builtin, (∃ r', Map.value p c.reg = (.ok (.builtin b), r')) ↔ typ = b.toStr) := by
  obtain ⟨o, hi, hg⟩ := reachable_inv hr
  have hkey : Map.key p c.reg = match builtinComparableType kt with
      | some b => (.ok (.builtin b), c.reg)
      | none => (.panic .badMapKey, c.reg) := by
    unfold Map.key
    simp only [M.bind_apply, M.get_apply, hk]
    cases builtinComparableType kt <;> rfl
  refine ⟨?_, ?_, ?_⟩
  · intro b
    rw [← builtinComparable_iff, hkey]
    constructor
    · rintro ⟨r', h⟩
      cases hb : builtinComparableType kt with
      | none => rw [hb] at h; cases h
      | some b' => rw [hb] at h; cases h; rfl
    · intro h; rw [h]; exact ⟨_, rfl⟩
  · intro t r' h
    rw [hkey] at h
    cases hb : builtinComparableType kt with
    | none => rw [hb] at h; cases h
    | some b' => rw [hb] at h; cases h; exact ⟨b', rfl⟩
  · intro b
    rw [← builtin_iff]
    unfold Map.value
    simp only [M.bind_apply, M.get_apply, hk]
    cases hb : builtinType typ with
    | some b' =>
      simp only [M.pure_apply, Prod.mk.injEq, Res.ok.injEq, Node.builtin.injEq, Option.some.injEq]
      exact ⟨fun ⟨_, h, _⟩ => h, fun h => ⟨_, h, rfl⟩⟩
    | none =>
      simp only [reduceCtorEq, iff_false]
      rintro ⟨r', h⟩
      have key : ∀ k q, wrapAs k q c.reg ≠ (.ok (.builtin b), r') := by
        intro k q hw
        unfold wrapAs assertKind at hw
        simp only [M.bind_apply] at hw
        rcases hx : wrap (.at q) c.reg with ⟨res, r2⟩
        rw [hx] at hw
        cases res with
        | panic e => cases hw
        | timeout => cases hw
        | ok x =>
          simp only at hw
          split at hw
          · split at hw <;> cases hw
          · cases hw
      cases hq : c.reg.registry (mapValueName typ) with
      | none => rw [hq] at h; cases h
      | some q =>
        rw [hq] at h
        simp only at h
        rcases hkd : c.reg.kind q with _ | kd
        · rw [hkd] at h; cases h
        rw [hkd] at h
        cases kd <;> first | exact key _ _ h | cases h

/-- Non-vacuity of C38: `i` is an int32 field, `left` and `dict` are there. -/
example : (∃ a, Node.wrapped a .messageField ⟨1, [2, 4]⟩ ∈ Ex.c2.pool) ∧
    Ex.c2.reg.kind ⟨1, [2, 4]⟩ = some (.normalField b!"i" Builtin.int32.toStr 3 false false) ∧
    Ex.c2.reg.kind ⟨1, [1, 3, 4]⟩ = some (.oneofField b!"right" Builtin.string.toStr 5) ∧
    Ex.c2.reg.kind ⟨1, [4, 4]⟩ = some (.mapField b!"dict" Builtin.string.toStr b!"p.q.M" 6) :=
  ⟨Ex.hasW_spec (i := 4) (by decide +kernel), by rfl, by rfl, by rfl⟩

/-! ### C39 -/

/-- C39: a type that `Type` of a field returns, at any time, is a repeated type iff the field is declared so. -/
theorem C39_repeated_iff {P c a p n typ s rep opt t r'} (hr : Reachable P c)
    (hm : Node.wrapped a .messageField p ∈ c.pool) (hk : c.reg.kind p = some (.normalField n typ s rep opt))
    (h : MessageField.type a p c.reg = (.ok (some t), r')) : (∃ a' e, t = .repeated a' e) ↔ rep = true := by
  obtain ⟨o, hi, hg⟩ := reachable_inv hr
  obtain ⟨o', hx, hi', hq⟩ := fieldType_tri hi (hg _ hm)
  have hh : r'.kind p = some (.normalField n typ s rep opt) := by
    have : (MessageField.type a p c.reg).2.heap = c.reg.heap := ((RO.fieldType a p).ext c.reg).heap
    rw [h] at this
    have this : r'.heap = c.reg.heap := this
    simp only [Reg.kind, Reg.elem, this] at hk ⊢
    exact hk
  rw [h] at hq
  rcases (hq _ rfl).2 with ⟨h1, _⟩ | hs
  · cases h1
  · rcases hs with ⟨_, _, _, _, h2, h3⟩ | ⟨_, _, _, _, h2, h3⟩ | ⟨⟨_, h2⟩, _⟩ | ⟨⟨_, _, _, _, h2⟩, _⟩ <;>
      rw [hh] at h2 <;> cases h2
    · simp only [Bool.false_eq_true, iff_false]
      rintro ⟨a', e, rfl⟩
      unfold BaseShape at h3
      split at h3
      · cases h3
      · rcases h3 with h3 | ⟨_, _, _, h3, _⟩ <;> cases h3
    · obtain ⟨a', t', h4, _⟩ := h3
      cases h4
      exact ⟨fun _ => rfl, fun _ => ⟨a', t', rfl⟩⟩

/-- C39, the other fields: the type of a oneof field is the oneof, that of a map field the map; neither is ever
    repeated. -/
theorem C39_other_fields {P c a p t r'} (hr : Reachable P c) (hm : Node.wrapped a .messageField p ∈ c.pool)
    (h : MessageField.type a p c.reg = (.ok t, r')) :
    (∀ n, c.reg.kind p = some (.oneof n) → ∃ a', t = some (.oneof a' p)) ∧
    (∀ n kt typ s, c.reg.kind p = some (.mapField n kt typ s) → ∃ a', t = some (.map a' p)) := by
  obtain ⟨o, hi, hg⟩ := reachable_inv hr
  obtain ⟨o', hx, hi', hq⟩ := fieldType_tri hi (hg _ hm)
  have hh : r'.kind p = c.reg.kind p := by
    have : (MessageField.type a p c.reg).2.heap = c.reg.heap := ((RO.fieldType a p).ext c.reg).heap
    rw [h] at this
    have this : r'.heap = c.reg.heap := this
    simp only [Reg.kind, Reg.elem, this]
  rw [h] at hq
  constructor
  · intro n hk
    rw [hk] at hh
    rcases (hq _ rfl).2 with ⟨_, _, _, _, _, _, h1, _⟩ | hs
    · rw [hh] at h1; cases h1
    · rcases hs with ⟨_, _, _, _, h2, h3⟩ | ⟨_, _, _, _, h2, h3⟩ | ⟨⟨_, h2⟩, h3⟩ | ⟨⟨_, _, _, _, h2⟩, _⟩ <;>
        rw [hh] at h2 <;> cases h2
      exact h3
  · intro n kt typ s hk
    rw [hk] at hh
    rcases (hq _ rfl).2 with ⟨_, _, _, _, _, _, h1, _⟩ | hs
    · rw [hh] at h1; cases h1
    · rcases hs with ⟨_, _, _, _, h2, h3⟩ | ⟨_, _, _, _, h2, h3⟩ | ⟨⟨_, h2⟩, h3⟩ | ⟨⟨_, _, _, _, h2⟩, h3⟩ <;>
        rw [hh] at h2 <;> cases h2
      exact h3

/-- C39, the element: on its first call for a field, `Type` looks its type name up in the same way with and
    without the repeated label: it gives what the name denotes, under `Repeated` iff the label is there, and it
    fails iff the name denotes something that is not a type. -/
theorem C39_element {P c a p n typ s rep opt} (hr : Reachable P c)
    (hk : c.reg.kind p = some (.normalField n typ s rep opt)) (hf : c.reg.ftcache a = none) :
    (∀ t r', MessageField.type a p c.reg = (.ok t, r') →
      if rep then ∃ a' e, t = some (.repeated a' e) ∧ TypeDenotes c.reg (c.reg.scope (.at p)) typ e
      else TypeDenotes c.reg (c.reg.scope (.at p)) typ t) ∧
    ((∃ e r', MessageField.type a p c.reg = (.panic e, r')) ↔
      ¬ IsKeyword typ ∧ ∃ q kd, Refers c.reg (c.reg.scope (.at p)) typ q ∧ c.reg.kind q = some kd ∧
        kd.isType = false) := by
  obtain ⟨o, hi, hg⟩ := reachable_inv hr
  have hfail := lookupType_fails hi (p := p) (typ := typ)
  rw [← hfail]
  cases rep with
  | false =>
    rw [field_type_eq hk hf]
    rcases hl : lookupType p typ c.reg with ⟨res, r1⟩
    cases res with
    | ok t =>
      refine ⟨?_, by simp⟩
      intro t' r' h
      cases h
      exact lookupType_denotes hi hl
    | panic e => exact ⟨fun t r' h => (by cases h), by simp⟩
    | timeout => exact ⟨fun t r' h => (by cases h), by simp⟩
  | true =>
    rw [field_type_rep hk hf]
    rcases hl : lookupType p typ c.reg with ⟨res, r1⟩
    cases res with
    | ok t =>
      refine ⟨?_, by simp⟩
      intro t' r' h
      cases h
      exact ⟨_, _, rfl, lookupType_denotes hi hl⟩
    | panic e => exact ⟨fun t r' h => (by cases h), by simp⟩
    | timeout => exact ⟨fun t r' h => (by cases h), by simp⟩

/-- Non-vacuity of C39: `n` is repeated, its type name refers to `M.N`. -/
example : (∃ a, Node.wrapped a .messageField ⟨1, [1, 4]⟩ ∈ Ex.c2.pool ∧ Ex.c2.reg.ftcache a = none) ∧
    Ex.c2.reg.kind ⟨1, [1, 4]⟩ = some (.normalField b!"n" b!"N" 2 true false) := by
  refine ⟨⟨3, Ex.hasA_spec (i := 3) (by decide +kernel), by decide +kernel⟩, by rfl⟩

/-! ### C41 -/

/-- The type name denotes the message at `q`. -/
def DenotesMessage (r : Reg) (p : Ptr) (typ : Str) (q : Ptr) : Prop :=
  ¬ IsKeyword typ ∧ Refers r (r.scope (.at p)) typ q ∧ ∃ nm ext, r.kind q = some (.message nm ext)

theorem method_lookup {o r} (hi : Inv o r) {p : Ptr} (hrep : r.isRepeatedField p = false) (typ : Str) (flag : Bool) :
    (∀ q, DenotesMessage r p typ q → ∃ a r', (do
        let t ← getTypeByName p typ
        let m ← assertKind .message t
        (pure (flag, m) : M (Bool × Node))) r = (.ok (flag, .wrapped a .message q), r')) ∧
    ((¬ ∃ q, DenotesMessage r p typ q) → ∃ e r', (do
        let t ← getTypeByName p typ
        let m ← assertKind .message t
        (pure (flag, m) : M (Bool × Node))) r = (.panic e, r')) := by
  simp only [M.bind_apply, getTypeByName_plain hrep]
  constructor
  · rintro q ⟨h1, h2, nm, ext, h3⟩
    obtain ⟨kd, k, h4, h5, h6, _⟩ := lookupType_refers hi ((not_keyword_iff _).mp h1) h2
    rw [h3] at h4
    cases h4
    obtain ⟨a, r', e⟩ := h6 rfl
    cases h5
    rw [e]
    exact ⟨a, r', rfl⟩
  · intro hno
    rcases hl : lookupType p typ r with ⟨res, r1⟩
    cases res with
    | panic e => exact ⟨_, _, rfl⟩
    | timeout => exact absurd (by rw [hl]) (lookupType_no_timeout hi (p := p) (typ := typ))
    | ok t =>
      rcases lookupType_denotes hi hl with ⟨b, _, rfl⟩ | ⟨h1, q, a, k, h2, rfl⟩ | ⟨_, _, rfl⟩
      · exact ⟨_, _, rfl⟩
      · by_cases hk : k = .message
        · exfalso
          subst hk
          apply hno
          refine ⟨q, h1, h2, ?_⟩
          obtain ⟨kd, k', h4, h5, h6, h7⟩ := lookupType_refers hi ((not_keyword_iff _).mp h1) h2
          cases ht : kd.isType with
          | false => obtain ⟨_, e⟩ := h7 ht; rw [e] at hl; cases hl
          | true =>
            obtain ⟨_, _, e⟩ := h6 ht
            rw [e] at hl
            cases hl
            cases kd <;> cases h5
            exact ⟨_, _, h4⟩
        · refine ⟨.typeAssertion, r1, ?_⟩
          simp [assertKind, hk]
      · exact ⟨_, _, rfl⟩

/-- C41: `Input` of a method gives the declared stream flag and the node of the message that the declared type name
    denotes in the scope of the method; it fails iff the name does not denote a message. -/
theorem C41_input {P c p n req ret sreq sret} (hr : Reachable P c)
    (hk : c.reg.kind p = some (.rpc n req ret sreq sret)) :
    (∀ q, DenotesMessage c.reg p req q →
      ∃ a r', Method.input p c.reg = (.ok (sreq, .wrapped a .message q), r')) ∧
    ((¬ ∃ q, DenotesMessage c.reg p req q) → ∃ e r', Method.input p c.reg = (.panic e, r')) := by
  obtain ⟨o, hi, _⟩ := reachable_inv hr
  have := method_lookup hi (p := p) (by simp [Reg.isRepeatedField, hk]) req sreq
  unfold Method.input
  simp only [M.bind_apply, M.get_apply, hk] at this ⊢
  exact this

/-- C41 for `Output`. -/
theorem C41_output {P c p n req ret sreq sret} (hr : Reachable P c)
    (hk : c.reg.kind p = some (.rpc n req ret sreq sret)) :
    (∀ q, DenotesMessage c.reg p ret q →
      ∃ a r', Method.output p c.reg = (.ok (sret, .wrapped a .message q), r')) ∧
    ((¬ ∃ q, DenotesMessage c.reg p ret q) → ∃ e r', Method.output p c.reg = (.panic e, r')) := by
  obtain ⟨o, hi, _⟩ := reachable_inv hr
  have := method_lookup hi (p := p) (by simp [Reg.isRepeatedField, hk]) ret sret
  unfold Method.output
  simp only [M.bind_apply, M.get_apply, hk] at this ⊢
  exact this

/-- Non-vacuity of C41: `rpc Do(M) returns (stream M.N)`. -/
example : Ex.c2.reg.kind ⟨1, [0, 5]⟩ = some (.rpc b!"Do" b!"M" b!"M.N" false true) ∧
    DenotesMessage Ex.c2.reg ⟨1, [0, 5]⟩ b!"M.N" ⟨1, [5, 4]⟩ := by
  refine ⟨by rfl, (not_keyword_iff _).mpr (by decide +kernel), ?_, b!"N", false, by rfl⟩
  exact resolve_refers (c := b!".p.q.M.N") (by decide +kernel) (by decide +kernel)

/-! ### C43 -/

/-- C43: TypeIsDefined(t, ref) holds iff `t` is a message or an enum and NodeByFullName(ref) is `t` itself. -/
theorem C43_identity {P c t ref} (hr : Reachable P c) (ht : t ∈ c.pool) :
    ∃ b, typeIsDefined t ref c.reg = (.ok b, c.reg) ∧
      (b = true ↔ (∃ a p, t = .wrapped a .message p ∨ t = .wrapped a .enum p) ∧
        ∃ r', nodeByFullName ref c.reg = (.ok (some t), r')) := by
  obtain ⟨o, hi, hg⟩ := reachable_inv hr
  have key : ∀ a k p, k ≠ .file → t = .wrapped a k p → (c.reg.registry ref = some p ↔
      ∃ r', nodeByFullName ref c.reg = (.ok (some t), r')) := by
    rintro a k p hk rfl
    have hc := (hg _ ht).cached hk
    unfold nodeByFullName
    simp only [M.bind_apply, M.get_apply]
    constructor
    · intro h
      rw [h]
      refine ⟨c.reg, ?_⟩
      simp only
      unfold wrap
      rw [hc]
    · rintro ⟨r', h⟩
      cases hreg : c.reg.registry ref with
      | none =>
        rw [hreg] at h
        simp only at h
        obtain ⟨_, _, _, hq⟩ := wrap_tri hi (v := .nil) (by intro p hp; cases hp)
        rw [h] at hq
        obtain ⟨_, _, _, h1, _⟩ := hq _ rfl _ rfl
        cases h1
      | some q =>
        rw [hreg] at h
        simp only at h
        obtain ⟨_, _, _, hq⟩ := wrap_tri hi (v := .at q) (by
          intro p hp; cases hp; exact (hi.regRooted _ _ hreg).under)
        rw [h] at hq
        obtain ⟨_, _, _, h1, h2, _⟩ := hq _ rfl _ rfl
        cases h1
        cases h2
        rfl
  unfold typeIsDefined
  simp only [M.bind_apply, M.get_apply]
  cases t with
  | wrapped a k p =>
    cases k
    case message =>
      refine ⟨_, rfl, ?_⟩
      rw [decide_eq_true_iff, key a _ p (by decide) rfl]
      exact ⟨fun h => ⟨⟨a, p, .inl rfl⟩, h⟩, fun h => h.2⟩
    case enum =>
      refine ⟨_, rfl, ?_⟩
      rw [decide_eq_true_iff, key a _ p (by decide) rfl]
      exact ⟨fun h => ⟨⟨a, p, .inr rfl⟩, h⟩, fun h => h.2⟩
    all_goals
      refine ⟨false, rfl, ?_⟩
      simp
  | _ =>
    refine ⟨false, rfl, ?_⟩
    simp

/-- C43: for a name that is not registered it is false for every type. -/
theorem C43_unregistered {t ref} {r : Reg} (h : r.registry ref = none) :
    typeIsDefined t ref r = (.ok false, r) := by
  unfold typeIsDefined
  simp only [M.bind_apply, M.get_apply]
  split <;> simp [h]

/-- C43 for the well-known types: the four helpers are TypeIsDefined for the documented names. -/
theorem C43_well_known (t : Node) :
    typeIsAny t = typeIsDefined t b!".google.protobuf.Any" ∧
    typeIsEmpty t = typeIsDefined t b!".google.protobuf.Empty" ∧
    typeIsTimestamp t = typeIsDefined t b!".google.protobuf.Timestamp" ∧
    typeIsDuration t = typeIsDefined t b!".google.protobuf.Duration" := ⟨rfl, rfl, rfl, rfl⟩

/-- Non-vacuity of C43: it holds of the message `M` and its name. -/
example : ∃ t ∈ Ex.c2.pool, typeIsDefined t b!".p.q.M" Ex.c2.reg = (.ok true, Ex.c2.reg) :=
  ⟨_, Ex.hasA_spec (i := 1) (a := 1) (k := .message) (p := ⟨1, [4]⟩) (by decide +kernel), by rfl⟩

/-! ### C44 -/

/-- The values an iterator that touches no state yields. -/
def Yields {α : Type} (m : M (List (M α))) (r : Reg) (vs : List α) : Prop :=
  ∃ steps, m r = (.ok steps, r) ∧ steps.length = vs.length ∧
    ∀ (i : Nat) (st : M α), steps[i]? = some st → ∃ v, vs[i]? = some v ∧ ∀ r', st r' = (.ok v, r')

/-- C44: `Reserved.Values` of a reserved statement yields one value per range, in source order, denoting exactly
    the numbers of that range (all numbers from the first on for `to max`), then the names in source order, and
    nothing else. -/
theorem C44_reserved {r : Reg} {p : Ptr} {ranges : List Range} {names : List Str}
    (hk : r.kind p = some (.reserved ranges names)) :
    ∃ nums, Yields (Reserved.values p) r (nums ++ names.map ReservedValue.name) ∧ nums.length = ranges.length ∧
      (∀ (i : Nat) (g : Range) (v : ReservedValue), ranges[i]? = some g → nums[i]? = some v →
        (∀ n, v.Has n ↔ g.Has n) ∧ ∀ s, v ≠ .name s) := by
  refine ⟨ranges.map reservedRange, ?_, by simp, ?_⟩
  · refine ⟨(ranges.map fun g => (pure (reservedRange g) : M ReservedValue)) ++
      names.map fun n => (pure (.name n) : M ReservedValue), ?_, by simp, ?_⟩
    · unfold Reserved.values
      simp [hk]
    · intro i st h
      by_cases hl : i < ranges.length
      · rw [List.getElem?_append_left (by simpa using hl)] at h ⊢
        simp only [List.getElem?_map, Option.map_eq_some_iff] at h ⊢
        obtain ⟨g, hg, rfl⟩ := h
        exact ⟨_, ⟨g, hg, rfl⟩, fun _ => rfl⟩
      · rw [List.getElem?_append_right (by simpa using hl)] at h ⊢
        simp only [List.length_map, List.getElem?_map, Option.map_eq_some_iff] at h ⊢
        obtain ⟨g, hg, rfl⟩ := h
        exact ⟨_, ⟨g, hg, rfl⟩, fun _ => rfl⟩
  · intro i g v hg hv
    simp only [List.getElem?_map, hg, Option.map_some, Option.some.injEq] at hv
    subst hv
    unfold reservedRange
    split
    · next hmax => exact ⟨fun n => by simp [ReservedValue.Has, Range.Has, hmax], by simp⟩
    · next hmax =>
      split
      · next he =>
        refine ⟨fun n => ?_, by simp⟩
        simp only [ReservedValue.Has, Range.Has, hmax]
        simp only [Bool.false_eq_true, false_or]
        omega
      · exact ⟨fun n => by simp [ReservedValue.Has, Range.Has, hmax], by simp⟩

/-- Non-vacuity of C44. -/
example : Ex.c2.reg.kind ⟨1, [7, 4]⟩ = some (.reserved [⟨10, 20, false⟩, ⟨5, 5, false⟩, ⟨30, 0, true⟩] [b!"foo"]) := by
  rfl

/-- A handle stands for an element of the kind its Go type says. -/
theorem handle_kind {P c a k p} (hr : Reachable P c) (hm : Node.wrapped a k p ∈ c.pool) (hk : k ≠ .file) :
    ∃ kd, c.reg.kind p = some kd ∧ wrapKind kd = some k := by
  obtain ⟨o, hi, hg⟩ := reachable_inv hr
  have ht := (hg _ hm).target
  rcases p with ⟨i, path⟩
  cases path with
  | nil =>
    simp only [Reg.wrapTarget] at ht
    split at ht
    · cases ht; exact absurd rfl hk
    · cases ht
  | cons j t =>
    simp only [Reg.wrapTarget, Option.map_eq_some_iff, Option.bind_eq_some_iff, Prod.mk.injEq] at ht
    obtain ⟨k', ⟨kd, h1, h2⟩, rfl, _⟩ := ht
    exact ⟨kd, h1, h2⟩

/-- C44 applies to every `*Reserved` handle. -/
theorem C44_every_handle {P c a p} (hr : Reachable P c) (hm : Node.wrapped a .reserved p ∈ c.pool) :
    ∃ ranges names, c.reg.kind p = some (.reserved ranges names) := by
  obtain ⟨kd, h1, h2⟩ := handle_kind hr hm (by decide)
  cases kd <;> cases h2
  exact ⟨_, _, h1⟩

/-- C41 applies to every `*Method` handle. -/
theorem C41_every_handle {P c a p} (hr : Reachable P c) (hm : Node.wrapped a .method p ∈ c.pool) :
    ∃ n req ret sreq sret, c.reg.kind p = some (.rpc n req ret sreq sret) := by
  obtain ⟨kd, h1, h2⟩ := handle_kind hr hm (by decide)
  cases kd <;> cases h2
  exact ⟨_, _, _, _, _, h1⟩

/-! ### C40 -/

/-- C40 in full: when the type name of a map value denotes a message or an enum by the scoping rule for the type of
    a field at the same place, `Value` of the map is the node of that declaration. -/
def C40_statement : Prop :=
  ∀ c, CleanReachable WFFile c → ∀ a p n kt typ s, Node.map a p ∈ c.pool →
    c.reg.kind p = some (.mapField n kt typ s) → ∀ q kd, ¬ IsKeyword typ →
    Refers c.reg (c.reg.scope (.at p)) typ q → c.reg.kind q = some kd →
    ((∃ nm e, kd = .message nm e) ∨ ∃ nm, kd = .enum nm) →
    ∃ a' k r', Map.value p c.reg = (.ok (.wrapped a' k q), r')

/-- `message N {}  message M { map<string, N> x = 1; message N {}  map<string, K> y = 2; message K {}
    map<string, .N> z = 3; }`. -/
def WM : World := Ex.worldOf [(descriptorPath, Ex.descriptor), (b!"m.proto",
  let f := b!"m.proto"
  [Ex.el f 1 (.message b!"N" false), Ex.el f 2 (.message b!"M" false)
    [Ex.el f 3 (.mapField b!"x" b!"string" b!"N" 1), Ex.el f 4 (.message b!"N" false),
     Ex.el f 5 (.mapField b!"y" b!"string" b!"K" 2), Ex.el f 6 (.message b!"K" false),
     Ex.el f 7 (.mapField b!"z" b!"string" b!".N" 3)]])]

def opsM : List Op :=
  [.proto WM 5 b!"m.proto", .query 0 (.named .fileMessage b!"M"), .query 1 (.iter .messageFields 0),
   .query 1 (.iter .messageFields 1), .query 1 (.iter .messageFields 2),
   .query 2 (.plain .fieldType), .query 3 (.plain .fieldType), .query 4 (.plain .fieldType)]
def cM : Client := Client.exec ⟨(newRegistry WM 5).2, []⟩ opsM

theorem cM_clean : CleanReachable WFFile cM := by
  have hW : WM.Sat WFFile := by
    apply Ex.worldOf_sat
    intro x hx
    apply Ex.wfb_spec
    simp only [List.mem_cons, List.not_mem_nil, or_false] at hx
    rcases hx with rfl | rfl <;> decide +kernel
  refine ⟨WM, 5, _, opsM, hW, Ex.ok_of_okOk (by decide +kernel), ?_, Ex.loadsB_spec (by decide +kernel), rfl⟩
  apply Ex.opsW_sat
  intro op hop W' f p e
  subst e
  simp only [opsM, List.mem_cons, Op.proto.injEq, reduceCtorEq, List.not_mem_nil, or_false] at hop
  rw [hop.1]
  exact hW

/-- The handle at index `i` of the pool is the map at `p`. -/
def hasMap (c : Client) (i : Nat) (p : Ptr) : Bool :=
  match c.pool[i]? with
  | some (.map _ p') => decide (p' = p)
  | _ => false

theorem hasMap_spec {c i p} (h : hasMap c i p = true) : ∃ a, Node.map a p ∈ c.pool := by
  unfold hasMap at h
  split at h
  · next a p' hx =>
    rw [decide_eq_true_eq] at h
    subst h
    exact ⟨a, List.mem_of_getElem? hx⟩
  · cases h

/-- The declaration the value of a map is, or `none` if the call panics. -/
def valueDecl (r : Reg) (p : Ptr) : Option Ptr :=
  match Map.value p r with
  | (.ok (.wrapped _ _ q), _) => some q
  | _ => none

/-- C40 is false: the scoping rule is not applied at all. `map<string, K>` with `K` declared in the message itself
    panics. -/
theorem C40_false : ¬ C40_statement := by
  intro h
  obtain ⟨a, hm⟩ := hasMap_spec (c := cM) (i := 6) (p := ⟨1, [2, 1]⟩) (by decide +kernel)
  obtain ⟨a', k, r', hv⟩ := h cM cM_clean a _ b!"y" b!"string" b!"K" 2 hm (by rfl) ⟨1, [3, 1]⟩ (.message b!"K" false)
    ((not_keyword_iff _).mpr (by decide +kernel))
    (resolve_refers (c := b!".M.K") (by decide +kernel) (by decide +kernel)) (by rfl) (.inl ⟨_, _, rfl⟩)
  have : valueDecl cM.reg ⟨1, [2, 1]⟩ = none := by decide +kernel
  unfold valueDecl at this
  rw [hv] at this
  cases this

/-- C40 fails in two more ways: an inner declaration does not shadow an outer one, so that the value type may be
    the wrong declaration, and absolute names are never found. -/
theorem C40_wrong_declaration :
    Refers cM.reg (cM.reg.scope (.at ⟨1, [0, 1]⟩)) b!"N" ⟨1, [1, 1]⟩ ∧
    valueDecl cM.reg ⟨1, [0, 1]⟩ = some ⟨1, [0]⟩ ∧
    Refers cM.reg (cM.reg.scope (.at ⟨1, [4, 1]⟩)) b!".N" ⟨1, [0]⟩ ∧
    valueDecl cM.reg ⟨1, [4, 1]⟩ = none :=
  ⟨resolve_refers (c := b!".M.N") (by decide +kernel) (by decide +kernel), by decide +kernel,
   resolve_refers (c := b!".N") (by decide +kernel) (by decide +kernel), by decide +kernel⟩

/-- C40, what holds: keywords give the builtin types; and if the name is relative and no scope but the outermost
    declares it, so that the scoping rule denotes the declaration at `q` there, the value type is its node, when
    `q` is a message or an enum. Missing: names declared in inner scopes, absolute names. -/
theorem C40_partial {P c p n kt typ s} (hr : Reachable P c) (hk : c.reg.kind p = some (.mapField n kt typ s)) :
    (∀ b : Builtin, typ = b.toStr → Map.value p c.reg = (.ok (.builtin b), c.reg)) ∧
    (∀ q kd, ¬ IsKeyword typ → hasDotPrefix typ = false → Refers c.reg (c.reg.scope (.at p)) typ q →
      (∀ s', Encloses s' (dotted (c.reg.scope (.at p))) → s' ≠ [] → c.reg.registry (s' ++ dot :: typ) = none) →
      c.reg.kind q = some kd → ((∃ nm e, kd = .message nm e) ∨ ∃ nm, kd = .enum nm) →
      ∃ a k r', Map.value p c.reg = (.ok (.wrapped a k q), r')) := by
  obtain ⟨o, hi, hg⟩ := reachable_inv hr
  constructor
  · intro b hb
    unfold Map.value
    simp [hk, (builtin_iff _ _).mpr hb]
  · intro q kd hkw hd href hout hkq hkd
    have hreg : c.reg.registry (mapValueName typ) = some q := by
      unfold Refers at href
      rw [if_neg (by simp [hd])] at href
      obtain ⟨x, ⟨s', h1, h2, h3, _⟩, h4⟩ := href
      subst h2
      by_cases hs : s' = []
      · subst hs
        unfold mapValueName
        rw [if_neg (by simp [hd])]
        exact h4
      · rw [hout s' h1 hs] at h4; cases h4
    have hb := (not_keyword_iff _).mp hkw
    have hu := (hi.regRooted _ _ hreg).under
    rcases hkd with ⟨nm, e, rfl⟩ | ⟨nm, rfl⟩
    · obtain ⟨a, _, r', hw, _⟩ := wrap_full hi (target_of_kind hkq (k := .message) rfl) hu
      refine ⟨a, .message, r', ?_⟩
      unfold Map.value
      simp [hk, hb, hreg, hkq, wrapAs, assertKind, hw]
    · obtain ⟨a, _, r', hw, _⟩ := wrap_full hi (target_of_kind hkq (k := .enum) rfl) hu
      refine ⟨a, .enum, r', ?_⟩
      unfold Map.value
      simp [hk, hb, hreg, hkq, wrapAs, assertKind, hw]

/-- Non-vacuity of C40_partial: `map<string, p.q.M>` in package `p.q`. -/
example : Ex.c2.reg.kind ⟨1, [4, 4]⟩ = some (.mapField b!"dict" b!"string" b!"p.q.M" 6) ∧
    Refers Ex.c2.reg (Ex.c2.reg.scope (.at ⟨1, [4, 4]⟩)) b!"p.q.M" ⟨1, [4]⟩ ∧
    valueDecl Ex.c2.reg ⟨1, [4, 4]⟩ = some ⟨1, [4]⟩ :=
  ⟨by rfl, resolve_refers (c := b!".p.q.M") (by decide +kernel) (by decide +kernel), by decide +kernel⟩

/-! ### C42 -/

/-- C42 in full, the claim that TypeName is defined for every type. -/
def C42_statement : Prop :=
  ∀ c, CleanReachable WFFile c → ∀ t ∈ c.pool, t.isType = true → ∃ s r', typeName t c.reg = (.ok s, r')

/-- C42 is false: TypeName panics for the type of a map field. -/
theorem C42_false : ¬ C42_statement := by
  intro h
  obtain ⟨a, hm⟩ := hasMap_spec (c := cM) (i := 6) (p := ⟨1, [2, 1]⟩) (by decide +kernel)
  obtain ⟨s, r', e⟩ := h cM cM_clean _ hm rfl
  cases e

/-- `s` is how the type is to be printed. -/
def Prints (r : Reg) : Node → Str → Prop
  | .wrapped _ .message p, s => Declared r s p
  | .wrapped _ .enum p, s => Declared r s p
  | .builtin b, s => s = b.toStr
  | .oneof _ _, s => s = b!"oneof"
  | .repeated _ (some t), s => ∃ s', Prints r t s' ∧ s = b!"repeated " ++ s'
  | _, _ => False

theorem scope_declared {c} (hc : CleanReachable WFFile c) {p : Ptr} {s : Str} (hd : Declared c.reg s p)
    (hne : ∀ s v, c.reg.kind p ≠ some (.enumField s v)) : c.reg.scope (.at p) = s := by
  obtain ⟨f, hf, hq⟩ := hd
  have hs := (clean_complete hc p.file f (Nat.zero_le _) hf).scopes p.path s hq (by
    intro e he s v hk
    apply hne s v
    unfold Reg.kind Reg.elem
    rw [hf]
    simp [he, hk])
  rw [Option.isSome_iff_exists] at hs
  obtain ⟨s', hs⟩ := hs
  have hpath : p.path ≠ [] := by intro h0; rw [h0] at hq; simp [ProtoFile.fqn] at hq
  obtain ⟨g, hg', hq'⟩ := (reachable_sound (clean_reachable hc)).scopes p s' hs hpath
  rw [hf] at hg'
  cases hg'
  rw [hq] at hq'
  cases hq'
  simp [Reg.scope, hs]

theorem good_not_enumField {o r a k p} (g : GoodW o r a k p) (hk : k = .message ∨ k = .enum) :
    ∀ s v, r.kind p ≠ some (.enumField s v) := by
  intro s v h
  have ht := g.target
  rw [target_of_kind h (k := .enumValue) rfl] at ht
  cases ht
  rcases hk with hk | hk <;> cases hk

theorem typeName_prints {c o} (hc : CleanReachable WFFile c) : (t : Node) → (s : Str) → Good o c.reg t →
    Prints c.reg t s → typeName t c.reg = (.ok s, c.reg)
  | .wrapped a k p, s, g, h => by
    cases k
    case message =>
      show (Res.ok (c.reg.scope (.at p)), c.reg) = _
      rw [scope_declared hc h (good_not_enumField g (.inl rfl))]
    case enum =>
      show (Res.ok (c.reg.scope (.at p)), c.reg) = _
      rw [scope_declared hc h (good_not_enumField g (.inr rfl))]
    all_goals exact h.elim
  | .builtin b, s, _, h => by unfold Prints at h; subst h; rfl
  | .oneof _ _, s, _, h => by unfold Prints at h; subst h; rfl
  | .repeated a (some t), s, g, h => by
    unfold Prints at h
    obtain ⟨s', h1, rfl⟩ := h
    unfold Good at g
    have := typeName_prints hc t s' g.2.2 h1
    unfold typeName
    simp only [M.bind_apply, this]
    rfl
  | .repeated a none, s, _, h => by unfold Prints at h; exact h.elim
  | .option _ _ _ _, s, _, h => by unfold Prints at h; exact h.elim
  | .map _ _, s, _, h => by unfold Prints at h; exact h.elim
  | .value _, s, _, h => by unfold Prints at h; exact h.elim
  | .mapItem _ _, s, _, h => by unfold Prints at h; exact h.elim

/-- C42, what holds: the TypeName of a message or enum is its fully qualified name, of a builtin type its keyword,
    of a repeated type `repeated ` and the name of its element, of a oneof `oneof`. Missing: maps, and the repeated
    type of an unknown element, for which it panics. -/
theorem C42_partial {c t s} (hc : CleanReachable WFFile c) (ht : t ∈ c.pool) (h : Prints c.reg t s) :
    typeName t c.reg = (.ok s, c.reg) := by
  obtain ⟨o, hi, hg⟩ := reachable_inv (clean_reachable hc)
  exact typeName_prints hc t s (hg _ ht) h

/-- Non-vacuity of C42_partial. -/
example : CleanReachable WFFile Ex.c2 ∧ ∃ t ∈ Ex.c2.pool, Prints Ex.c2.reg t b!".p.q.M.N" :=
  ⟨Ex.c2_clean, _, Ex.hasA_spec (i := 7) (a := 7) (k := .message) (p := ⟨1, [5, 4]⟩) (by decide +kernel),
    ⟨Ex.pa, Ex.fileA⟩, by rfl, by decide +kernel⟩

end Protoast.Props
