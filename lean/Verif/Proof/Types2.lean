import Verif.Proof.Types
import Verif.Proof.Iter
/-
  Builtin type names, and type lookup for all fields.
-/
namespace Protoast

theorem standsFor_of_wrapKind {kd : Kind} {k : WKind} (h : wrapKind kd = some k) : k.standsFor kd = true := by
  cases kd <;> cases h <;> rfl

theorem ite_some {name s : Str} {c b : Builtin} {rest : Option Builtin}
    (h : (if name = s then some c else rest) = some b) : (name = s ∧ c = b) ∨ rest = some b := by
  split at h
  · next e => exact .inl ⟨e, Option.some.inj h⟩
  · exact .inr h

theorem builtinComparable_iff (name : Str) (b : Builtin) :
    builtinComparableType name = some b ↔ name = b.toStr ∧ b ≠ .bytes := by
  constructor
  · intro h
    unfold builtinComparableType at h
    iterate 14
      (rcases ite_some h with ⟨he, hc⟩ | h
       · subst hc; exact ⟨he, by decide⟩)
    cases h
  · rintro ⟨rfl, hb⟩
    cases b <;> first | rfl | exact absurd rfl hb

theorem toStr_inj {x y : Builtin} (h : x.toStr = y.toStr) : x = y := by
  cases x <;> cases y <;> first | rfl | exact absurd h (by decide)

theorem builtin_iff (name : Str) (b : Builtin) : builtinType name = some b ↔ name = b.toStr := by
  unfold builtinType
  cases h : builtinComparableType name with
  | some b' =>
    simp only [Option.some.injEq]
    have h' := (builtinComparable_iff name b').mp h
    constructor
    · rintro rfl; exact h'.1
    · rintro rfl
      exact (toStr_inj h'.1).symm
  | none =>
    simp only
    split
    · next e =>
      constructor
      · intro hb; cases hb; exact e
      · intro hb
        have h1 : b = .bytes := toStr_inj (hb ▸ e)
        rw [h1]
    · next e =>
      constructor
      · intro hb; cases hb
      · intro hb
        exfalso
        by_cases hbb : b = .bytes
        · subst hbb; exact e hb
        · rw [(builtinComparable_iff name b).mpr ⟨hb, hbb⟩] at h; cases h

theorem not_keyword_iff (name : Str) : ¬ IsKeyword name ↔ builtinType name = none := by
  constructor
  · intro h
    cases hb : builtinType name with
    | none => rfl
    | some b => exact absurd ⟨b, (builtin_iff _ _).mp hb⟩ h
  · rintro h ⟨b, hb⟩
    rw [(builtin_iff _ _).mpr hb] at h
    cases h

/-- What a successful lookup gives. -/
theorem lookupType_denotes {o r} (hi : Inv o r) {p : Ptr} {typ : Str} {t r'} (h : lookupType p typ r = (.ok t, r')) :
    TypeDenotes r (r.scope (.at p)) typ t := by
  cases hb : builtinType typ with
  | some b =>
    rw [lookupType_builtin hb] at h
    cases h
    exact .inl ⟨b, (builtin_iff _ _).mp hb, rfl⟩
  | none =>
    right
    rcases refers_or r (r.scope (.at p)) typ with ⟨q, hq⟩ | hu
    · left
      obtain ⟨kd, k, h1, h2, h3, h4⟩ := lookupType_refers hi hb hq
      cases hk : kd.isType with
      | true =>
        obtain ⟨a, r'', e⟩ := h3 hk
        rw [e] at h
        cases h
        exact ⟨(not_keyword_iff _).mpr hb, q, a, k, hq, rfl⟩
      | false =>
        obtain ⟨r'', e⟩ := h4 hk
        rw [e] at h
        cases h
    · right
      rw [lookupType_unresolved hb hu] at h
      cases h
      exact ⟨(not_keyword_iff _).mpr hb, hu, rfl⟩

/-- When a lookup fails. -/
theorem lookupType_fails {o r} (hi : Inv o r) {p : Ptr} {typ : Str} :
    (∃ e r', lookupType p typ r = (.panic e, r')) ↔
      ¬ IsKeyword typ ∧ ∃ q kd, Refers r (r.scope (.at p)) typ q ∧ r.kind q = some kd ∧ kd.isType = false := by
  cases hb : builtinType typ with
  | some b =>
    rw [lookupType_builtin hb]
    constructor
    · rintro ⟨e, r', h⟩; cases h
    · rintro ⟨h, _⟩; exact absurd ⟨b, (builtin_iff _ _).mp hb⟩ h
  | none =>
    rcases refers_or r (r.scope (.at p)) typ with ⟨q, hq⟩ | hu
    · obtain ⟨kd, k, h1, h2, h3, h4⟩ := lookupType_refers hi hb hq
      cases hk : kd.isType with
      | true =>
        obtain ⟨a, r'', e⟩ := h3 hk
        rw [e]
        constructor
        · rintro ⟨e, r', h⟩; cases h
        · rintro ⟨_, q', kd', hq', hk', hf⟩
          rw [refers_unique hq' hq, h1] at hk'
          cases hk'
          rw [hk] at hf
          cases hf
      | false =>
        obtain ⟨r'', e⟩ := h4 hk
        rw [e]
        exact ⟨fun _ => ⟨(not_keyword_iff _).mpr hb, q, kd, hq, h1, hk⟩, fun _ => ⟨_, _, rfl⟩⟩
    · rw [lookupType_unresolved hb hu]
      constructor
      · rintro ⟨e, r', h⟩; cases h
      · rintro ⟨_, q', _, hq', _⟩; exact absurd hu (refers_not_unresolved hq')

theorem lookupType_no_timeout {o r} (hi : Inv o r) {p : Ptr} {typ : Str} : (lookupType p typ r).1 ≠ .timeout := by
  cases hb : builtinType typ with
  | some b => rw [lookupType_builtin hb]; simp
  | none =>
    rcases refers_or r (r.scope (.at p)) typ with ⟨q, hq⟩ | hu
    · obtain ⟨kd, k, h1, h2, h3, h4⟩ := lookupType_refers hi hb hq
      cases hk : kd.isType with
      | true => obtain ⟨a, r'', e⟩ := h3 hk; rw [e]; simp
      | false => obtain ⟨r'', e⟩ := h4 hk; rw [e]; simp
    · rw [lookupType_unresolved hb hu]; simp

theorem field_type_rep {r : Reg} {a : Nat} {p : Ptr} {n t : Str} {s : Int} {op : Bool}
    (hk : r.kind p = some (.normalField n t s true op)) (hc : r.ftcache a = none) :
    MessageField.type a p r = match lookupType p t r with
      | (.ok t, r') => (.ok (some (.repeated r'.next t)),
          { r' with next := r'.next + 1, ftcache := upd r'.ftcache a (some (.repeated r'.next t)) })
      | (.panic e, r') => (.panic e, { r' with ftcache := upd r'.ftcache a none })
      | (.timeout, r') => (.timeout, r') := by
  have h := getTypeByName_repeated (r := r) (p := p) (name := t) (by simp [Reg.isRepeatedField, hk])
  unfold MessageField.type fieldTypeBody
  simp only [hc, M.bind_apply, M.get_apply, hk, h]
  rcases lookupType p t r with ⟨res, r'⟩
  cases res <;> rfl

end Protoast
