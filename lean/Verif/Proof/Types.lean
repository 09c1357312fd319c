import Verif.Proof.InvQuery
import Verif.Proof.Resolve
import Verif.Spec.Types
/-
  Type lookup against its specification.
-/
namespace Protoast

theorem refers_resolve {r : Reg} {scope name : Str} {q : Ptr} (h : Refers r scope name q) :
    ∃ c, resolveNameRaw r.defined scope name = (c, true) ∧ r.registry c = some q := by
  unfold Refers at h
  split at h
  · next hd => exact ⟨name, by rw [resolve_abs hd]; simp [Reg.defined, h], h⟩
  · next hd =>
    obtain ⟨c, h1, h2⟩ := h
    exact ⟨c, (resolve_true_iff (by simpa using hd) c).mpr h1, h2⟩

theorem resolve_refers {r : Reg} {scope name c : Str} {q : Ptr}
    (h : resolveNameRaw r.defined scope name = (c, true)) (hq : r.registry c = some q) :
    Refers r scope name q := by
  unfold Refers
  split
  · next hd =>
    rw [resolve_abs hd, Prod.mk.injEq] at h
    rw [h.1]
    exact hq
  · next hd => exact ⟨c, (resolve_true_iff (by simpa using hd) c).mp h, hq⟩

theorem unresolved_iff {r : Reg} {scope name : Str} :
    Unresolved r scope name ↔ (resolveNameRaw r.defined scope name).2 = false := by
  unfold Unresolved
  split
  · next hd => rw [resolve_abs hd]; simp [Reg.defined]
  · next hd => rw [resolve_false_iff (by simpa using hd)]; simp [Reg.defined]

/-- Either the reference denotes exactly one declaration or it is unresolved. -/
theorem refers_or (r : Reg) (scope name : Str) :
    (∃ q, Refers r scope name q) ∨ Unresolved r scope name := by
  rcases h : resolveNameRaw r.defined scope name with ⟨c, b⟩
  cases b with
  | false => exact .inr (unresolved_iff.mpr (by rw [h]))
  | true =>
    have := resolve_defined h
    unfold Reg.defined at this
    obtain ⟨q, hq⟩ := Option.isSome_iff_exists.mp this
    exact .inl ⟨q, resolve_refers h hq⟩

theorem refers_unique {r : Reg} {scope name : Str} {q q' : Ptr} (h : Refers r scope name q)
    (h' : Refers r scope name q') : q = q' := by
  obtain ⟨c, h1, h2⟩ := refers_resolve h
  obtain ⟨c', h1', h2'⟩ := refers_resolve h'
  rw [h1] at h1'
  cases h1'
  rw [h2] at h2'
  cases h2'
  rfl

theorem refers_not_unresolved {r : Reg} {scope name : Str} {q : Ptr} (h : Refers r scope name q) :
    ¬ Unresolved r scope name := by
  intro hu
  obtain ⟨c, h1, _⟩ := refers_resolve h
  rw [unresolved_iff, h1] at hu
  cases hu

theorem isType_wrap {kd : Kind} {k : WKind} (hk : wrapKind kd = some k) (a : Nat) (p : Ptr) :
    (Node.wrapped a k p).isType = kd.isType := by
  cases kd <;> simp [wrapKind] at hk <;> subst hk <;> rfl

theorem target_of_elem {r : Reg} {q : Ptr} {e : Elem} {k : WKind} (he : r.elem q = some e)
    (hk : wrapKind e.kind = some k) : r.wrapTarget (.at q) = some (k, q) := by
  unfold Reg.wrapTarget
  have hne : q.path ≠ [] := by
    intro h0
    unfold Reg.elem at he
    rw [Option.bind_eq_some_iff] at he
    obtain ⟨f, _, hf⟩ := he
    rw [h0] at hf
    simp [ProtoFile.elemAt] at hf
  cases hp : q.path with
  | nil => exact absurd hp hne
  | cons i t => simp only [hp]; simp [Reg.kind, he, hk]

theorem target_of_kind {r : Reg} {q : Ptr} {kd : Kind} {k : WKind} (he : r.kind q = some kd)
    (hk : wrapKind kd = some k) : r.wrapTarget (.at q) = some (k, q) := by
  unfold Reg.kind at he
  rw [Option.map_eq_some_iff] at he
  obtain ⟨e, he, rfl⟩ := he
  exact target_of_elem he hk

/-- `lookupType` on a resolvable name. -/
theorem lookupType_refers {o r} (hi : Inv o r) {p q : Ptr} {name : Str}
    (hb : builtinType name = none) (h : Refers r (r.scope (.at p)) name q) :
    ∃ kd k, r.kind q = some kd ∧ wrapKind kd = some k ∧
      (kd.isType = true → ∃ a r', lookupType p name r = (.ok (some (.wrapped a k q)), r')) ∧
      (kd.isType = false → ∃ r', lookupType p name r = (.panic .notAType, r')) := by
  obtain ⟨c, h1, h2⟩ := refers_resolve h
  obtain ⟨e, k, he, hk⟩ := hi.regPtr _ _ h2
  obtain ⟨a, r', hw, _⟩ := wrap_ok hi (target_of_elem he hk)
  refine ⟨e.kind, k, by simp [Reg.kind, he], hk, ?_, ?_⟩
  · intro ht
    refine ⟨a, r', ?_⟩
    unfold lookupType
    simp [hb, h1, h2, hw, isType_wrap hk, ht]
  · intro ht
    refine ⟨r', ?_⟩
    unfold lookupType
    simp [hb, h1, h2, hw, isType_wrap hk, ht]

/-- `lookupType` on an unresolvable name. -/
theorem lookupType_unresolved {r : Reg} {p : Ptr} {name : Str} (hb : builtinType name = none)
    (h : Unresolved r (r.scope (.at p)) name) : lookupType p name r = (.ok none, r) := by
  rw [unresolved_iff] at h
  rcases hr : resolveNameRaw r.defined (r.scope (.at p)) name with ⟨c, b⟩
  rw [hr] at h
  subst h
  unfold lookupType
  simp [hb, hr]

theorem lookupType_builtin {r : Reg} {p : Ptr} {name : Str} {b : Builtin}
    (hb : builtinType name = some b) : lookupType p name r = (.ok (some (.builtin b)), r) := by
  unfold lookupType
  simp [hb]

/-- For elements that are not repeated fields `getTypeByName` is `lookupType`. -/
theorem getTypeByName_plain {r : Reg} {p : Ptr} {name : Str} (h : r.isRepeatedField p = false) :
    getTypeByName p name r = lookupType p name r := by
  unfold getTypeByName
  simp only [M.bind_apply]
  have hce := (RO.lookupType p name).ext r
  rcases hl : lookupType p name r with ⟨res, r'⟩
  rw [hl] at hce
  have hh : r'.heap = r.heap := hce.heap
  have h' : r'.isRepeatedField p = false := by
    rw [← h]; simp only [Reg.isRepeatedField, Reg.kind, Reg.elem, hh]
  cases res <;> simp [h'] <;> rfl

/-- For repeated fields the result is wrapped. -/
theorem getTypeByName_repeated {r : Reg} {p : Ptr} {name : Str} (h : r.isRepeatedField p = true) :
    getTypeByName p name r = match lookupType p name r with
      | (.ok t, r') => (.ok (some (.repeated r'.next t)), { r' with next := r'.next + 1 })
      | (.panic e, r') => (.panic e, r')
      | (.timeout, r') => (.timeout, r') := by
  unfold getTypeByName
  simp only [M.bind_apply]
  have hce := (RO.lookupType p name).ext r
  rcases hl : lookupType p name r with ⟨res, r'⟩
  rw [hl] at hce
  have hh : r'.heap = r.heap := hce.heap
  have h' : r'.isRepeatedField p = true := by
    rw [← h]; simp only [Reg.isRepeatedField, Reg.kind, Reg.elem, hh]
  cases res <;> simp [h'] <;> rfl

theorem branch_type_eq {r : Reg} {p : Ptr} {n t : Str} {s : Int}
    (hk : r.kind p = some (.oneofField n t s)) : OneOfBranch.type p r = lookupType p t r := by
  rw [← getTypeByName_plain (by simp [Reg.isRepeatedField, hk])]
  unfold OneOfBranch.type
  simp [hk]

theorem field_type_eq {r : Reg} {a : Nat} {p : Ptr} {n t : Str} {s : Int} {op : Bool}
    (hk : r.kind p = some (.normalField n t s false op)) (hc : r.ftcache a = none) :
    MessageField.type a p r = match lookupType p t r with
      | (.ok t, r') => (.ok t, { r' with ftcache := upd r'.ftcache a t })
      | (.panic e, r') => (.panic e, { r' with ftcache := upd r'.ftcache a none })
      | (.timeout, r') => (.timeout, r') := by
  rw [← getTypeByName_plain (by simp [Reg.isRepeatedField, hk])]
  unfold MessageField.type fieldTypeBody
  simp [hk, hc]
  rfl

end Protoast
