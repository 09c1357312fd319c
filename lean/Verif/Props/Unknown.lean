import Verif.Proof.Keep
import Verif.Proof.Later
import Verif.Examples
import Mathlib.Data.List.Induction
/-
  C67: what NodeByFullName does with names that are not registered, over the whole life of a registry.
-/
namespace Protoast.Props
open Protoast

/-- Some call in the history asked `NodeByFullName` for a name that was not registered at that time. -/
def AskedUnknown (r : Reg) (ops : List Op) : Prop :=
  ∃ pre m post, ops = pre ++ .byName m :: post ∧ (Client.exec ⟨r, []⟩ pre).reg.registry m = none

/-- The cache entry of nil is the same in both states. -/
def SameNil (r r' : Reg) : Prop := r'.cache .nil = r.cache .nil

theorem wrap_sameNil {v : Vis} (hv : v ≠ .nil) (r : Reg) : SameNil r (wrap v r).2 := by
  unfold wrap SameNil
  have hx : ∀ x : Option Node, upd r.cache v x .nil = r.cache .nil := by
    intro x
    unfold upd
    rw [if_neg (fun e => hv e.symm)]
  split
  · rfl
  · split
    · exact hx _
    · exact hx _

instance : Keep SameNil where
  refl _ := rfl
  trans h g := Eq.trans g h
  alloc _ := rfl
  wrapAt _ := wrap_sameNil (by simp)
  wrapNilOption := wrap_sameNil (by simp)
  wrapNilProto := wrap_sameNil (by simp)

theorem fieldType_sameNil (a : Nat) (p : Ptr) : NK SameNil (MessageField.type a p) := by
  constructor; intro r
  unfold MessageField.type
  split
  · exact Keep.refl r
  · have hb := NK.fieldTypeBody (R := SameNil) p r
    rcases he : Protoast.fieldTypeBody p r with ⟨res, r'⟩
    rw [he] at hb
    cases res <;> exact hb

theorem proto_cache (W : World) (fuel : Nat) (path : Str) (r : Reg) : (proto W fuel path r).2.cache = r.cache := by
  rcases proto_cases W path r with ⟨i, hi, h⟩ | ⟨hnone, e, h⟩ | ⟨hnone, name, elems, hloc, hload, h⟩
  · rw [h]
  · rw [h]
  · rw [h]
    have hl := runActs_lext (imp := visitImport W fuel)
      (fileActs (.at ⟨r.heap.length, []⟩) r.heap.length elems)
      (fun f _ r => visitImport_lext W fuel f r) (addFile r path elems)
    unfold protoNew
    rcases hr : runActs (visitImport W fuel) (fileActs (.at ⟨r.heap.length, []⟩) r.heap.length elems)
      (addFile r path elems) with ⟨res, r'⟩
    rw [hr] at hl
    have := hl.cache
    cases res <;> exact this

theorem newRegistry_cache {W fuel x r} (h : newRegistry W fuel = (x, r)) : r.cache = Reg.empty.cache := by
  unfold newRegistry demarkFile at h
  simp only [M.bind_apply] at h
  rcases protoFile_cases W descriptorPath Reg.empty with ⟨i, hi, h1⟩ | ⟨hnone, e, h1⟩ | ⟨hnone, nm, elems, _, _, h1⟩
  · cases hi
  · rw [h1] at h
    simp only [M.pure_apply, Prod.mk.injEq] at h
    rw [← h.2]
  · rw [h1] at h
    simp only [M.bind_apply] at h
    rw [acceptFile_eq (f := ⟨descriptorPath, elems⟩) (by simp [Protoast.addFile])] at h
    have hl := runActs_lext (imp := visitImport W fuel)
      (fileActs (.at ⟨Reg.empty.heap.length, []⟩) Reg.empty.heap.length elems)
      (fun f _ r => visitImport_lext W fuel f r) (addFile Reg.empty descriptorPath elems)
    rcases hr : runActs (visitImport W fuel) (fileActs (.at ⟨Reg.empty.heap.length, []⟩) Reg.empty.heap.length elems)
      (addFile Reg.empty descriptorPath elems) with ⟨res, r'⟩
    rw [hr] at hl h
    have := hl.cache
    cases res <;> (simp only [M.pure_apply, Prod.mk.injEq] at h; rw [← h.2]; exact this)

theorem nodeByFullName_nil (name : Str) (r : Reg) : (nodeByFullName name r).2.cache .nil =
    if r.registry name = none then some ((r.cache .nil).getD none) else r.cache .nil := by
  unfold nodeByFullName
  simp only [M.bind_apply, M.get_apply]
  cases h : r.registry name with
  | some p => exact (NK.wrapAt (R := SameNil) p).ext r
  | none =>
    simp only [if_true]
    unfold wrap
    cases hc : r.cache .nil with
    | some x => simp [hc]
    | none => simp [Reg.wrapTarget, upd]

/-- The state of the nil entry of the node cache records exactly whether an unknown name was asked for. -/
theorem nil_entry {W fuel x r} (hn : newRegistry W fuel = (x, r)) (ops : List Op) :
    (AskedUnknown r ops → (Client.exec ⟨r, []⟩ ops).reg.cache .nil = some none) ∧
    (¬ AskedUnknown r ops → (Client.exec ⟨r, []⟩ ops).reg.cache .nil = none) := by
  induction ops using List.reverseRecOn with
  | nil =>
    refine ⟨?_, ?_⟩
    · rintro ⟨pre, m, post, h, _⟩
      simp at h
    · intro _
      show r.cache .nil = none
      rw [newRegistry_cache hn]; rfl
  | append_singleton ops op ih =>
    have hexec : Client.exec ⟨r, []⟩ (ops ++ [op]) = (Client.exec ⟨r, []⟩ ops).step op := by
      simp [Client.exec]
    have hmono : AskedUnknown r ops → AskedUnknown r (ops ++ [op]) := by
      rintro ⟨pre, m, post, h, h'⟩
      exact ⟨pre, m, post ++ [op], by rw [h]; simp, h'⟩
    have hlast : AskedUnknown r (ops ++ [op]) → AskedUnknown r ops ∨
        ∃ m, op = .byName m ∧ (Client.exec ⟨r, []⟩ ops).reg.registry m = none := by
      rintro ⟨pre, m, post, h, h'⟩
      cases post using List.reverseRecOn with
      | nil =>
        right
        have := List.append_inj' h rfl
        refine ⟨m, by simpa using this.2, ?_⟩
        rw [this.1]; exact h'
      | append_singleton post q =>
        left
        have h2 : ops ++ [op] = (pre ++ Op.byName m :: post) ++ [q] := by rw [h]; simp
        exact ⟨pre, m, post, (List.append_inj' h2 rfl).1, h'⟩
    have hstep : ((Client.exec ⟨r, []⟩ ops).step op).reg = (op.run (Client.exec ⟨r, []⟩ ops).pool
        (Client.exec ⟨r, []⟩ ops).reg).2 := by
      unfold Client.step
      split <;> next h => rw [h]
    rw [hexec, hstep]
    have hnew : ∀ m, op = .byName m → (Client.exec ⟨r, []⟩ ops).reg.registry m = none →
        AskedUnknown r (ops ++ [op]) := by
      rintro m rfl h
      exact ⟨ops, m, [], rfl, h⟩
    generalize Client.exec ⟨r, []⟩ ops = c at *
    have keep : (∀ m, op ≠ .byName m) → (op.run c.pool c.reg).2.cache .nil = c.reg.cache .nil →
        (AskedUnknown r (ops ++ [op]) → (op.run c.pool c.reg).2.cache .nil = some none) ∧
        (¬ AskedUnknown r (ops ++ [op]) → (op.run c.pool c.reg).2.cache .nil = none) := by
      intro hne hc
      rw [hc]
      refine ⟨fun h => ?_, fun h => ih.2 fun h' => h (hmono h')⟩
      rcases hlast h with h | ⟨m, hm, _⟩
      · exact ih.1 h
      · exact absurd hm (hne m)
    cases op with
    | proto W' f p =>
      refine keep (by simp) ?_
      have := proto_cache W' f p c.reg
      simp only [Op.run, M.bind_apply]
      rcases hp : proto W' f p c.reg with ⟨res, r'⟩
      rw [hp] at this
      simp only at this
      cases res with
      | ok x => cases x <;> exact congrFun this _
      | panic e => exact congrFun this _
      | timeout => exact congrFun this _
    | query h q =>
      refine keep (by simp) ?_
      simp only [Op.run]
      cases hp : c.pool[h]? with
      | none => rfl
      | some n => exact (NK.queryRun (R := SameNil) q n fun a p _ _ => fieldType_sameNil a p).ext c.reg
    | byName m =>
      have hrun : (Op.run c.pool (.byName m) c.reg).2 = (nodeByFullName m c.reg).2 := by
        simp only [Op.run, M.bind_apply]
        rcases nodeByFullName m c.reg with ⟨res, r'⟩
        cases res <;> rfl
      rw [hrun, nodeByFullName_nil]
      by_cases hm : c.reg.registry m = none
      · rw [if_pos hm]
        have hcn : (c.reg.cache .nil).getD none = none := by
          by_cases ha : AskedUnknown r ops
          · rw [ih.1 ha]; rfl
          · rw [ih.2 ha]; rfl
        rw [hcn]
        exact ⟨fun _ => rfl, fun h => absurd (hnew m rfl hm) h⟩
      · rw [if_neg hm]
        refine ⟨fun h => ?_, fun h => ih.2 fun h' => h (hmono h')⟩
        rcases hlast h with h | ⟨m', hm', h2⟩
        · exact ih.1 h
        · cases hm'; exact absurd h2 hm

/-- C67: in any history of a registry, `NodeByFullName` of a name that is not registered panics if this is the first
    time in the life of the registry that an unregistered name is asked for, whatever the name; after that it returns
    nil, changing nothing, for every unregistered name. -/
theorem C67_unknown_name {W fuel x r ops name} (hn : newRegistry W fuel = (x, r))
    (hunk : (Client.exec ⟨r, []⟩ ops).reg.registry name = none) :
    (AskedUnknown r ops →
      nodeByFullName name (Client.exec ⟨r, []⟩ ops).reg = (.ok none, (Client.exec ⟨r, []⟩ ops).reg)) ∧
    (¬ AskedUnknown r ops →
      ∃ r', nodeByFullName name (Client.exec ⟨r, []⟩ ops).reg = (.panic .unsupportedType, r')) := by
  have h := nil_entry hn ops
  generalize Client.exec ⟨r, []⟩ ops = c at *
  unfold nodeByFullName
  simp only [M.bind_apply, M.get_apply, hunk]
  unfold wrap
  refine ⟨fun ha => by simp [h.1 ha], fun ha => ?_⟩
  simp [h.2 ha, Reg.wrapTarget]

/-- Both cases occur: a fresh registry that loaded a file and looked around, before and after it asked for a name that
    does not exist. -/
example : ¬ AskedUnknown Ex.r0 [.proto Ex.W 5 Ex.pa, .byName b!".p.q.M"] ∧
    AskedUnknown Ex.r0 [.proto Ex.W 5 Ex.pa, .byName b!".no", .byName b!".p.q.M"] ∧
    (Client.exec ⟨Ex.r0, []⟩ [.proto Ex.W 5 Ex.pa, .byName b!".p.q.M"]).reg.registry b!".other" = none := by
  refine ⟨?_, ⟨[.proto Ex.W 5 Ex.pa], b!".no", [.byName b!".p.q.M"], rfl, by decide +kernel⟩, by decide +kernel⟩
  rintro ⟨pre, m, post, h, h'⟩
  match pre, h with
  | [], h => simp at h
  | [a], h =>
    simp only [List.cons_append, List.nil_append, List.cons.injEq, Op.byName.injEq] at h
    obtain ⟨rfl, rfl, _⟩ := h
    revert h'
    have : (Client.exec ⟨Ex.r0, []⟩ [.proto Ex.W 5 Ex.pa]).reg.registry b!".p.q.M" ≠ none := by decide +kernel
    exact this
  | a :: b :: pre, h => simp at h

end Protoast.Props
