import Verif.Proof.Keep
import Verif.Props.Identity
import Verif.Props.Types
import Mathlib.Data.List.Induction
/-
  C74: `Type` of a field over the whole life of a registry: the first call decides.
-/
namespace Protoast.Props
open Protoast

/-- Some call of the history was `Type` on a handle of the field at `p`. -/
def TypeAsked (r : Reg) (ops : List Op) (p : Ptr) : Prop :=
  ∃ pre h post a, ops = pre ++ .query h (.plain .fieldType) :: post ∧
    (Client.exec ⟨r, []⟩ pre).pool[h]? = some (.wrapped a .messageField p)

/-- The table of field types has the same entry for `a` in both states. -/
def SameFt (a : Nat) (r r' : Reg) : Prop := r'.ftcache a = r.ftcache a

theorem wrap_sameFt {a : Nat} (v : Vis) (r : Reg) : SameFt a r (wrap v r).2 := by
  unfold wrap SameFt
  split
  · rfl
  · split <;> rfl

instance (a : Nat) : Keep (SameFt a) where
  refl _ := rfl
  trans h g := Eq.trans g h
  alloc _ := rfl
  wrapAt _ := wrap_sameFt _
  wrapNilOption := wrap_sameFt _
  wrapNilProto := wrap_sameFt _

theorem fieldType_sameFt {a b : Nat} (hab : a ≠ b) (p : Ptr) : NK (SameFt a) (MessageField.type b p) := by
  constructor; intro r
  unfold MessageField.type
  split
  · exact Keep.refl r
  · have hb := NK.fieldTypeBody (R := SameFt a) p r
    have hu : ∀ (g : Nat → Option (Option Node)) x, upd g b x a = g a := by
      intro g x
      unfold upd
      rw [if_neg hab]
    rcases he : Protoast.fieldTypeBody p r with ⟨res, r'⟩
    rw [he] at hb
    cases res
    · exact (hu _ _).trans hb
    · exact (hu _ _).trans hb
    · exact hb

theorem proto_ftcache (W : World) (fuel : Nat) (path : Str) (r : Reg) : (proto W fuel path r).2.ftcache = r.ftcache := by
  rcases proto_cases W path r with ⟨i, hi, h⟩ | ⟨hnone, e, h⟩ | ⟨hnone, name, elems, hloc, hload, h⟩
  · rw [h]
  · rw [h]
  · rw [h]
    have hl := runActs_lext (imp := visitImport W fuel)
      (fileActs (.at ⟨r.heap.length, []⟩) r.heap.length elems)
      (fun f _ r => visitImport_lext W fuel f r) (addFile r path elems)
    unfold protoNew
    rcases hr : runActs (visitImport W fuel) (fileActs (.at ⟨r.heap.length, []⟩) r.heap.length elems)
      (addFile r path elems) with ⟨res, r'⟩
    rw [hr] at hl
    have := hl.ftcache
    cases res <;> exact this

theorem newRegistry_ftcache {W fuel r} (h : newRegistry W fuel = (.ok (.ok ()), r)) :
    r.ftcache = Reg.empty.ftcache := by
  obtain ⟨nm, elems, _, _, h⟩ := newRegistry_ok h
  have hl := runActs_lext (imp := visitImport W fuel) (fileActs (.at ⟨0, []⟩) 0 elems)
    (fun f _ r => visitImport_lext W fuel f r) (addFile Reg.empty descriptorPath elems)
  rw [h] at hl
  exact hl.ftcache

/-- An entry in the table of field types comes from a `Type` call. -/
theorem ft_entry {W fuel r} (hn : newRegistry W fuel = (.ok (.ok ()), r)) (a : Nat) (ops : List Op)
    (h : (Client.exec ⟨r, []⟩ ops).reg.ftcache a ≠ none) :
    ∃ pre i post p, ops = pre ++ .query i (.plain .fieldType) :: post ∧
      (Client.exec ⟨r, []⟩ pre).pool[i]? = some (.wrapped a .messageField p) := by
  induction ops using List.reverseRecOn with
  | nil =>
    exfalso; apply h
    show r.ftcache a = none
    rw [newRegistry_ftcache hn]; rfl
  | append_singleton ops op ih =>
    have hexec : Client.exec ⟨r, []⟩ (ops ++ [op]) = (Client.exec ⟨r, []⟩ ops).step op := by
      simp [Client.exec]
    rw [hexec, step_reg] at h
    have keep : (op.run (Client.exec ⟨r, []⟩ ops).pool (Client.exec ⟨r, []⟩ ops).reg).2.ftcache a =
        (Client.exec ⟨r, []⟩ ops).reg.ftcache a → ∃ pre i post p,
        ops ++ [op] = pre ++ .query i (.plain .fieldType) :: post ∧
        (Client.exec ⟨r, []⟩ pre).pool[i]? = some (.wrapped a .messageField p) := by
      intro hk
      rw [hk] at h
      obtain ⟨pre, i, post, p, h1, h2⟩ := ih h
      exact ⟨pre, i, post ++ [op], p, by rw [h1]; simp, h2⟩
    cases op with
    | proto W' f p =>
      apply keep
      have := proto_ftcache W' f p (Client.exec ⟨r, []⟩ ops).reg
      simp only [Op.run, M.bind_apply]
      rcases hp : proto W' f p (Client.exec ⟨r, []⟩ ops).reg with ⟨res, r'⟩
      rw [hp] at this
      simp only at this
      cases res with
      | ok x => cases x <;> exact congrFun this _
      | panic e => exact congrFun this _
      | timeout => exact congrFun this _
    | byName m =>
      apply keep
      have hb : NK (SameFt a) (nodeByFullName m) := by
        unfold nodeByFullName
        refine NK.bind NK.get fun r => ?_
        split
        · exact NK.wrapAt _
        · exact ⟨wrap_sameFt _⟩
      have := hb.ext (Client.exec ⟨r, []⟩ ops).reg
      simp only [Op.run, M.bind_apply]
      rcases hp : nodeByFullName m (Client.exec ⟨r, []⟩ ops).reg with ⟨res, r'⟩
      rw [hp] at this
      cases res <;> exact this
    | query i q =>
      cases hp : (Client.exec ⟨r, []⟩ ops).pool[i]? with
      | none => exact keep (by simp [Op.run, hp])
      | some n =>
        by_cases hq : q = .plain .fieldType ∧ ∃ p, n = .wrapped a .messageField p
        · obtain ⟨rfl, p, rfl⟩ := hq
          exact ⟨ops, i, [], p, rfl, hp⟩
        · apply keep
          simp only [Op.run, hp]
          refine (NK.queryRun (R := SameFt a) q n fun b p h1 h2 => ?_).ext _
          refine fieldType_sameFt (fun e => hq ⟨h1, p, ?_⟩) p
          rw [h2, e]

theorem exec_append (c : Client) (a b : List Op) : c.exec (a ++ b) = (c.exec a).exec b := by
  simp [Client.exec, List.foldl_append]

/-- C74, first call: if no call of the history was `Type` on a handle of this field, `Type` looks the declared type
    name up in the present state: it gives what the name denotes, under `Repeated` iff the field has that label, and
    panics iff the name denotes something that is not a type. -/
theorem C74_first_call {P W fuel r ops a p n typ s rep opt} (hW : W.Sat P)
    (hn : newRegistry W fuel = (.ok (.ok ()), r)) (hops : ∀ op ∈ ops, Op.Sat P op)
    (hm : Node.wrapped a .messageField p ∈ (Client.exec ⟨r, []⟩ ops).pool)
    (hk : (Client.exec ⟨r, []⟩ ops).reg.kind p = some (.normalField n typ s rep opt))
    (hno : ¬ TypeAsked r ops p) :
    let reg := (Client.exec ⟨r, []⟩ ops).reg
    (∀ t r', MessageField.type a p reg = (.ok t, r') →
      if rep then ∃ a' e, t = some (.repeated a' e) ∧ TypeDenotes reg (reg.scope (.at p)) typ e
      else TypeDenotes reg (reg.scope (.at p)) typ t) ∧
    ((∃ e r', MessageField.type a p reg = (.panic e, r')) ↔
      ¬ IsKeyword typ ∧ ∃ q kd, Refers reg (reg.scope (.at p)) typ q ∧ reg.kind q = some kd ∧ kd.isType = false) := by
  have hr : Reachable P (Client.exec ⟨r, []⟩ ops) := ⟨W, fuel, r, ops, hW, hn, hops, rfl⟩
  refine C39_element hr hk ?_
  by_contra hne
  obtain ⟨pre, i, post, p', h1, h2⟩ := ft_entry hn a ops hne
  have hin : Node.wrapped a .messageField p' ∈ (Client.exec ⟨r, []⟩ ops).pool := by
    rw [h1, exec_append]
    obtain ⟨l, hl⟩ := exec_pool (.query i (.plain .fieldType) :: post) (Client.exec ⟨r, []⟩ pre)
    rw [hl]
    exact List.mem_append_left _ (List.mem_of_getElem? h2)
  have he := C25_different_nodes hr hm hin (by simp [GoEq])
  cases he
  exact hno ⟨pre, i, post, a, h1, h2⟩

/-- C74, later calls: whatever an earlier `Type` call on a handle of this field gave, it gives the identical type now,
    and nil if that call panicked, and changes nothing. -/
theorem C74_later_calls {P W fuel r pre i post a b p} (hW : W.Sat P)
    (hn : newRegistry W fuel = (.ok (.ok ()), r))
    (hops : ∀ op ∈ pre ++ .query i (.plain .fieldType) :: post, Op.Sat P op)
    (hi : (Client.exec ⟨r, []⟩ pre).pool[i]? = some (.wrapped b .messageField p))
    (hm : Node.wrapped a .messageField p ∈
      (Client.exec ⟨r, []⟩ (pre ++ .query i (.plain .fieldType) :: post)).pool) :
    let reg := (Client.exec ⟨r, []⟩ (pre ++ .query i (.plain .fieldType) :: post)).reg
    (∀ t r', MessageField.type b p (Client.exec ⟨r, []⟩ pre).reg = (.ok t, r') →
      MessageField.type a p reg = (.ok t, reg)) ∧
    (∀ e r', MessageField.type b p (Client.exec ⟨r, []⟩ pre).reg = (.panic e, r') →
      MessageField.type a p reg = (.ok none, reg)) := by
  have hr : Reachable P (Client.exec ⟨r, []⟩ (pre ++ .query i (.plain .fieldType) :: post)) :=
    ⟨W, fuel, r, _, hW, hn, hops, rfl⟩
  have hin : Node.wrapped b .messageField p ∈
      (Client.exec ⟨r, []⟩ (pre ++ .query i (.plain .fieldType) :: post)).pool := by
    rw [exec_append]
    obtain ⟨l, hl⟩ := exec_pool (.query i (.plain .fieldType) :: post) (Client.exec ⟨r, []⟩ pre)
    rw [hl]
    exact List.mem_append_left _ (List.mem_of_getElem? hi)
  have hab : a = b := (C24_one_node hr hm hin (by simp)).2
  subst hab
  have hstep : ∀ res r', MessageField.type a p (Client.exec ⟨r, []⟩ pre).reg = (res, r') →
      ∃ pool, Client.exec ⟨r, []⟩ (pre ++ .query i (.plain .fieldType) :: post) = Client.exec ⟨r', pool⟩ post := by
    intro res r' h
    rw [exec_append]
    show ∃ pool, Client.exec ((Client.exec ⟨r, []⟩ pre).step (.query i (.plain .fieldType))) post = _
    have hreg : ((Client.exec ⟨r, []⟩ pre).step (.query i (.plain .fieldType))).reg = r' := by
      rw [step_reg]
      simp only [Op.run, hi, Query.run, PlainQ.run, M.bind_apply, h]
      cases res <;> rfl
    generalize (Client.exec ⟨r, []⟩ pre).step (.query i (.plain .fieldType)) = c' at hreg
    rcases c' with ⟨reg', pool⟩
    subst hreg
    exact ⟨pool, rfl⟩
  refine ⟨fun t r' h => ?_, fun e r' h => ?_⟩
  · obtain ⟨pool, hp⟩ := hstep _ _ h
    rw [hp]
    exact C27_type_stable h pool post
  · obtain ⟨pool, hp⟩ := hstep _ _ h
    rw [hp]
    exact C27_type_stable (C28_type_after_panic h) pool post

/-- Non-vacuity: a field whose `Type` was not asked yet, and one whose `Type` was. -/
example : (∃ a, Node.wrapped a .messageField ⟨1, [0, 4]⟩ ∈ Ex.c2.pool) ∧ ¬ TypeAsked Ex.r0 Ex.ops2 ⟨1, [0, 4]⟩ ∧
    Ex.c2.reg.kind ⟨1, [0, 4]⟩ = some (.normalField b!"t" b!"T" 1 false false) := by
  refine ⟨Ex.hasW_spec (i := 2) (by decide +kernel), ?_, by rfl⟩
  rintro ⟨pre, h, post, a, h1, h2⟩
  have : Op.query h (.plain .fieldType) ∈ Ex.ops2 := by rw [h1]; simp
  have hpool : Ex.c2.pool[h]? = some (.wrapped a .messageField ⟨1, [0, 4]⟩) := by
    unfold Ex.c2
    rw [h1, exec_append]
    obtain ⟨l, hl⟩ := exec_pool (.query h (.plain .fieldType) :: post) (Client.exec ⟨Ex.r0, []⟩ pre)
    rw [hl, List.getElem?_append_left (List.getElem?_eq_some_iff.mp h2).1]
    exact h2
  simp [Ex.ops2] at this
  rcases this with rfl | rfl
  · obtain ⟨b, hb⟩ : ∃ b, Ex.c2.pool[5]? = some (.wrapped b .messageField ⟨1, [3, 4]⟩) := ⟨_, rfl⟩
    rw [hb] at hpool; simp at hpool
  · obtain ⟨b, hb⟩ : ∃ b, Ex.c2.pool[6]? = some (.wrapped b .messageField ⟨1, [4, 4]⟩) := ⟨_, rfl⟩
    rw [hb] at hpool; simp at hpool

example : TypeAsked Ex.r0 (Ex.ops2 ++ [.query 2 (.plain .fieldType)]) ⟨1, [0, 4]⟩ := by
  obtain ⟨a, h⟩ : ∃ a, Ex.c2.pool[2]? = some (.wrapped a .messageField ⟨1, [0, 4]⟩) := ⟨_, rfl⟩
  exact ⟨Ex.ops2, 2, [], a, rfl, h⟩

end Protoast.Props
