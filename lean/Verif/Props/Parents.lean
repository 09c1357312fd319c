import Verif.Proof.Position
import Verif.OptExamples
/-
  C34–C37: parents, hierarchies, files, positions.
-/
namespace Protoast.Props
open Protoast

/-! ### C34 -/

/-- What C34 says of the node `m` obtained from `X`: now and after any further history its parent is `X`. -/
def ParentIs (X m : Node) (c : Client) : Prop :=
  ∀ ops, ∃ Y r', nodeParent m (c.exec ops).reg = (.ok (some Y), r') ∧ IsParent X Y

theorem parentIs_of {P c X x r1} {q : M (Option Node)} (hr : Reachable P c) (hX : X ∈ c.pool)
    (ht : ∀ {o}, Inv o c.reg → Good o c.reg X → Tri o c.reg q (GoodX X)) (hq : q c.reg = (.ok x, r1))
    {m : Node} (hm : x = some m) : ParentIs X m ⟨r1, c.pool ++ [m]⟩ := by
  obtain ⟨o, hi, hg⟩ := reachable_inv hr
  obtain ⟨o1, hx1, hi1, hq1⟩ := ht hi (hg _ hX)
  rw [hq] at hx1 hi1 hq1
  obtain ⟨p, hb, hgm, j, hpl⟩ := hq1 _ rfl m hm
  intro ops
  have hgl : GoodL o1 r1 (c.pool ++ [m]) := by
    intro n hn
    rcases List.mem_append.mp hn with hn | hn
    · exact hx1.good n (hg n hn)
    · simp at hn; subst hn; exact hgm
  obtain ⟨o2, hx2, hi2, _⟩ := exec_inv ops (c := ⟨r1, c.pool ++ [m]⟩) hi1 hgl
  obtain ⟨a, k, o3, r3, h1, h2, h3, h4⟩ := nodeParent_full hi2 (hx2.good m hgm) (place_source hpl)
  exact ⟨_, r3, h1, isParent_of_good (h2.good _ (hx2.good _ (hx1.good _ (hg _ hX)))) hb h4⟩

/-- C34: a node that any iterator of `X` gives has `X` as its parent, at once and after any further history. -/
theorem C34_iteration {P c X q i m r1} (hr : Reachable P c) (hX : X ∈ c.pool)
    (hq : IterQ.run q X i c.reg = (.ok (some m), r1)) : ParentIs X m ⟨r1, c.pool ++ [m]⟩ :=
  parentIs_of hr hX (fun hi g => iterRun_child hi q g i) hq rfl

/-- C34 for the nodes found by name. -/
theorem C34_by_name {P c X q s m r1} (hr : Reachable P c) (hX : X ∈ c.pool)
    (hq : NamedQ.run q X s c.reg = (.ok (some m), r1)) : ParentIs X m ⟨r1, c.pool ++ [m]⟩ :=
  parentIs_of hr hX (fun hi g => namedRun_child hi q g s) hq rfl

/-- The node a call gives, if any. -/
def gives {α} (m : M (Option α)) (r : Reg) : Option α :=
  match m r with
  | (.ok x, _) => x
  | _ => none

theorem gives_spec {α} {m : M (Option α)} {r : Reg} (h : (gives m r).isSome = true) : ∃ x r1, m r = (.ok (some x), r1) := by
  unfold gives at h
  split at h
  · next x r1 hm =>
    cases x with
    | none => cases h
    | some x => exact ⟨x, r1, hm⟩
  · cases h

/-- Non-vacuity of C34: the second field of `M`. -/
example : ∃ X ∈ Ex.c2.pool, ∃ m r1, IterQ.run .messageFields X 1 Ex.c2.reg = (.ok (some m), r1) := by
  have ha := Ex.hasA_spec (c := Ex.c2) (i := 1) (a := 1) (k := .message) (p := ⟨1, [4]⟩) (by decide +kernel)
  exact ⟨_, ha, gives_spec (by decide +kernel)⟩

/-! ### C35 -/

/-- C35: NodeHierarchy of a handle of something written in a file terminates (any step budget above the nesting
    depth gives the same answer), starts with the node, climbs through exactly the enclosing objects, each the
    parent of the previous one, and ends with the file. -/
theorem C35_hierarchy {P c n p} (hr : Reachable P c) (hn : n ∈ c.pool) (hs : n.source = some p) :
    ∃ ns r', (∀ fuel, p.path.length < fuel → nodeHierarchy fuel (some n) c.reg = (.ok (n :: ns), r')) ∧
      (n :: ns).map Node.source = (enclosing p.file p.path).map some ∧
      Linked (fun x y => nodeParent x r' = (.ok (some y), r')) (n :: ns) ∧
      (∃ a, (n :: ns).getLast? = some (.wrapped a .file ⟨p.file, []⟩)) := by
  obtain ⟨o, hi, hg⟩ := reachable_inv hr
  obtain ⟨ns, _, r', h1, _, _, _, h2, h3, h4⟩ := hierarchy_full p.file p.path hi (hg _ hn) hs
  exact ⟨ns, r', h1, h2, h3, h4⟩

/-- Non-vacuity of C35: a oneof branch is three levels deep. -/
example : ∃ n ∈ Ex.c2.pool, ∃ p, n.source = some p ∧ p.path.length = 3 := by
  obtain ⟨a, h⟩ := Ex.hasW_spec (c := Ex.c2) (i := 12) (k := .oneofBranch) (p := ⟨1, [0, 3, 4]⟩) (by decide +kernel)
  exact ⟨_, h, _, rfl, rfl⟩

/-! ### C36 -/

/-- C36: when the parser records the path it was given in the positions, NodeFile of a handle of anything written
    in a file is a handle of that file. -/
theorem C36_file {c n p} (hr : Reachable Positioned c) (hn : n ∈ c.pool) (ho : n.origin = some p) :
    ∃ a r', nodeFile n c.reg = (.ok (some (.wrapped a .file ⟨p.file, []⟩)), r') := by
  obtain ⟨o, hi, hg⟩ := reachable_inv hr
  obtain ⟨x, h1, _, h3⟩ := good_pos (hg _ hn) ho
  obtain ⟨f, hf, _, hx, _⟩ := positioned_pos (reachable_heapSat hr) h1
  obtain ⟨a, _, r', h4, _⟩ := nodeFile_full hi h3 hf hx
  exact ⟨a, r', h4⟩

/-- C36 for the type of a repeated field: the file of its element type. -/
theorem C36_repeated {c a t p} (hr : Reachable Positioned c) (hn : Node.repeated a (some t) ∈ c.pool)
    (ho : t.origin = some p) :
    ∃ b r', nodeFile (.repeated a (some t)) c.reg = (.ok (some (.wrapped b .file ⟨p.file, []⟩)), r') := by
  obtain ⟨o, hi, hg⟩ := reachable_inv hr
  obtain ⟨x, h1, _, h3⟩ := good_pos (n := t) (by have := hg _ hn; unfold Good at this; exact this.2.2) ho
  obtain ⟨f, hf, _, hx, _⟩ := positioned_pos (reachable_heapSat hr) h1
  obtain ⟨b, _, r', h4, _⟩ := nodeFile_full hi (n := .repeated a (some t)) h3 hf hx
  exact ⟨b, r', h4⟩

/-- C36: builtin types have no file. -/
theorem C36_builtin {c b} (hr : Reachable Positioned c) : nodeFile (.builtin b) c.reg = (.ok none, c.reg) := by
  obtain ⟨o, hi, _⟩ := reachable_inv hr
  have hn : c.reg.protos [] = none := by
    cases h : c.reg.protos [] with
    | none => rfl
    | some i =>
      obtain ⟨f, hf, he⟩ := hi.protosHeap _ _ h
      exact absurd he ((reachable_heapSat hr) _ _ hf).1
  show (match c.reg.protos [] with
    | none => (pure none : M (Option Node))
    | some i => do let f ← wrapAs .file ⟨i, []⟩; pure (some f)) c.reg = _
  rw [hn]
  rfl

theorem W_positioned : Ex.W.Sat Positioned := by
  apply Ex.worldOf_sat
  intro x hx
  simp only [List.mem_cons, List.not_mem_nil, or_false] at hx
  rcases hx with rfl | rfl | rfl <;> exact ⟨by decide +kernel, by decide +kernel⟩

theorem c2_positioned : Reachable Positioned Ex.c2 := by
  refine Ex.reach_exec W_positioned _ ?_
  intro op hop
  cases op with
  | proto W' f p =>
    simp only [Ex.ops2, List.mem_cons, Op.proto.injEq, reduceCtorEq, List.not_mem_nil, or_false] at hop
    rw [hop.1]
    exact W_positioned
  | byName _ => trivial
  | query _ _ => trivial

/-- Non-vacuity of C36 and C37. -/
example : ∃ c, Reachable Positioned c ∧ ∃ n ∈ c.pool, ∃ p, n.origin = some p ∧ p.path.length = 3 := by
  obtain ⟨a, h⟩ := Ex.hasW_spec (c := Ex.c2) (i := 12) (k := .oneofBranch) (p := ⟨1, [0, 3, 4]⟩) (by decide +kernel)
  exact ⟨_, c2_positioned, _, h, _, rfl, rfl⟩

/-! ### C37 -/

/-- C37 in full: Pos succeeds for every handle of something written in a file and every option value. -/
def C37_statement : Prop :=
  ∀ c, Reachable Positioned c → ∀ n ∈ c.pool, (n.origin.isSome = true ∨ ∃ v, n = .value v) →
    ∃ fuel x r', pos fuel n c.reg = (.ok x, r')

theorem pos_panics {fuel n x r r'} {e : Panic} {s : Reg} (h : posBody n r = (.panic e, s)) : pos fuel n r ≠ (.ok x, r') := by
  intro hc
  unfold pos at hc
  rw [h] at hc
  revert hc
  simp only
  rcases posDefer fuel n {} s with ⟨res, t⟩
  cases res <;> simp

theorem WO_positioned : Ex.WO.Sat Positioned := by
  apply Ex.worldOf_sat
  intro x hx
  simp only [List.mem_cons, List.not_mem_nil, or_false] at hx
  rcases hx with rfl | rfl <;> exact ⟨by decide +kernel, by decide +kernel⟩

/-- No floating point literals. -/
def noFloats : FloatOps := ⟨fun _ => none, fun _ => []⟩

/-- A client that also asked for the value of `(tags)` of field `b`. -/
def cTags : Client := Client.exec ⟨Ex.ro, []⟩ (Ex.opsO ++ [.query 13 (.plain (.optionValue noFloats))])

theorem cTags_reach : Reachable Positioned cTags := by
  refine Ex.reachO WO_positioned _ (Ex.onlyO_sat WO_positioned ?_)
  intro op hop
  rcases List.mem_append.mp hop with h | h
  · exact Ex.opsO_only op h
  · simp at h; exact .inr (.inr ⟨_, _, h⟩)

/-- The handle is an array value. -/
def isArrayNode : Option Node → Bool
  | some (.value v) => v.isArray
  | _ => false

/-- C37 is false: Pos panics for the value of a repeated option. -/
theorem C37_false : ¬ C37_statement := by
  intro h
  have h25 : isArrayNode (cTags.pool[25]?) = true := by decide +kernel
  cases hn : cTags.pool[25]? with
  | none => rw [hn] at h25; cases h25
  | some n =>
    rw [hn] at h25
    cases n with
    | value v =>
      obtain ⟨fuel, x, r', hp⟩ := h _ cTags_reach _ (List.mem_of_getElem? hn) (.inr ⟨v, rfl⟩)
      cases v with
      | array o vs => exact pos_panics (e := .nilDeref) (s := cTags.reg) rfl hp
      | _ => cases h25
    | _ => cases h25

/-- C37, what holds: Pos of a handle of anything written in a file is its position, with the path under which the
    file was loaded; Pos of an option value or any part of it that is not an array is the position of the literal
    it was read from, in the same file, whatever happens between the calls. Missing: array values, map items. -/
theorem C37_partial {c} (hr : Reachable Positioned c) :
    (∀ n ∈ c.pool, ∀ p, n.origin = some p → ∀ fuel, ∃ x f, pos fuel n c.reg = (.ok x, c.reg) ∧
      sourcePos c.reg p = some x ∧ c.reg.heap[p.file]? = some f ∧ x.filename = f.filename) ∧
    (∀ a p cls fld, Node.option a p cls fld ∈ c.pool → ∀ F v r1, Option.value F p fld c.reg = (.ok v, r1) →
      ∃ name lit f, c.reg.kind p = some (.option name lit) ∧ c.reg.heap[p.file]? = some f ∧
        ∀ v' lit', SubValue v lit v' lit' → v'.isArray = false → ∀ fuel r2,
          pos fuel (.value v') r2 = (.ok lit'.pos, r2) ∧ lit'.pos.filename = f.filename) := by
  obtain ⟨o, hi, hg⟩ := reachable_inv hr
  have hs := reachable_heapSat hr
  refine ⟨?_, ?_⟩
  · intro n hn p ho fuel
    obtain ⟨x, h1, h2, _⟩ := good_pos (hg _ hn) ho
    obtain ⟨f, hf, h3, h4, h5⟩ := positioned_pos hs h1
    exact ⟨x, f, pos_done h2 (h4 ▸ h5), h3, hf, h4⟩
  · intro a p cls fld hn F v r1 hv
    obtain ⟨_, ⟨⟨nm, l, hk⟩, _⟩, _⟩ := hg _ hn
    obtain ⟨e, he, hek⟩ := kind_elem hk
    have he' := he
    unfold Reg.elem at he'
    rw [Option.bind_eq_some_iff] at he'
    obtain ⟨f, hf, hat⟩ := he'
    refine ⟨nm, l, f, hk, hf, ?_⟩
    have hsf := hs _ _ hf
    have hl : l.posAll (fun pos => pos.filename == f.filename) = true := by
      have := elem_kindPos ((childrenAt_posAll hsf.2 _).2 e hat)
      rw [hek] at this
      exact this
    have hm : Mirrors v l := by
      unfold Option.value at hv
      simp only [M.bind_apply, M.get_apply, hk] at hv
      exact buildFromLiteral_mirrors F l _ _ _ _ _ _ hv
    intro v' l' hsub ha fuel r2
    have hfn : l'.pos.filename = f.filename := by simpa using lit_pos (subValue_pos hl hsub)
    exact ⟨pos_done (posBody_value (subValue_mirrors hm hsub) ha) (by rw [hfn]; exact hsf.1), hfn⟩

/-- C37 when the parser leaves the file name out of some positions: Pos fills it in, for any step budget above the
    nesting depth. -/
theorem C37_filename_repaired {c n p} (hr : Reachable LooselyPositioned c) (hn : n ∈ c.pool)
    (hsrc : n.source = some p) {fuel : Nat} (hfuel : p.path.length < fuel) :
    ∃ x r', sourcePos c.reg p = some x ∧ pos fuel n c.reg = (.ok x, r') := by
  obtain ⟨o, hi, hg⟩ := reachable_inv hr
  exact pos_full hi (reachable_heapSat hr) (hg _ hn) hsrc hfuel

/-- A world whose parser leaves out the file name of a field. -/
def WL : World := Ex.worldOf [(descriptorPath, Ex.descriptor), (b!"l.proto",
  [Ex.el b!"l.proto" 1 (.message b!"L" false)
    [.mk { filename := [], line := 7 } none (.normalField b!"x" b!"int32" 1 false false) []]])]
def cL : Client := Client.exec ⟨(newRegistry WL 5).2, []⟩
  [.proto WL 5 b!"l.proto", .query 0 (.iter .fileMessages 0), .query 1 (.iter .messageFields 0)]

theorem cL_reach : Reachable LooselyPositioned cL := by
  have hW : WL.Sat LooselyPositioned := by
    apply Ex.worldOf_sat
    intro x hx
    simp only [List.mem_cons, List.not_mem_nil, or_false] at hx
    rcases hx with rfl | rfl <;> (unfold LooselyPositioned; decide +kernel)
  refine ⟨WL, 5, _, _, hW, Ex.ok_of_okOk (by decide +kernel), ?_, rfl⟩
  intro op hop
  simp only [List.mem_cons, List.not_mem_nil, or_false] at hop
  rcases hop with rfl | rfl | rfl
  · exact hW
  · trivial
  · trivial

/-- Non-vacuity of `C37_filename_repaired`: a field without file name in its position. -/
example : Reachable LooselyPositioned cL ∧ ∃ n ∈ cL.pool, n.source = some ⟨1, [0, 0]⟩ ∧
    (cL.reg.elem ⟨1, [0, 0]⟩).map Elem.pos = some { filename := [], line := 7 } := by
  obtain ⟨a, h⟩ := Ex.hasW_spec (c := cL) (i := 2) (k := .messageField) (p := ⟨1, [0, 0]⟩) (by decide +kernel)
  exact ⟨cL_reach, _, h, rfl, by decide +kernel⟩

/-- Non-vacuity of the second half of C37: a message value with a nested message value. -/
def hasDeep : OptVal → Bool
  | .map _ _ [_, _, (_, .map _ _ [(_, .int _ _ 8)])] => true
  | _ => false

example : ∃ a p cls fld, Node.option a p cls fld ∈ Ex.cO.pool ∧ ∃ v r1,
    Option.value noFloats p fld Ex.cO.reg = (.ok v, r1) ∧ hasDeep v = true := by
  have h : (match (Ex.cO.pool[(14 : Nat)]? : Option Node) with
    | some (Node.option _ p _ fld) =>
      match Option.value noFloats p fld Ex.cO.reg with
      | (.ok v, _) => hasDeep v
      | _ => false
    | _ => false) = true := by decide +kernel
  split at h
  · next a p cls fld hx =>
    split at h
    · next v r1 hv => exact ⟨a, p, cls, fld, List.mem_of_getElem? hx, v, r1, hv, h⟩
    · cases h
  · cases h

end Protoast.Props
