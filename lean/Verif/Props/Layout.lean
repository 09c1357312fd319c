import Verif.Proof.Layout4
import Verif.Examples
/-
  C128: where the declarations stand in the lines of their files, and what the comments attached to them say, is
  seen by Pos and Comment only.
-/
namespace Protoast.Props
open Layout

theorem worldP_eq {W1 W2 : World} (h : SameUpToLayout W1 W2) : worldP W1 = worldP W2 := by
  have h1 := h.resolvers
  have h2 : (fun n p => plainLoad (W1.load n p)) = fun n p => plainLoad (W2.load n p) := by
    funext n p; exact h.load n p
  simp only [worldP, h1, h2]

theorem opP_eq {op1 op2 : Op} (h : SameCall op1 op2) : opP op1 = opP op2 := by
  cases h with
  | proto fuel path h => simp only [opP, worldP_eq h]
  | byName name => rfl
  | query i q => rfl

theorem opsP_eq {ops1 ops2 : List Op} (h : SameCalls ops1 ops2) : ops1.map opP = ops2.map opP := by
  induction h with
  | nil => rfl
  | cons h _ ih => simp only [List.map_cons, opP_eq h, ih]

/-- Both clients, without layout, are the same client. -/
theorem same_plain {W1 W2 : World} {fuel : Nat} {r1 r2 : Reg} (hW : SameUpToLayout W1 W2)
    (h1 : (newRegistry W1 fuel).2 = r1) (h2 : (newRegistry W2 fuel).2 = r2) {ops1 ops2 : List Op}
    (h : SameCalls ops1 ops2) :
    ∃ c, SimC (Client.exec ⟨r1, []⟩ ops1) c ∧ SimC (Client.exec ⟨r2, []⟩ ops2) c := by
  have e1 := (newRegistry_eqv W1 fuel).2
  have e2 := (newRegistry_eqv W2 fuel).2
  rw [worldP_eq hW] at e1
  rw [h1] at e1
  rw [h2] at e2
  refine ⟨_, SimC.exec ops1 (c2 := ⟨(newRegistry (worldP W2) fuel).2, []⟩) ⟨e1, rfl⟩, ?_⟩
  rw [opsP_eq h]
  exact SimC.exec ops2 ⟨e2, rfl⟩

theorem plainOutcome_eq {x y : Res Answer} (h : ResRel AnsR x y) : plainOutcome y = plainOutcome x := by
  cases x <;> cases y <;> simp only [ResRel] at h <;> first
    | exact h.elim
    | (simp only [plainOutcome]; rw [h])
    | rfl
    | (subst h; rfl)

/-- C128: `NewRegistry` ends alike on files that are the same up to layout. -/
theorem C128_new_registry {W1 W2 : World} (hW : SameUpToLayout W1 W2) (fuel : Nat) :
    (newRegistry W1 fuel).1 = (newRegistry W2 fuel).1 := by
  rw [← (newRegistry_eqv W1 fuel).1, ← (newRegistry_eqv W2 fuel).1, worldP_eq hW]

/-- C128: after the same calls a client has the same handles, to the same elements and with the same identities. -/
theorem C128_handles {W1 W2 : World} {fuel : Nat} {r1 r2 : Reg} (hW : SameUpToLayout W1 W2)
    (h1 : newRegistry W1 fuel = (.ok (.ok ()), r1)) (h2 : newRegistry W2 fuel = (.ok (.ok ()), r2))
    {ops1 ops2 : List Op} (h : SameCalls ops1 ops2) :
    (Client.exec ⟨r1, []⟩ ops1).pool.map Node.shorn = (Client.exec ⟨r2, []⟩ ops2).pool.map Node.shorn := by
  obtain ⟨c, s1, s2⟩ := same_plain hW (by rw [h1]) (by rw [h2]) h
  rw [← s1.pool, ← s2.pool]

/-- C128: the next call ends alike, with the same answer: the same names, types, numbers, flags, errors and panics. Of
    `Pos` the file is the same; the lines `Comment` returns are left out. -/
theorem C128_answers {W1 W2 : World} {fuel : Nat} {r1 r2 : Reg} (hW : SameUpToLayout W1 W2)
    (h1 : newRegistry W1 fuel = (.ok (.ok ()), r1)) (h2 : newRegistry W2 fuel = (.ok (.ok ()), r2))
    {ops1 ops2 : List Op} (h : SameCalls ops1 ops2) {op1 op2 : Op} (ho : SameCall op1 op2) :
    plainOutcome (op1.answer (Client.exec ⟨r1, []⟩ ops1).pool (Client.exec ⟨r1, []⟩ ops1).reg).1 =
      plainOutcome (op2.answer (Client.exec ⟨r2, []⟩ ops2).pool (Client.exec ⟨r2, []⟩ ops2).reg).1 := by
  obtain ⟨c, s1, s2⟩ := same_plain hW (by rw [h1]) (by rw [h2]) h
  have a1 := plainOutcome_eq (opAnswer_eqv s1.pool op1 _ _ s1.reg).1
  have a2 := plainOutcome_eq (opAnswer_eqv s2.pool op2 _ _ s2.reg).1
  rw [opP_eq ho] at a1
  rw [← a1, ← a2]

/-- C128: `NodeIndex`, files included. -/
theorem C128_index {W1 W2 : World} {fuel : Nat} {r1 r2 : Reg} (hW : SameUpToLayout W1 W2)
    (h1 : newRegistry W1 fuel = (.ok (.ok ()), r1)) (h2 : newRegistry W2 fuel = (.ok (.ok ()), r2))
    {ops1 ops2 : List Op} (h : SameCalls ops1 ops2) {i : Nat} {n1 n2 : Node}
    (e1 : (Client.exec ⟨r1, []⟩ ops1).pool[i]? = some n1) (e2 : (Client.exec ⟨r2, []⟩ ops2).pool[i]? = some n2) :
    (nodeIndex n1 (Client.exec ⟨r1, []⟩ ops1).reg).1 = (nodeIndex n2 (Client.exec ⟨r2, []⟩ ops2).reg).1 := by
  obtain ⟨c, s1, s2⟩ := same_plain hW (by rw [h1]) (by rw [h2]) h
  have p1 := s1.pool
  have p2 := s2.pool
  have hn : n1.shorn = n2.shorn := by
    have q1 : c.pool[i]? = some n1.shorn := by rw [p1, List.getElem?_map, e1]; rfl
    have q2 : c.pool[i]? = some n2.shorn := by rw [p2, List.getElem?_map, e2]; rfl
    rw [q1] at q2
    exact Option.some.inj q2
  have a1 := (nodeIndex_eqv n1 _ _ s1.reg).1
  have a2 := (nodeIndex_eqv n2 _ _ s2.reg).1
  rw [hn] at a1
  revert a1 a2
  generalize (nodeIndex n1 _).1 = x
  generalize (nodeIndex n2 _).1 = y
  generalize (nodeIndex n2.shorn _).1 = z
  cases x <;> cases y <;> cases z <;> simp only [ResRel] <;> first
    | exact fun h => h.elim
    | exact fun _ h => h.elim
    | (rintro rfl rfl; rfl)
    | simp

/-- C128: option values print the same. -/
theorem C128_text {W1 W2 : World} {fuel : Nat} {r1 r2 : Reg} (hW : SameUpToLayout W1 W2)
    (h1 : newRegistry W1 fuel = (.ok (.ok ()), r1)) (h2 : newRegistry W2 fuel = (.ok (.ok ()), r2))
    {ops1 ops2 : List Op} (h : SameCalls ops1 ops2) (F : FloatOps) {i : Nat} {v1 v2 : OptVal}
    (e1 : (Client.exec ⟨r1, []⟩ ops1).pool[i]? = some (.value v1))
    (e2 : (Client.exec ⟨r2, []⟩ ops2).pool[i]? = some (.value v2)) :
    v1.toStr F (Client.exec ⟨r1, []⟩ ops1).reg = v2.toStr F (Client.exec ⟨r2, []⟩ ops2).reg := by
  obtain ⟨c, s1, s2⟩ := same_plain hW (by rw [h1]) (by rw [h2]) h
  have p1 := s1.pool
  have p2 := s2.pool
  have hn : v1.shorn = v2.shorn := by
    have q1 : c.pool[i]? = some (.value v1.shorn) := by rw [p1, List.getElem?_map, e1]; rfl
    have q2 : c.pool[i]? = some (.value v2.shorn) := by rw [p2, List.getElem?_map, e2]; rfl
    rw [q1] at q2
    exact Node.value.inj (Option.some.inj q2)
  have a1 := toStr_eqv F s1.reg v1
  have a2 := toStr_eqv F s2.reg v2
  rw [← a1, ← a2, hn]

/-! ### An example: the same files, written out with twice the lines, indented, and with a comment everywhere -/

/-- Another place in the same file. -/
def movedPos (p : Position) : Position := { p with line := 2 * p.line + 3, column := 5, offset := 100 * p.line }

def movedLit : Literal → Literal
  | .mk pos source array orderedMap => .mk (movedPos pos) source array orderedMap

def movedKind : Kind → Kind
  | .option name constant => .option name (movedLit constant)
  | k => k

mutual
def reformat : Elem → Elem
  | .mk pos _ kind children => .mk (movedPos pos) (some [b!" written by the formatter"]) (movedKind kind) (reformats children)
def reformats : List Elem → List Elem
  | [] => []
  | e :: es => reformat e :: reformats es
end

theorem movedPos_plain (p : Position) : (movedPos p).shorn = p.shorn := rfl

theorem movedKind_plain (k : Kind) : (movedKind k).shorn = k.shorn := by
  cases k with
  | option name constant => cases constant; simp [movedKind, movedLit, Kind.shorn, Literal.shorn, movedPos_plain]
  | _ => rfl

mutual
theorem reformat_plain : (e : Elem) → (reformat e).shorn = e.shorn
  | .mk pos c kind children => by
    simp only [reformat, Elem.shorn, movedPos_plain, movedKind_plain, reformats_plain children]
theorem reformats_plain : (es : List Elem) → Elem.plains (reformats es) = Elem.plains es
  | [] => rfl
  | e :: es => by simp only [reformats, Elem.plains, reformat_plain e, reformats_plain es]
end

/-- The reformatted files. -/
def reformatted : World :=
  { Ex.W with load := fun name path => match Ex.W.load name path with
      | .ok es => .ok (reformats es)
      | .error e => .error e }

theorem reformatted_same : SameUpToLayout Ex.W reformatted := by
  refine ⟨rfl, ?_⟩
  intro name path
  simp only [reformatted]
  cases Ex.W.load name path with
  | error e => rfl
  | ok es => simp only [plainLoad, reformats_plain]

/-- The registry of the reformatted files. -/
def q0 : Reg := (newRegistry reformatted 5).2

theorem reformatted_ok : newRegistry reformatted 5 = (.ok (.ok ()), q0) := by
  have h := C128_new_registry reformatted_same 5
  rw [Ex.W_ok] at h
  exact Prod.ext h.symm rfl

/-- Load `a.proto`, take its message `M`, the field `n`, the type of the field, its only option and the value of that. -/
def tour (W : World) : List Op :=
  [.proto W 5 Ex.pa, .byName b!".p.q.M", .byName b!".p.q.M.n", .query 2 (.plain .fieldType), .query 2 (.iter .options 0),
    .query 4 (.plain (.optionValue ⟨fun _ => none, fun _ => []⟩))]

theorem tour_same : SameCalls (tour Ex.W) (tour reformatted) :=
  .cons (.proto _ _ reformatted_same) (.cons (.byName _) (.cons (.byName _) (.cons (.query _ _) (.cons (.query _ _)
    (.cons (.query _ _) .nil)))))

/-- The line `Pos` gives. -/
def lineOf (c : Client) (i : Nat) : Option Nat :=
  match (Op.answer c.pool (.query i (.plain (.pos 5))) c.reg).1 with
  | .ok (.position p) => some p.line
  | _ => none

/-- The number of comment lines. -/
def commentsOf (c : Client) (i : Nat) : Option Nat :=
  match (Op.answer c.pool (.query i (.plain .comment)) c.reg).1 with
  | .ok (.attr (.lines l)) => l.map List.length
  | _ => none

/-- The tour gets six handles in the reformatted files too, and the layout of those is another one: `Pos` and `Comment`
    do see it. -/
example : (Client.exec ⟨q0, []⟩ (tour reformatted)).pool.length = 6 ∧
    lineOf (Client.exec ⟨Ex.r0, []⟩ (tour Ex.W)) 1 = some 5 ∧
    lineOf (Client.exec ⟨q0, []⟩ (tour reformatted)) 1 = some 13 ∧
    lineOf (Client.exec ⟨Ex.r0, []⟩ (tour Ex.W)) 5 = some 1 ∧
    lineOf (Client.exec ⟨q0, []⟩ (tour reformatted)) 5 = some 5 ∧
    commentsOf (Client.exec ⟨Ex.r0, []⟩ (tour Ex.W)) 1 = none ∧
    commentsOf (Client.exec ⟨q0, []⟩ (tour reformatted)) 1 = some 1 := by decide +kernel

/-- The hypotheses of C128 are met. -/
example : (Client.exec ⟨Ex.r0, []⟩ (tour Ex.W)).pool.map Node.shorn =
    (Client.exec ⟨q0, []⟩ (tour reformatted)).pool.map Node.shorn :=
  C128_handles reformatted_same Ex.W_ok reformatted_ok tour_same

end Protoast.Props
