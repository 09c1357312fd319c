import Verif.Proof.Position
import Verif.Proof.Later
import Verif.Props.Parents
import Verif.Props.Values
import Verif.Props.Options
/-
  C77, C78: where option values come from: NodeParent, NodeHierarchy and NodeFile of option values.
-/
namespace Protoast.Props
open Protoast

mutual
/-- The value carries the option pointer `op`, its proper parts carry none. -/
def Owned (op : Option Ptr) : OptVal → Prop
  | .bool o _ _ => o = op
  | .int o _ _ => o = op
  | .uint o _ _ => o = op
  | .float o _ _ => o = op
  | .string o _ _ => o = op
  | .bytes o _ _ => o = op
  | .enum o _ _ _ => o = op
  | .array o vs => o = op ∧ OwnedAll vs
  | .map o _ items => o = op ∧ OwnedItems items
def OwnedAll : List OptVal → Prop
  | [] => True
  | v :: vs => Owned none v ∧ OwnedAll vs
def OwnedItems : List (Str × OptVal) → Prop
  | [] => True
  | v :: vs => OwnedItem v ∧ OwnedItems vs
def OwnedItem : Str × OptVal → Prop
  | (_, v) => Owned none v
end

theorem Owned.opt {op} : ∀ {v : OptVal}, Owned op v → v.opt = op := by
  intro v h
  cases v <;> unfold Owned at h <;> first | exact h | exact h.1

theorem ownedAll_get : ∀ {vs : List OptVal}, OwnedAll vs → ∀ {i : Nat} {v}, vs[i]? = some v → Owned none v := by
  intro vs
  induction vs with
  | nil => intro _ i v h; simp at h
  | cons a vs ih =>
    intro h i v hv
    unfold OwnedAll at h
    cases i with
    | zero => simp at hv; subst hv; exact h.1
    | succ n => exact ih h.2 (by simpa using hv)

theorem ownedItems_get : ∀ {vs : List (Str × OptVal)}, OwnedItems vs → ∀ {i : Nat} {k v}, vs[i]? = some (k, v) →
    Owned none v := by
  intro vs
  induction vs with
  | nil => intro _ i k v h; simp at h
  | cons a vs ih =>
    intro h i k v hv
    unfold OwnedItems at h
    cases i with
    | zero => simp at hv; subst hv; have := h.1; unfold OwnedItem at this; exact this
    | succ n => exact ih h.2 (by simpa using hv)

mutual
theorem buildFromLiteral_owned (F : FloatOps) : (lit : Literal) → ∀ op f ig r v r',
    buildFromLiteral F op f ig lit r = (.ok v, r') → Owned op v
  | .mk pos source array orderedMap => by
    intro op f ig r v r' h
    unfold buildFromLiteral at h
    simp only [M.bind_apply, M.get_apply] at h
    rcases hk : r.kind f with _ | kd
    · rw [hk] at h; cases h
    rw [hk] at h
    cases kd <;> simp only [M.panic_apply, Prod.mk.injEq, reduceCtorEq, false_and] at h
    case normalField n typ s rep opt =>
    split at h
    · simp only [M.bind_apply] at h
      rcases hb : buildArray F f array r with ⟨res, r1⟩
      rw [hb] at h
      cases res with
      | ok vs =>
        simp only [M.pure_apply, Prod.mk.injEq, Res.ok.injEq] at h
        rw [← h.1]
        unfold Owned
        exact ⟨rfl, buildArray_owned F array _ _ _ _ hb⟩
      | panic e => cases h
      | timeout => cases h
    · cases hs : scalarClass typ <;> rw [hs] at h <;> simp only at h
      case bool =>
        cases hb : parseBool source <;> rw [hb] at h <;> cases h
        unfold Owned; rfl
      case int =>
        cases hb : atoi source <;> rw [hb] at h <;> cases h
        unfold Owned; rfl
      case uint =>
        cases hb : parseUint source <;> rw [hb] at h <;> cases h
        unfold Owned; rfl
      case float =>
        cases hb : F.parse source <;> rw [hb] at h <;> cases h
        unfold Owned; rfl
      case string => cases h; unfold Owned; rfl
      case bytes => cases h; unfold Owned; rfl
      case named =>
        simp only [M.bind_apply] at h
        rcases hb : getTypeByName f typ r with ⟨res, r1⟩
        rw [hb] at h
        cases res with
        | panic e => cases h
        | timeout => cases h
        | ok t =>
          simp only at h
          split at h
          · next a ep =>
            simp only [M.bind_apply] at h
            rcases hv : Enum.value ep source r1 with ⟨res, r2⟩
            rw [hv] at h
            cases res with
            | panic e => cases h
            | timeout => cases h
            | ok x =>
              simp only at h
              split at h
              · cases h; unfold Owned; rfl
              · cases h
          · next a mp =>
            simp only [M.bind_apply] at h
            rcases hv : buildItems F mp orderedMap r1 with ⟨res, r2⟩
            rw [hv] at h
            cases res with
            | panic e => cases h
            | timeout => cases h
            | ok items =>
              simp only [M.pure_apply, Prod.mk.injEq, Res.ok.injEq] at h
              rw [← h.1]
              unfold Owned
              exact ⟨rfl, buildItems_owned F orderedMap _ _ _ _ hv⟩
          · cases h
theorem buildArray_owned (F : FloatOps) : (ls : List Literal) → ∀ f r vs r',
    buildArray F f ls r = (.ok vs, r') → OwnedAll vs
  | [] => by
    intro f r vs r' h
    unfold buildArray at h
    cases h
    unfold OwnedAll; trivial
  | l :: ls => by
    intro f r vs r' h
    unfold buildArray at h
    simp only [M.bind_apply] at h
    rcases hb : buildFromLiteral F none f true l r with ⟨res, r1⟩
    rw [hb] at h
    cases res with
    | panic e => cases h
    | timeout => cases h
    | ok v =>
      simp only at h
      rcases hb2 : buildArray F f ls r1 with ⟨res, r2⟩
      rw [hb2] at h
      cases res with
      | panic e => cases h
      | timeout => cases h
      | ok vs' =>
        cases h
        unfold OwnedAll
        exact ⟨buildFromLiteral_owned F l _ _ _ _ _ _ hb, buildArray_owned F ls _ _ _ _ hb2⟩
theorem buildItems_owned (F : FloatOps) : (ls : List (Str × Literal)) → ∀ m r vs r',
    buildItems F m ls r = (.ok vs, r') → OwnedItems vs
  | [] => by
    intro f r vs r' h
    unfold buildItems at h
    cases h
    unfold OwnedItems; trivial
  | l :: ls => by
    intro m r vs r' h
    unfold buildItems at h
    simp only [M.bind_apply] at h
    rcases hb : buildItem F m l r with ⟨res, r1⟩
    rw [hb] at h
    cases res with
    | panic e => cases h
    | timeout => cases h
    | ok v =>
      simp only at h
      rcases hb2 : buildItems F m ls r1 with ⟨res, r2⟩
      rw [hb2] at h
      cases res with
      | panic e => cases h
      | timeout => cases h
      | ok vs' =>
        cases h
        unfold OwnedItems
        exact ⟨buildItem_owned F l _ _ _ _ hb, buildItems_owned F ls _ _ _ _ hb2⟩
theorem buildItem_owned (F : FloatOps) : (l : Str × Literal) → ∀ m r v r',
    buildItem F m l r = (.ok v, r') → OwnedItem v
  | (name, lit) => by
    intro m r v r' h
    unfold buildItem at h
    simp only [M.bind_apply] at h
    rcases hb : Message.field m name r with ⟨res, r1⟩
    rw [hb] at h
    cases res with
    | panic e => cases h
    | timeout => cases h
    | ok x =>
      simp only at h
      split at h
      · next a k fp =>
        simp only [M.bind_apply, M.get_apply] at h
        rcases hk : r1.kind fp with _ | kd
        · rw [hk] at h; cases h
        rw [hk] at h
        cases kd <;> simp only [M.panic_apply, Prod.mk.injEq, reduceCtorEq, false_and] at h
        simp only [M.bind_apply] at h
        rcases hb2 : buildFromLiteral F none fp false lit r1 with ⟨res, r2⟩
        rw [hb2] at h
        cases res with
        | panic e => cases h
        | timeout => cases h
        | ok v' =>
          cases h
          unfold OwnedItem
          exact buildFromLiteral_owned F lit _ _ _ _ _ _ hb2
      · cases h
end

/-- `v'` is an element of the array value `v`, or the value of an item of the message value `v`, or a part of one. -/
inductive ProperPart (v : OptVal) : OptVal → Prop where
  | elem {o vs v'} : v = .array o vs → v' ∈ vs → ProperPart v v'
  | item {o l items k v'} : v = .map o l items → (k, v') ∈ items → ProperPart v v'
  | elemOf {o vs v'} : ProperPart v (.array o vs) → v' ∈ vs → ProperPart v v'
  | itemOf {o l items k v'} : ProperPart v (.map o l items) → (k, v') ∈ items → ProperPart v v'

theorem Owned.array {op o vs v'} (h : Owned op (.array o vs)) (hm : v' ∈ vs) : Owned none v' := by
  unfold Owned at h
  obtain ⟨i, hi⟩ := List.mem_iff_getElem?.mp hm
  exact ownedAll_get h.2 hi

theorem Owned.map {op o l items k v'} (h : Owned op (.map o l items)) (hm : (k, v') ∈ items) : Owned none v' := by
  unfold Owned at h
  obtain ⟨i, hi⟩ := List.mem_iff_getElem?.mp hm
  exact ownedItems_get h.2 hi

theorem Owned.part {op} {v v' : OptVal} (hv : Owned op v) (h : ProperPart v v') : Owned none v' := by
  induction h with
  | elem e hm => subst e; exact hv.array hm
  | item e hm => subst e; exact hv.map hm
  | elemOf _ hm ih => exact ih.array hm
  | itemOf _ hm ih => exact ih.map hm

theorem value_owned {F p f r v r1} (h : Option.value F p f r = (.ok v, r1)) : Owned (some p) v := by
  unfold Option.value at h
  simp only [M.bind_apply, M.get_apply] at h
  cases hk : r.kind p with
  | none => rw [hk] at h; cases h
  | some kd =>
    rw [hk] at h
    cases kd <;> first | exact buildFromLiteral_owned F _ _ _ _ _ _ _ h | cases h

/-- C77 in full: the parent of an option value is an option node for the option it is the value of, and the file of it
    and of all its parts is the file of that option. -/
def C77_statement : Prop :=
  ∀ c, Reachable (fun p e => WFFile p e ∧ Positioned p e) c → ∀ a p cls f, Node.option a p cls f ∈ c.pool →
    ∀ F v r1, Option.value F p f c.reg = (.ok v, r1) →
      (∃ b r2, nodeParent (.value v) r1 = (.ok (some (.option b p cls f)), r2)) ∧
      ∀ v', v' = v ∨ ProperPart v v' → ∃ b r2, nodeFile (.value v') r1 = (.ok (some (.wrapped b .file ⟨p.file, []⟩)), r2)

theorem goodVal_opt {o r} : ∀ {v : OptVal}, GoodVal o r v → OptOK r v.opt := by
  intro v h
  cases v <;> unfold GoodVal at h <;> first | exact h | exact h.1

/-- What `NodeParent` of an option value hands to `wrap`. -/
def optVis : Option Ptr → Vis
  | some p => .at p
  | none => .nilOption

theorem option_unwrappable {o r v} (hi : Inv o r) (ho : OptOK r v) :
    r.wrapTarget (optVis v) = none ∧ (r.cache (optVis v) = none ∨ r.cache (optVis v) = some none) := by
  have ht : r.wrapTarget (optVis v) = none := by
    cases v with
    | none => rfl
    | some p =>
      obtain ⟨⟨n, c, hk⟩, _⟩ := ho
      rcases p with ⟨i, path⟩
      cases path with
      | nil => simp [Reg.kind, elem_none] at hk
      | cons j t => simp [optVis, Reg.wrapTarget, hk, wrapKind]
  refine ⟨ht, ?_⟩
  cases hc : r.cache (optVis v) with
  | none => exact .inl rfl
  | some x =>
    cases x with
    | none => exact .inr rfl
    | some n =>
      obtain ⟨_, _, _, _, _, h, _⟩ := hi.cacheSome _ _ hc
      rw [ht] at h
      cases h

theorem parent_value (v : OptVal) (r : Reg) : nodeParent (.value v) r = wrap (optVis v.opt) r := by
  unfold nodeParent optVis
  cases v.opt <;> rfl

/-- C78: `NodeParent` of an option value never gives a node: it panics or gives nil. It gives nil, forever, once it
    has been called on this value (or another value of the same option, or, for parts of values, on any part of any
    value). -/
theorem C78_value_parent {P c v} (hr : Reachable P c) (hn : Node.value v ∈ c.pool) :
    ((∃ r', nodeParent (.value v) c.reg = (.panic .unsupportedType, r')) ∨
      nodeParent (.value v) c.reg = (.ok none, c.reg)) ∧
    (∀ ops, ∀ v', v'.opt = v.opt →
      let c' := Client.exec ⟨(nodeParent (.value v) c.reg).2, c.pool⟩ ops
      nodeParent (.value v') c'.reg = (.ok none, c'.reg)) := by
  obtain ⟨o, hi, hg⟩ := reachable_inv hr
  have hv := goodVal_opt (hg _ hn)
  obtain ⟨ht, hc⟩ := option_unwrappable hi hv
  rw [parent_value]
  constructor
  · rcases hc with hc | hc
    · left
      unfold wrap
      simp only [hc, ht]
      exact ⟨_, rfl⟩
    · exact .inr (by unfold wrap; simp only [hc])
  · intro ops v' he
    have h2 : (wrap (optVis v.opt) c.reg).2.cache (optVis v.opt) = some none := by
      rcases hc with hc | hc
      · unfold wrap; simp only [hc, ht]; simp [upd]
      · unfold wrap; simp only [hc]
    have h3 := (exec_later ops ⟨_, c.pool⟩).cache _ _ h2
    intro c'
    rw [parent_value, he]
    unfold wrap
    simp only [c', h3]

/-- C78, the hierarchy: `NodeHierarchy` of an option value is cut short: it panics after the value, or, once the
    parent has been asked for, consists of the value alone; it never reaches the option. -/
theorem C78_value_hierarchy {P c v} (hr : Reachable P c) (hn : Node.value v ∈ c.pool) (fuel : Nat) :
    (∃ r', nodeHierarchy (fuel + 1) (some (.value v)) c.reg = (.panic .unsupportedType, r')) ∨
      nodeHierarchy (fuel + 1) (some (.value v)) c.reg = (.ok [.value v], c.reg) := by
  unfold nodeHierarchy
  simp only [M.bind_apply]
  rcases (C78_value_parent hr hn).1 with ⟨r', h⟩ | h
  · exact .inl ⟨r', by rw [h]⟩
  · right
    rw [h]
    unfold nodeHierarchy
    rfl

/-- A client that asked for the value of an option. -/
theorem value_client {P c a p cls f F v r1} (hr : Reachable P c) (hn : Node.option a p cls f ∈ c.pool)
    (hv : Option.value F p f c.reg = (.ok v, r1)) : Reachable P ⟨r1, c.pool ++ [.value v]⟩ := by
  obtain ⟨i, hi⟩ := List.mem_iff_getElem?.mp hn
  have hstep : Client.step c (.query i (.plain (.optionValue F))) = ⟨r1, c.pool ++ [.value v]⟩ := by
    unfold Client.step Op.run
    simp only [hi, Query.run, PlainQ.run, M.bind_apply, hv, M.pure_apply]
  rw [← hstep]
  exact reachable_exec hr [_] (by intro op h; simp only [List.mem_singleton] at h; subst h; trivial)

/-- C77, what holds: `NodeFile` of the value of an option is the file of the option, at once and after any further
    history. Missing: the parts of the value (see `C78_part_file`) and `NodeParent` (see `C78_value_parent`). -/
theorem C77_partial {c a p cls f F v r1} (hr : Reachable Positioned c) (hn : Node.option a p cls f ∈ c.pool)
    (hv : Option.value F p f c.reg = (.ok v, r1)) (ops : List Op) (hops : ∀ op ∈ ops, Op.Sat Positioned op) :
    ∃ b r', nodeFile (.value v) (Client.exec ⟨r1, c.pool ++ [.value v]⟩ ops).reg =
        (.ok (some (.wrapped b .file ⟨p.file, []⟩)), r') := by
  have ho := value_owned hv
  have hr2 := value_client hr hn hv
  have hr3 := reachable_exec hr2 ops hops
  obtain ⟨l, hl⟩ := exec_pool ops ⟨r1, c.pool ++ [.value v]⟩
  have hn3 : Node.option a p cls f ∈ (Client.exec ⟨r1, c.pool ++ [.value v]⟩ ops).pool := by
    rw [hl]; simp [hn]
  obtain ⟨o, hi3, hg⟩ := reachable_inv hr3
  obtain ⟨x, h1, _, h3⟩ := good_pos (hg _ hn3) (p := p) rfl
  obtain ⟨fl, hf, _, hx, _⟩ := positioned_pos (reachable_heapSat hr3) h1
  have h4 : nodePos (.value v) (Client.exec ⟨r1, c.pool ++ [.value v]⟩ ops).reg =
      nodePos (.option a p cls f) (Client.exec ⟨r1, c.pool ++ [.value v]⟩ ops).reg := by
    unfold nodePos
    rw [ho.opt]
  obtain ⟨b, _, r', h5, _⟩ := nodeFile_full hi3 (n := .value v) (h4.trans h3) hf hx
  exact ⟨b, r', h5⟩

/-- C78, the file of parts: `NodeFile` of the elements of an array value and of the values in a message value, at any
    depth, panics, always. -/
theorem C78_part_file {F p f r v r1} (hv : Option.value F p f r = (.ok v, r1)) :
    ∀ v', ProperPart v v' → ∀ r, nodeFile (.value v') r = (.panic .nilDeref, r) := by
  intro v' hp r
  unfold nodeFile nodePos
  simp only [((value_owned hv).part hp).opt, M.bind_apply, M.panic_apply]

/-- The array value of an option, in a form that can be computed. -/
def arrayOf : Res OptVal → Option (List OptVal)
  | .ok (.array _ vs) => some vs
  | _ => none

/-- The value of `(tags)` of field `b` in the example: an array of length two. -/
theorem tags_value : ∃ a o vs r1, Node.option a ⟨1, [0, 1, 5]⟩ ⟨0, [4]⟩ ⟨1, [1, 2]⟩ ∈ Ex.cO.pool ∧
    Option.value noFloats ⟨1, [0, 1, 5]⟩ ⟨1, [1, 2]⟩ Ex.cO.reg = (.ok (.array o vs), r1) ∧ vs.length = 2 := by
  obtain ⟨a, hm⟩ := hasOpt_spec (c := Ex.cO) (i := 13) (q := ⟨1, [0, 1, 5]⟩) (cls := ⟨0, [4]⟩) (f := ⟨1, [1, 2]⟩)
    (by decide +kernel)
  have h : ((arrayOf (Option.value noFloats ⟨1, [0, 1, 5]⟩ ⟨1, [1, 2]⟩ Ex.cO.reg).1).map List.length) = some 2 := by
    decide +kernel
  rcases hv : Option.value noFloats ⟨1, [0, 1, 5]⟩ ⟨1, [1, 2]⟩ Ex.cO.reg with ⟨res, r1⟩
  rw [hv] at h
  cases res with
  | ok v =>
    cases v <;> simp only [arrayOf, Option.map_none, reduceCtorEq, Option.map_some, Option.some.injEq] at h
    exact ⟨a, _, _, _, hm, rfl, h⟩
  | panic e => cases h
  | timeout => cases h

theorem cO_both : Reachable (fun p e => WFFile p e ∧ Positioned p e) Ex.cO := by
  have hW : Ex.WO.Sat (fun p e => WFFile p e ∧ Positioned p e) :=
    fun n p e h => ⟨Ex.WO_wf n p e h, WO_positioned n p e h⟩
  exact Ex.reachO hW _ (Ex.onlyO_sat hW Ex.opsO_only)

/-- C77 is false: no option value has its option as parent. -/
theorem C77_false : ¬ C77_statement := by
  intro h
  obtain ⟨a, o, vs, r1, hm, hv, _⟩ := tags_value
  obtain ⟨⟨b, r2, hp⟩, _⟩ := h _ cO_both _ _ _ _ hm _ _ _ hv
  rcases (C78_value_parent (value_client Ex.cO_wf hm hv) (v := .array o vs) (by simp)).1 with ⟨r', e⟩ | e
  · rw [hp] at e; cases e
  · rw [hp] at e; cases e

/-- Non-vacuity: the first call of `NodeParent` on the value of the example panics, the second gives nil; the elements
    of the value are proper parts of it, and `NodeFile` of the value gives the file `o.proto`. -/
example : ∃ v r1, Reachable WFFile ⟨r1, Ex.cO.pool ++ [.value v]⟩ ∧
    Ex.isOk (nodeParent (.value v) r1).1 = false ∧
    nodeParent (.value v) (nodeParent (.value v) r1).2 = (.ok none, (nodeParent (.value v) r1).2) ∧
    (∃ v', ProperPart v v') ∧ ∃ b r', nodeFile (.value v) r1 = (.ok (some (.wrapped b .file ⟨1, []⟩)), r') := by
  obtain ⟨a, o, vs, r1, hm, hv, hl⟩ := tags_value
  have hr := value_client Ex.cO_wf hm hv
  refine ⟨.array o vs, r1, hr, ?_, ?_, ?_, ?_⟩
  · have ho := (value_owned hv).opt
    have key : Ex.isOk (wrap (optVis (some ⟨1, [0, 1, 5]⟩))
        (Option.value noFloats ⟨1, [0, 1, 5]⟩ ⟨1, [1, 2]⟩ Ex.cO.reg).2).1 = false := by decide +kernel
    rw [hv] at key
    rw [parent_value, ho]
    exact key
  · exact (C78_value_parent hr (v := .array o vs) (by simp)).2 [] _ rfl
  · cases vs with
    | nil => cases hl
    | cons v vs => exact ⟨v, .elem rfl (by simp)⟩
  · exact C77_partial (Ex.reachO WO_positioned _ (Ex.onlyO_sat WO_positioned Ex.opsO_only)) hm hv []
      (by intro op h; cases h)

end Protoast.Props
