import Verif.Proof.Process
import Verif.Proof.Later
/-
  Registries in one process do not disturb each other: the induction over what the process does.
-/
namespace Protoast

/-! ### Every call only adds files and addresses -/

theorem proto_next (W : World) (fuel : Nat) (path : Str) (r : Reg) : r.next ≤ (proto W fuel path r).2.next := by
  rcases proto_cases W path r with ⟨i, hi, h⟩ | ⟨hnone, e, h⟩ | ⟨hnone, name, elems, hloc, hload, h⟩
  · rw [h]; exact Nat.le_succ _
  · rw [h]; exact Nat.le_refl _
  · rw [h]
    have hx := (LExt.addFile (elems := elems) hnone).trans
      (runActs_lext (imp := visitImport W fuel) (fileActs (.at ⟨r.heap.length, []⟩) r.heap.length elems)
        (fun f _ r => visitImport_lext W fuel f r) _)
    unfold protoNew
    rcases hr : runActs (visitImport W fuel) (fileActs (.at ⟨r.heap.length, []⟩) r.heap.length elems)
      (addFile r path elems) with ⟨res, r'⟩
    rw [hr] at hx
    have := hx.next
    cases res with
    | ok u => simp only at this ⊢; omega
    | panic e => simp only at this ⊢; omega
    | timeout => simp only at this ⊢; omega

theorem opRun_grown (pool : List Node) (op : Op) (r : Reg) : Grown r (op.run pool r).2 := by
  refine ⟨(opRun_later pool op r).heap, ?_⟩
  cases op with
  | proto W fuel path =>
    have := proto_next W fuel path r
    simp only [Op.run, M.bind_apply]
    rcases hr : proto W fuel path r with ⟨res, r'⟩
    rw [hr] at this
    cases res with
    | ok x => cases x <;> exact this
    | panic p => exact this
    | timeout => exact this
  | byName name =>
    have := ((RO.nodeByFullName name).ext r).next
    simp only [Op.run, M.bind_apply]
    rcases hr : nodeByFullName name r with ⟨res, r'⟩
    rw [hr] at this
    cases res <;> exact this
  | query h q =>
    simp only [Op.run]
    cases hp : pool[h]? with
    | none => exact Nat.le_refl _
    | some n => exact ((RO.queryRun q n).ext r).next

theorem demarkFile_lext (W : World) (fuel : Nat) (path : Str) {r : Reg} (hnone : r.protos path = none) :
    LExt r (demarkFile W fuel path r).2 := by
  unfold demarkFile
  simp only [M.bind_apply]
  have hx := protoFile_lext W path r
  rcases protoFile_cases W path r with ⟨i, hi, h⟩ | ⟨_, e, h⟩ | ⟨hn, nm, elems, _, _, h⟩
  · rw [hnone] at hi; cases hi
  · rw [h]; exact LExt.refl r
  · rw [h] at hx ⊢
    simp only at hx ⊢
    have := acceptFile_lext W fuel (.at ⟨r.heap.length, []⟩) (i := r.heap.length) (f := ⟨path, elems⟩)
      (r := addFile r path elems) (by simp [addFile])
    simp only [M.bind_apply]
    rcases hr : acceptFile (visitImport W fuel) (.at ⟨r.heap.length, []⟩) r.heap.length (addFile r path elems) with ⟨res, r'⟩
    rw [hr] at this
    have hx := hx.trans this
    cases res <;> exact hx

theorem setUp_lext (W : World) (fuel : Nat) {r : Reg} (hnone : ∀ path, r.protos path = none) :
    LExt r (setUp W fuel r).2 := by
  have := demarkFile_lext W fuel descriptorPath (hnone _)
  unfold setUp
  simp only [M.bind_apply]
  rcases hr : demarkFile W fuel descriptorPath r with ⟨res, r'⟩
  rw [hr] at this
  cases res with
  | ok x => cases x <;> exact this
  | panic p => exact this
  | timeout => exact this

theorem setUp_grown (W : World) (fuel : Nat) (p : Process) :
    Grown (p.seen Tables.empty) (setUp W fuel (p.seen Tables.empty)).2 :=
  have h := setUp_lext W fuel (r := p.seen Tables.empty) (fun _ => rfl)
  ⟨h.heap, Nat.le_of_eq h.next.symm⟩

/-- What registry `i` sees after something was done with registry `j`. -/
theorem put_view_ne {p : Process} {i j : Nat} {r : Reg} {pool} (h : i ≠ j) :
    (p.put j r pool).view i = { p.view i with heap := r.heap, next := r.next } := by
  simp only [Process.put, Process.view, Process.seen, if_neg h]

theorem put_view_self {p : Process} {i : Nat} {r : Reg} {pool} : (p.put i r pool).view i = r := by
  simp only [Process.put, Process.view, Process.seen, if_true, Reg.tables]

theorem put_pool_ne {p : Process} {i j : Nat} {r : Reg} {pool} (h : i ≠ j) : (p.put j r pool).pools i = p.pools i := by
  simp only [Process.put, if_neg h]

theorem put_pool_self {p : Process} {i : Nat} {r : Reg} {pool} : (p.put i r pool).pools i = pool := by
  simp only [Process.put, if_true]

/-! ### The start -/

/-- The renaming of a registry created in a process with `n` files and `m` addresses in use. -/
def Ren.start (n m : Nat) : Ren where
  file k := n + k
  addr a := m + a
  full := True
  inj := by intro i j h; omega
  ainj := by intro i j h; omega

theorem Sim.start (p : Process) : Sim (Ren.start p.heap.length p.next) Reg.empty (p.seen Tables.empty) := by
  constructor
  · intro i
    show p.heap[p.heap.length + i]? = ([] : List ProtoFile)[i]?
    simp
  · intro k
    show p.heap.length + (0 + k) = p.heap.length + k
    omega
  · intro path; rfl
  · intro name; rfl
  · intro name p h; cases h
  · intro p _; rfl
  · intro v; rfl
  · intro v n h; cases h
  · intro a; rfl
  · intro a n h; cases h
  · intro k
    show p.next + (0 + k) = p.next + k
    omega
  · intro _ v; rfl

theorem setUp_eqv {s : Ren} (W : World) (fuel : Nat) : EqvEq s (setUp W fuel) (setUp W fuel) := by
  refine Eqv.bind (demarkFile_eqv W fuel descriptorPath) ?_
  rintro a b rfl
  cases a
  · exact Eqv.pure rfl
  · exact Eqv.pure rfl

/-! ### The induction -/

/-- The registry of a process and the registry used alone, by the renaming `s`. -/
structure ApartBy (s : Ren) (o : Ghost) (c : Client) (p : Process) (i : Nat) : Prop where
  full : s.full
  inv : Inv o c.reg
  good : GoodL o c.reg c.pool
  sim : SimC s c (p.client i)

/-- The registry of a process and the registry used alone. -/
def Apart (c : Client) (p : Process) (i : Nat) : Prop := ∃ (s : Ren) (o : Ghost), ApartBy s o c p i

/-- Another registry was used. -/
theorem ApartBy.other {s o} {c : Client} {p : Process} {i j : Nat} (h : ApartBy s o c p i) (hij : i ≠ j) {r : Reg} {pool}
    (hl : ∃ l, r.heap = p.heap ++ l) (hn : p.next ≤ r.next) :
    ∃ s', ApartBy s' o c (p.put j r pool) i ∧ ∀ a, a < c.reg.next → s'.addr a = s.addr a := by
  obtain ⟨hf, hi, hg, ⟨hs, hp⟩⟩ := h
  obtain ⟨l, hl⟩ := hl
  have hs' := Sim.shift hs hi hf l (r.next - p.next)
  refine ⟨s.shift c.reg (p.view i) l.length (r.next - p.next) hs, ⟨hf, hi, hg, ⟨?_, ?_⟩⟩, fun a ha => shift_addr ha⟩
  · show Sim _ _ ((p.put j r pool).view i)
    have e : p.next + (r.next - p.next) = r.next := by omega
    have hv : (p.put j r pool).view i = { p.view i with heap := p.heap ++ l, next := p.next + (r.next - p.next) } := by
      rw [put_view_ne hij, hl, e]
    rw [hv]
    exact hs'
  · show _ ∧ _
    rw [show ((p.put j r pool).client i).pool = p.pools i from put_pool_ne (r := r) hij]
    refine ⟨?_, hp.2⟩
    have := hp.1
    rw [show (p.client i).pool = p.pools i from rfl] at this
    rw [this]
    exact List.map_congr_left fun n hn => (shift_node (hs := hs) hi n (hg n hn)).symm

theorem step_next (c : Client) (op : Op) : c.reg.next ≤ (c.step op).reg.next := by
  have := (opRun_grown c.pool op c.reg).next
  unfold Client.step
  rcases hr : op.run c.pool c.reg with ⟨res, r'⟩
  rw [hr] at this
  cases res <;> exact this

theorem pstep_next (p : Process) (a : Action) : p.next ≤ (p.step a).next := by
  cases a with
  | create j W fuel => exact (setUp_grown W fuel p).next
  | call j k op =>
    have hg := (opRun_grown (p.pools k) op (p.view j)).next
    simp only [Process.step]
    rcases hr : op.run (p.pools k) (p.view j) with ⟨res, r⟩
    rw [hr] at hg
    cases res <;> exact hg

/-- Addresses handed out by registry `i` are known to it and below the next address of the process. -/
theorem ApartBy.addr_lt {s o c p i} (h : ApartBy s o c p i) {a : Nat} (ha : a < c.reg.next) : s.addr a < p.next := by
  have hs := h.sim.reg
  rcases Nat.lt_or_ge (s.addr a) p.next with h' | h'
  · exact h'
  · have := hs.next (s.addr a - (p.view i).next)
    have e : (p.client i).reg.next = p.next := rfl
    rw [e, show (p.view i).next = p.next from rfl, Nat.add_sub_cancel' h'] at this
    have := s.ainj _ _ this
    omega

theorem ApartBy.step {s o} {c : Client} {p : Process} {i : Nat} (h : ApartBy s o c p i) (a : Action)
    (ha : a.OwnHandles i) : ∃ s' o', ApartBy s' o' (c.exec (callsOn i [a])) (p.step a) i ∧
      (∀ b, b < c.reg.next → s'.addr b = s.addr b) ∧
      (∀ b, c.reg.next ≤ b → b < (c.exec (callsOn i [a])).reg.next → p.next ≤ s'.addr b ∧ ∃ k op, a = .call i k op) := by
  cases a with
  | create j W fuel =>
    have hij : i ≠ j := fun e => ha e.symm
    have hg := setUp_grown W fuel p
    obtain ⟨s', h1, h2⟩ := h.other hij hg.heap hg.next (pool := [])
    exact ⟨s', o, h1, h2, fun b h1 h2 => absurd h2 (by simp only [callsOn, Client.exec, List.foldl_nil]; omega)⟩
  | call j k op =>
    by_cases hij : j = i
    · have hk := ha hij
      subst hij hk
      simp only [callsOn, if_true, Client.exec, List.foldl_cons, List.foldl_nil]
      obtain ⟨hf, hi, hg, hc⟩ := h
      obtain ⟨o', -, hi', hg'⟩ := step_inv hi hg op
      have hc' := hc.step op
      refine ⟨s, o', ⟨hf, hi', hg', ?_⟩, fun _ _ => rfl, fun b h1 h2 => ⟨?_, _, _, rfl⟩⟩
      · have : (p.step (.call k k op)).client k = (p.client k).step op := by
          simp only [Process.step, Client.step, Process.client]
          rcases op.run (p.pools k) (p.view k) with ⟨res, r⟩
          cases res <;> simp only [put_view_self, put_pool_self]
        rw [this]
        exact hc'
      · have := hc.reg.next (b - c.reg.next)
        rw [Nat.add_sub_cancel' h1] at this
        rw [this]
        exact Nat.le_add_right _ _
    · have hne : i ≠ j := fun e => hij e.symm
      simp only [callsOn, if_neg hij, Client.exec, List.foldl_nil]
      have hg := opRun_grown (p.pools k) op (p.view j)
      simp only [Process.step]
      rcases hr : op.run (p.pools k) (p.view j) with ⟨res, r⟩
      rw [hr] at hg
      cases res <;>
        (obtain ⟨s', h1, h2⟩ := h.other hne hg.heap hg.next (pool := _)
         exact ⟨s', o, h1, h2, fun b h1 h2 => absurd h2 (by omega)⟩)

theorem callsOn_cons (i : Nat) (a : Action) (as : List Action) :
    callsOn i (a :: as) = callsOn i [a] ++ callsOn i as := by
  cases a with
  | create j W fuel => rfl
  | call j k op =>
    by_cases h : j = i <;> simp [callsOn, h]

theorem Apart.exec {i : Nat} : ∀ (as : List Action) {c : Client} {p : Process}, Apart c p i →
    (∀ a ∈ as, a.OwnHandles i) → Apart (c.exec (callsOn i as)) (p.exec as) i := by
  intro as
  induction as with
  | nil => intro c p h _; exact h
  | cons a as ih =>
    intro c p h ha
    rw [callsOn_cons, exec_append]
    obtain ⟨s, o, h⟩ := h
    obtain ⟨s', o', h', -⟩ := h.step a (ha a (by simp))
    exact ih ⟨s', o', h'⟩ (fun b hb => ha b (by simp [hb]))

theorem Apart.create {p : Process} {i : Nat} {W : World} {fuel : Nat} {res r0} (h : newRegistry W fuel = (res, r0)) :
    Apart ⟨r0, []⟩ (p.step (.create i W fuel)) i := by
  obtain ⟨o, hi⟩ := newRegistry_inv h
  have he := (setUp_eqv W fuel _ _ (Sim.start p)).2
  have : (setUp W fuel Reg.empty).2 = r0 := congrArg Prod.snd h
  rw [this] at he
  refine ⟨Ren.start p.heap.length p.next, o, trivial, hi, (by intro n hn; cases hn), ⟨?_, ?_⟩⟩
  · show Sim _ _ (Process.view _ i)
    simp only [Process.step, put_view_self]
    exact he
  · simp only [Process.step, Process.client, put_pool_self]
    exact ⟨rfl, fun n hn => by cases hn⟩

/-! ### Two registries hand out different addresses -/

/-- Two registries of a process, and their addresses. -/
structure Two (c1 c2 : Client) (p : Process) (i j : Nat) (s1 s2 : Ren) (o1 o2 : Ghost) : Prop where
  first : ApartBy s1 o1 c1 p i
  second : ApartBy s2 o2 c2 p j
  differ : ∀ a b, a < c1.reg.next → b < c2.reg.next → s1.addr a ≠ s2.addr b

theorem Two.step {c1 c2 p i j s1 s2 o1 o2} (h : Two c1 c2 p i j s1 s2 o1 o2) (hij : i ≠ j) (a : Action)
    (hi : a.OwnHandles i) (hj : a.OwnHandles j) : ∃ s1' s2' o1' o2',
    Two (c1.exec (callsOn i [a])) (c2.exec (callsOn j [a])) (p.step a) i j s1' s2' o1' o2' := by
  obtain ⟨s1', o1', h1, e1, n1⟩ := h.first.step a hi
  obtain ⟨s2', o2', h2, e2, n2⟩ := h.second.step a hj
  refine ⟨s1', s2', o1', o2', h1, h2, ?_⟩
  intro x y hx hy
  by_cases hx' : x < c1.reg.next
  · rw [e1 x hx']
    by_cases hy' : y < c2.reg.next
    · rw [e2 y hy']; exact h.differ x y hx' hy'
    · have := (n2 y (Nat.le_of_not_lt hy') hy).1
      have := h.first.addr_lt hx'
      omega
  · obtain ⟨m1, k, op, rfl⟩ := n1 x (Nat.le_of_not_lt hx') hx
    by_cases hy' : y < c2.reg.next
    · rw [e2 y hy']
      have := h.second.addr_lt hy'
      omega
    · obtain ⟨-, k', op', e⟩ := n2 y (Nat.le_of_not_lt hy') hy
      cases e
      exact (hij rfl).elim

theorem Two.exec {i j : Nat} (hij : i ≠ j) : ∀ (as : List Action) {c1 c2 p s1 s2 o1 o2}, Two c1 c2 p i j s1 s2 o1 o2 →
    (∀ a ∈ as, a.OwnHandles i ∧ a.OwnHandles j) →
    ∃ s1' s2' o1' o2', Two (c1.exec (callsOn i as)) (c2.exec (callsOn j as)) (p.exec as) i j s1' s2' o1' o2' := by
  intro as
  induction as with
  | nil => intro c1 c2 p s1 s2 o1 o2 h _; exact ⟨_, _, _, _, h⟩
  | cons a as ih =>
    intro c1 c2 p s1 s2 o1 o2 h ha
    rw [callsOn_cons i, callsOn_cons j, exec_append, exec_append]
    obtain ⟨_, _, _, _, h'⟩ := h.step hij a (ha a (by simp)).1 (ha a (by simp)).2
    exact ih h' (fun b hb => ha b (by simp [hb]))

theorem setUp_next {W : World} {fuel : Nat} {res r0} (h : newRegistry W fuel = (res, r0)) : r0.next = 0 := by
  have := (setUp_lext W fuel (r := Reg.empty) (fun _ => rfl)).next
  have e : (setUp W fuel Reg.empty).2 = r0 := congrArg Prod.snd h
  rw [e] at this
  exact this

theorem Two.create {c1 : Client} {p : Process} {i j : Nat} (hij : i ≠ j) (h : Apart c1 p i) {W : World} {fuel : Nat} {res r0}
    (h0 : newRegistry W fuel = (res, r0)) :
    ∃ s1 s2 o1 o2, Two c1 ⟨r0, []⟩ (p.step (.create j W fuel)) i j s1 s2 o1 o2 := by
  obtain ⟨s, o, h⟩ := h
  obtain ⟨s', o', h', -⟩ := h.step (.create j W fuel) (fun e => hij e.symm)
  obtain ⟨s2, o2, h2⟩ := Apart.create (p := p) (i := j) h0
  refine ⟨s', s2, o', o2, h', h2, ?_⟩
  intro a b _ hb
  have := setUp_next h0
  simp only [this] at hb
  omega

/-- The address of a handle. -/
def Node.address : Node → Option Nat
  | .wrapped a _ _ => some a
  | .option a _ _ _ => some a
  | .oneof a _ => some a
  | .map a _ => some a
  | .repeated a _ => some a
  | _ => none

theorem ApartBy.address {s o c p i} (h : ApartBy s o c p i) {n : Node} (hn : n ∈ p.pools i) {x : Nat}
    (hx : n.address = some x) : ∃ a, a < c.reg.next ∧ x = s.addr a := by
  have hp := h.sim.pool.1
  rw [show (p.client i).pool = p.pools i from rfl] at hp
  rw [hp] at hn
  obtain ⟨m, hm, rfl⟩ := List.mem_map.mp hn
  have hg := h.good m hm
  have hi := h.inv
  cases m with
  | wrapped a k q => simp only [Ren.node, Node.address, Option.some.injEq] at hx; exact ⟨a, hi.fresh _ _ hg.owner, hx.symm⟩
  | option a q c f => simp only [Ren.node, Node.address, Option.some.injEq] at hx; exact ⟨a, hi.fresh _ _ hg.1, hx.symm⟩
  | oneof a q => simp only [Ren.node, Node.address, Option.some.injEq] at hx; exact ⟨a, hi.fresh _ _ hg.1, hx.symm⟩
  | map a q => simp only [Ren.node, Node.address, Option.some.injEq] at hx; exact ⟨a, hi.fresh _ _ hg.1, hx.symm⟩
  | repeated a t =>
    cases t with
    | none =>
      simp only [Ren.node, Node.address, Option.some.injEq] at hx
      exact ⟨a, hi.fresh _ _ (show o a = some _ from hg), hx.symm⟩
    | some t => simp only [Ren.node, Node.address, Option.some.injEq] at hx; exact ⟨a, hi.fresh _ _ hg.1, hx.symm⟩
  | builtin b => cases hx
  | value v => cases hx
  | mapItem k v => cases hx

/-! ### Whose handles they are -/

theorem ApartBy.loaded {s o c p i} (h : ApartBy s o c p i) {x : Nat} (hx : x < c.reg.heap.length) :
    LoadedBy p i (s.file x) := by
  have := h.inv.heapProtos x _ (List.getElem?_eq_getElem hx)
  refine ⟨c.reg.heap[x].filename, ?_⟩
  have e := h.sim.reg.protos c.reg.heap[x].filename
  rw [this] at e
  exact e

theorem ApartBy.optBelongs {s o c p i} (h : ApartBy s o c p i) {q : Option Ptr} (g : OptOK c.reg q) (x : Ptr)
    (hx : q.map s.ptr = some x) : LoadedBy p i x.file := by
  cases q with
  | none => cases hx
  | some y =>
    simp only [Option.map_some, Option.some.injEq] at hx
    subst hx
    exact h.loaded g.2.file

mutual
theorem ApartBy.valBelongs {s o c p i} (h : ApartBy s o c p i) : (v : OptVal) → GoodVal o c.reg v →
    ValueBelongs p i (s.val v)
  | .bool q _ _, g => h.optBelongs (show OptOK c.reg q from g)
  | .int q _ _, g => h.optBelongs (show OptOK c.reg q from g)
  | .uint q _ _, g => h.optBelongs (show OptOK c.reg q from g)
  | .float q _ _, g => h.optBelongs (show OptOK c.reg q from g)
  | .string q _ _, g => h.optBelongs (show OptOK c.reg q from g)
  | .bytes q _ _, g => h.optBelongs (show OptOK c.reg q from g)
  | .enum _ _ _ _, g => ⟨h.optBelongs g.1, h.loaded g.2.rooted.file⟩
  | .array _ vs, g => ⟨h.optBelongs g.1, h.valsBelong vs g.2⟩
  | .map _ _ vs, g => ⟨h.optBelongs g.1, h.itemsBelong vs g.2⟩
theorem ApartBy.valsBelong {s o c p i} (h : ApartBy s o c p i) : (vs : List OptVal) → GoodVals o c.reg vs →
    ValuesBelong p i (s.vals vs)
  | [], _ => trivial
  | v :: vs, g => ⟨h.valBelongs v g.1, h.valsBelong vs g.2⟩
theorem ApartBy.itemsBelong {s o c p i} (h : ApartBy s o c p i) : (vs : List (Str × OptVal)) → GoodItems o c.reg vs →
    ItemsBelong p i (s.items vs)
  | [], _ => trivial
  | v :: vs, g => ⟨h.itemBelongs v g.1, h.itemsBelong vs g.2⟩
theorem ApartBy.itemBelongs {s o c p i} (h : ApartBy s o c p i) : (v : Str × OptVal) → GoodItem o c.reg v →
    ItemBelongs p i (s.item v)
  | (_, v), g => h.valBelongs v g
end

theorem ApartBy.belongs {s o c p i} (h : ApartBy s o c p i) : (n : Node) → Good o c.reg n → BelongsTo p i (s.node n)
  | .wrapped a k q, g => h.loaded g.rooted.file
  | .option a q c f, g => by
    obtain ⟨h1, h2, ⟨_, _, h3⟩, -, h4⟩ := g
    exact ⟨h.loaded h2.2.file, h.loaded (kind_file h3), h.loaded h4.file⟩
  | .oneof a q, g => h.loaded g.2.2.file
  | .map a q, g => by
    obtain ⟨h1, _, _, _, _, h2⟩ := g
    exact h.loaded (kind_file h2)
  | .repeated a none, g => trivial
  | .repeated a (some t), g => h.belongs t g.2.2
  | .builtin _, _ => trivial
  | .value v, g => h.valBelongs v g
  | .mapItem _ v, g => h.valBelongs v g

end Protoast
