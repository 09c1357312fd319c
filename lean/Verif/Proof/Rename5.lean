import Verif.Spec.Answer
import Verif.Proof.Rename4
import Verif.Proof.NamesInv
import Verif.Proof.InvQuery
/-
  Registries that loaded the same files correspond through a renaming; corresponding clients hold the same
  handles.
-/
namespace Protoast

/-! ### Loading leaves the wrapper caches alone -/

theorem proto_caches (W : World) (fuel : Nat) (path : Str) (r : Reg) :
    (proto W fuel path r).2.cache = r.cache ∧ (proto W fuel path r).2.ftcache = r.ftcache := by
  rcases proto_cases W path r with ⟨i, hi, h⟩ | ⟨hnone, e, h⟩ | ⟨hnone, name, elems, hloc, hload, h⟩
  · rw [h]; exact ⟨rfl, rfl⟩
  · rw [h]; exact ⟨rfl, rfl⟩
  · rw [h]
    have hl := (LExt.addFile (elems := elems) hnone).trans (runActs_lext (imp := visitImport W fuel)
      (fileActs (.at ⟨r.heap.length, []⟩) r.heap.length elems)
      (fun f _ r => visitImport_lext W fuel f r) (addFile r path elems))
    unfold protoNew
    generalize runActs (visitImport W fuel) (fileActs (.at ⟨r.heap.length, []⟩) r.heap.length elems)
      (addFile r path elems) = x at hl
    rcases x with ⟨res, r'⟩
    cases res <;> exact ⟨hl.cache, hl.ftcache⟩

theorem opProto_reg (W : World) (fuel : Nat) (path : Str) (c : Client) :
    (c.step (.proto W fuel path)).reg = (proto W fuel path c.reg).2 := by
  rw [step_reg]
  simp only [Op.run, M.bind_apply]
  rcases proto W fuel path c.reg with ⟨res, r'⟩
  cases res with
  | ok x => cases x <;> rfl
  | panic e => rfl
  | timeout => rfl

theorem loads_caches : ∀ (ops : List Op) (c : Client), (∀ op ∈ ops, ∃ W fuel path, op = .proto W fuel path) →
    (c.exec ops).reg.cache = c.reg.cache ∧ (c.exec ops).reg.ftcache = c.reg.ftcache := by
  intro ops
  induction ops with
  | nil => intro c _; exact ⟨rfl, rfl⟩
  | cons op ops ih =>
    intro c h
    obtain ⟨W, fuel, path, rfl⟩ := h op (by simp)
    have h1 := ih (c.step (.proto W fuel path)) (fun o ho => h o (List.mem_cons_of_mem _ ho))
    rw [opProto_reg] at h1
    have h2 := proto_caches W fuel path c.reg
    exact ⟨h1.1.trans h2.1, h1.2.trans h2.2⟩

theorem newRegistry_caches {W fuel r} (h : newRegistry W fuel = (.ok (.ok ()), r)) :
    r.cache = Reg.empty.cache ∧ r.ftcache = Reg.empty.ftcache := by
  obtain ⟨name, elems, -, -, hr⟩ := newRegistry_ok h
  have hl := (LExt.addFile (r := Reg.empty) (path := descriptorPath) (elems := elems) rfl).trans
    (runActs_lext (imp := visitImport W fuel) (fileActs (.at ⟨0, []⟩) 0 elems)
      (fun f _ r => visitImport_lext W fuel f r) (addFile Reg.empty descriptorPath elems))
  rw [hr] at hl
  exact ⟨hl.cache, hl.ftcache⟩

/-- What is used of a registry in which nothing was done but loading files. -/
structure Loaded (r : Reg) : Prop where
  clean : ∃ pool, CleanReachable WFFile ⟨r, pool⟩
  cache : ∀ v, r.cache v = none
  ftcache : ∀ a, r.ftcache a = none

theorem OnlyLoads.loaded {r} (h : OnlyLoads WFFile r) : Loaded r := by
  obtain ⟨W, fuel, r0, ops, hW, hn, hops, hl, rfl⟩ := h
  have h1 := loads_caches ops ⟨r0, []⟩ (fun op ho => (hops op ho).2)
  have h2 := newRegistry_caches hn
  exact ⟨⟨_, W, fuel, r0, ops, hW, hn, fun op ho => (hops op ho).1, hl, rfl⟩,
    fun v => by rw [h1.1]; show r0.cache v = none; rw [h2.1]; rfl,
    fun v => by rw [h1.2]; show r0.ftcache v = none; rw [h2.2]; rfl⟩

theorem Loaded.inv {r} (h : Loaded r) : ∃ o, Inv o r := by
  obtain ⟨pool, hc⟩ := h.clean
  obtain ⟨o, hi, -⟩ := reachable_inv (clean_reachable hc)
  exact ⟨o, hi⟩

theorem Loaded.sound {r} (h : Loaded r) : Sound r := by
  obtain ⟨pool, hc⟩ := h.clean
  exact reachable_sound (clean_reachable hc)

theorem Loaded.complete {r} (h : Loaded r) {i f} (hf : r.heap[i]? = some f) : FileDone r i f := by
  obtain ⟨pool, hc⟩ := h.clean
  exact clean_complete hc i f (Nat.zero_le _) hf

/-! ### The same files -/

theorem SameFiles.symm {r1 r2} (h : SameFiles r1 r2) : SameFiles r2 r1 := fun p e => (h p e).symm

/-- A file of one registry is in the other one. -/
theorem same_file {r1 r2 : Reg} (h1 : Loaded r1) (h2 : Loaded r2) (hs : SameFiles r1 r2) {i : Nat} {f : ProtoFile}
    (hf : r1.heap[i]? = some f) : ∃ j, r2.protos f.filename = some j ∧ r2.heap[j]? = some f := by
  obtain ⟨o1, hi1⟩ := h1.inv
  obtain ⟨o2, hi2⟩ := h2.inv
  obtain ⟨j, g, hp, hg, he⟩ := (hs f.filename f.elems).mp ⟨i, f, hi1.heapProtos _ _ hf, hf, rfl⟩
  obtain ⟨g', hg', hn⟩ := hi2.protosHeap _ _ hp
  rw [hg] at hg'
  cases hg'
  refine ⟨j, hp, ?_⟩
  rw [hg]
  cases f; cases g; simp_all

theorem heap_nodup {r : Reg} (h : Loaded r) : r.heap.Nodup := by
  obtain ⟨o, hi⟩ := h.inv
  rw [List.nodup_iff_pairwise_ne, List.pairwise_iff_getElem]
  intro i j hi' hj hlt e
  have h1 := hi.heapProtos i r.heap[i] (List.getElem?_eq_getElem hi')
  have h2 := hi.heapProtos j r.heap[j] (List.getElem?_eq_getElem hj)
  rw [e] at h1
  have := h1.symm.trans h2
  cases this
  exact Nat.lt_irrefl _ hlt

theorem same_length {r1 r2 : Reg} (h1 : Loaded r1) (h2 : Loaded r2) (hs : SameFiles r1 r2) :
    r2.heap.length = r1.heap.length := by
  refine ((List.perm_ext_iff_of_nodup (heap_nodup h2) (heap_nodup h1)).mpr ?_).length_eq
  intro f
  constructor
  · intro hf
    obtain ⟨i, hi⟩ := List.getElem?_of_mem hf
    obtain ⟨j, -, hj⟩ := same_file h2 h1 hs.symm hi
    exact List.mem_of_getElem? hj
  · intro hf
    obtain ⟨i, hi⟩ := List.getElem?_of_mem hf
    obtain ⟨j, -, hj⟩ := same_file h1 h2 hs hi
    exact List.mem_of_getElem? hj

theorem same_declared {r1 r2 : Reg} (h1 : Loaded r1) (h2 : Loaded r2) (hs : SameFiles r1 r2) (hu : UniqueNames r1) :
    UniqueNames r2 := by
  rintro name p q ⟨f, hf, hfn⟩ ⟨g, hg, hgn⟩
  obtain ⟨i, hpi, hi⟩ := same_file h2 h1 hs.symm hf
  obtain ⟨j, hpj, hj⟩ := same_file h2 h1 hs.symm hg
  have h := hu name ⟨i, p.path⟩ ⟨j, q.path⟩ ⟨f, hi, hfn⟩ ⟨g, hj, hgn⟩
  simp only [Ptr.mk.injEq] at h
  obtain ⟨rfl, hpath⟩ := h
  rw [hi] at hj
  cases hj
  obtain ⟨o2, hi2⟩ := h2.inv
  have := (hi2.heapProtos _ _ hf).symm.trans (hi2.heapProtos _ _ hg)
  cases p; cases q
  simp_all

/-- Where the files of the first registry are in the second. -/
def place (r1 r2 : Reg) (i : Nat) : Nat :=
  match r1.heap[i]? with
  | some f => (r2.protos f.filename).getD i
  | none => i

theorem place_some {r1 r2 : Reg} (h1 : Loaded r1) (h2 : Loaded r2) (hs : SameFiles r1 r2) {i : Nat} {f : ProtoFile}
    (hf : r1.heap[i]? = some f) : r2.protos f.filename = some (place r1 r2 i) ∧ r2.heap[place r1 r2 i]? = some f := by
  obtain ⟨j, hp, hj⟩ := same_file h1 h2 hs hf
  have : place r1 r2 i = j := by simp [place, hf, hp]
  rw [this]
  exact ⟨hp, hj⟩

theorem place_new {r1 r2 : Reg} {i : Nat} (h : r1.heap.length ≤ i) : place r1 r2 i = i := by
  simp [place, List.getElem?_eq_none h]

theorem place_inj {r1 r2 : Reg} (h1 : Loaded r1) (h2 : Loaded r2) (hs : SameFiles r1 r2) (i j : Nat)
    (h : place r1 r2 i = place r1 r2 j) : i = j := by
  have hlen := same_length h1 h2 hs
  obtain ⟨o1, hi1⟩ := h1.inv
  by_cases hi : i < r1.heap.length <;> by_cases hj : j < r1.heap.length
  · have e1 := List.getElem?_eq_getElem hi
    have e2 := List.getElem?_eq_getElem hj
    obtain ⟨-, p1⟩ := place_some h1 h2 hs e1
    obtain ⟨-, p2⟩ := place_some h1 h2 hs e2
    rw [h, p2] at p1
    have p1 := Option.some.inj p1
    have q1 := hi1.heapProtos _ _ e1
    have q2 := hi1.heapProtos _ _ e2
    rw [← p1, q2] at q1
    cases q1; rfl
  · have e1 := List.getElem?_eq_getElem hi
    obtain ⟨-, p1⟩ := place_some h1 h2 hs e1
    have := (List.getElem?_eq_some_iff.mp p1).1
    rw [h, place_new (Nat.le_of_not_lt hj)] at this
    omega
  · have e1 := List.getElem?_eq_getElem hj
    obtain ⟨-, p1⟩ := place_some h1 h2 hs e1
    have := (List.getElem?_eq_some_iff.mp p1).1
    rw [← h, place_new (Nat.le_of_not_lt hi)] at this
    omega
  · rw [place_new (Nat.le_of_not_lt hi), place_new (Nat.le_of_not_lt hj)] at h
    exact h

/-- The renaming. -/
def placeRen {r1 r2 : Reg} (h1 : Loaded r1) (h2 : Loaded r2) (hs : SameFiles r1 r2) : Ren where
  file := place r1 r2
  addr a := a + (r2.next - r1.next)
  inj := place_inj h1 h2 hs
  ainj _ _ := Nat.add_right_cancel
  full := False

theorem same_scope {r1 r2 : Reg} (h1 : Loaded r1) (h2 : Loaded r2) {i j : Nat} {f : ProtoFile}
    (hi : r1.heap[i]? = some f) (hj : r2.heap[j]? = some f) {l : List Nat} {sc : Str}
    (h : r1.scopes (.at ⟨i, l⟩) = some sc) (hl : l ≠ []) : r2.scopes (.at ⟨j, l⟩) = some sc := by
  obtain ⟨f', hf', hn⟩ := h1.sound.scopes _ _ h hl
  rw [hi] at hf'; cases hf'
  obtain ⟨f', e, hf', he, hk⟩ := h1.sound.holders _ _ h hl
  rw [hi] at hf'; cases hf'
  have := (h2.complete hj).scopes _ _ hn (by
    intro e' he' n v hkk
    rw [he] at he'
    cases he'
    rw [hkk] at hk
    cases hk)
  obtain ⟨sc', hsc'⟩ := Option.isSome_iff_exists.mp this
  obtain ⟨f', hf', hn'⟩ := h2.sound.scopes _ _ hsc' hl
  rw [hj] at hf'; cases hf'
  rw [hn] at hn'
  cases hn'
  exact hsc'

theorem place_sim {r1 r2 : Reg} (h1 : Loaded r1) (h2 : Loaded r2) (hs : SameFiles r1 r2) (hu : UniqueNames r1)
    (hn : r1.next ≤ r2.next) : Sim (placeRen h1 h2 hs) r1 r2 := by
  obtain ⟨o1, hi1⟩ := h1.inv
  obtain ⟨o2, hi2⟩ := h2.inv
  have hlen := same_length h1 h2 hs
  have hheap : ∀ i, r2.heap[place r1 r2 i]? = r1.heap[i]? := by
    intro i
    by_cases hi : i < r1.heap.length
    · have e := List.getElem?_eq_getElem hi
      rw [e]
      exact (place_some h1 h2 hs e).2
    · rw [place_new (Nat.le_of_not_lt hi), List.getElem?_eq_none (Nat.le_of_not_lt hi),
        List.getElem?_eq_none (by omega)]
  refine ⟨hheap, fun k => (place_new (Nat.le_add_right _ _)).trans (by rw [hlen]), ?_, ?_, ?_, ?_, ?_, ?_, ?_, ?_, ?_,
    False.elim⟩
  · intro path
    show r2.protos path = (r1.protos path).map (place r1 r2)
    cases hp : r1.protos path with
    | some i =>
      obtain ⟨f, hf, rfl⟩ := hi1.protosHeap _ _ hp
      exact (place_some h1 h2 hs hf).1
    | none =>
      cases hp2 : r2.protos path with
      | none => rfl
      | some j =>
        obtain ⟨f, hf, rfl⟩ := hi2.protosHeap _ _ hp2
        obtain ⟨i, hpi, -⟩ := same_file h2 h1 hs.symm hf
        rw [hp] at hpi
        cases hpi
  · intro name
    show r2.registry name = (r1.registry name).map (placeRen h1 h2 hs).ptr
    cases hp : r1.registry name with
    | some p =>
      obtain ⟨f, hf, hq⟩ := h1.sound.names _ _ hp
      obtain ⟨hpf, hpl⟩ := place_some h1 h2 hs hf
      obtain ⟨p2, hreg⟩ := Option.isSome_iff_exists.mp ((h2.complete hpl).names _ _ hq)
      rw [hreg]
      have := same_declared h1 h2 hs hu name p2 ⟨place r1 r2 p.file, p.path⟩ (h2.sound.names _ _ hreg) ⟨f, hpl, hq⟩
      rw [this]
      rfl
    | none =>
      cases hp2 : r2.registry name with
      | none => rfl
      | some p =>
        obtain ⟨f, hf, hq⟩ := h2.sound.names _ _ hp2
        obtain ⟨i, -, hi⟩ := same_file h2 h1 hs.symm hf
        have := (h1.complete hi).names _ _ hq
        rw [hp] at this
        cases this
  · intro name p hp e
    obtain ⟨f, hf, hq⟩ := h1.sound.names _ _ hp
    rw [e] at hq
    cases hq
  · intro p hp
    rcases p with ⟨i, l⟩
    show r2.scopes (.at ⟨place r1 r2 i, l⟩) = r1.scopes (.at ⟨i, l⟩)
    by_cases hi : i < r1.heap.length
    · have e := List.getElem?_eq_getElem hi
      obtain ⟨-, hpl⟩ := place_some h1 h2 hs e
      cases hsc : r1.scopes (.at ⟨i, l⟩) with
      | some sc => exact same_scope h1 h2 e hpl hsc hp
      | none =>
        cases hsc2 : r2.scopes (.at ⟨place r1 r2 i, l⟩) with
        | none => rfl
        | some sc =>
          have := same_scope h2 h1 hpl e hsc2 hp
          rw [hsc] at this
          cases this
    · have hle := Nat.le_of_not_lt hi
      rw [place_new hle]
      have n1 : r1.scopes (.at ⟨i, l⟩) = none := by
        cases hsc : r1.scopes (.at ⟨i, l⟩) with
        | none => rfl
        | some sc =>
          obtain ⟨f, hf, -⟩ := h1.sound.scopes _ _ hsc hp
          rw [show (⟨i, l⟩ : Ptr).file = i from rfl, List.getElem?_eq_none hle] at hf
          cases hf
      have n2 : r2.scopes (.at ⟨i, l⟩) = none := by
        cases hsc : r2.scopes (.at ⟨i, l⟩) with
        | none => rfl
        | some sc =>
          obtain ⟨f, hf, -⟩ := h2.sound.scopes _ _ hsc hp
          rw [show (⟨i, l⟩ : Ptr).file = i from rfl, List.getElem?_eq_none (by omega)] at hf
          cases hf
      rw [n1, n2]
  · intro v; rw [h1.cache, h2.cache]; rfl
  · intro v n h; rw [h1.cache] at h; cases h
  · intro a; rw [h1.ftcache, h2.ftcache]; rfl
  · intro a n h; rw [h1.ftcache] at h; cases h
  · intro k
    show r1.next + k + (r2.next - r1.next) = r2.next + k
    omega

/-! ### Corresponding clients hold the same handles -/

theorem SameOption.symm {r1 r2 : Reg} {a b} (h : SameOption r1 r2 a b) : SameOption r2 r1 b a := by
  cases a <;> cases b <;> simp only [SameOption] at h ⊢
  obtain ⟨h1, f, h2, h3⟩ := h
  exact ⟨h1.symm, f, h3, h2⟩

theorem Corresponds.symm {r1 r2 : Reg} {a b} (h : Corresponds r1 r2 a b) : Corresponds r2 r1 b a := by
  obtain ⟨h1, f, h2, h3⟩ := h
  exact ⟨h1.symm, f, h3, h2⟩

theorem SameVal.symm {r1 r2 : Reg} {v w} (h : SameVal r1 r2 v w) : SameVal r2 r1 w v := by
  induction h with
  | bool h => exact .bool h.symm
  | int h => exact .int h.symm
  | uint h => exact .uint h.symm
  | float h => exact .float h.symm
  | string h => exact .string h.symm
  | bytes h => exact .bytes h.symm
  | enum h h' => exact .enum h.symm h'.symm
  | array h hl _ ih => exact .array h.symm hl.symm fun i v v' a b => ih i v' v b a
  | map h hl hk _ ih =>
    exact .map h.symm hl.symm (fun i k v k' v' a b => (hk i k' v' k v b a).symm) fun i k v k' v' a b => ih i k' v' k v b a

theorem SameNode.symm {r1 r2 : Reg} {v w} (h : SameNode r1 r2 v w) : SameNode r2 r1 w v := by
  induction h with
  | wrapped h => exact .wrapped h.symm
  | option a b c => exact .option a.symm b.symm c.symm
  | oneof h => exact .oneof h.symm
  | map h => exact .map h.symm
  | repeatedNil => exact .repeatedNil
  | «repeated» _ ih => exact .repeated ih
  | builtin => exact .builtin
  | value h => exact .value h.symm
  | mapItem h => exact .mapItem h.symm

theorem SameHandles.symm {c1 c2} (h : SameHandles c1 c2) : SameHandles c2 c1 :=
  ⟨h.length.symm, fun i n1 n2 a b => (h.same i n2 n1 b a).symm,
    fun i j n1 n2 m1 m2 a b c d => (h.identical i j n2 n1 m2 m1 b a d c).symm⟩

section
variable {s : Ren} {r1 r2 : Reg}

theorem Sim.corr (h : Sim s r1 r2) {p : Ptr} (hp : ∃ f, r1.heap[p.file]? = some f) : Corresponds r1 r2 p (s.ptr p) := by
  obtain ⟨f, hf⟩ := hp
  exact ⟨rfl, f, hf, (h.heap p.file).trans hf⟩

theorem kind_file' {r : Reg} {p : Ptr} {k} (h : r.kind p = some k) : ∃ f, r.heap[p.file]? = some f := by
  simp only [Reg.kind, Reg.elem] at h
  cases hf : r.heap[p.file]? with
  | some f => exact ⟨f, rfl⟩
  | none => rw [hf] at h; cases h

theorem rooted_file' {r : Reg} {p : Ptr} (h : Rooted r p) : ∃ f, r.heap[p.file]? = some f := by
  obtain ⟨f, hf, -⟩ := h
  exact ⟨f, hf⟩

theorem Sim.optOK (h : Sim s r1 r2) {o : Option Ptr} (g : OptOK r1 o) : SameOption r1 r2 o (o.map s.ptr) := by
  cases o with
  | none => trivial
  | some p =>
    obtain ⟨⟨n, c, hk⟩, -⟩ := g
    exact h.corr (kind_file' hk)

theorem vals_length : ∀ (vs : List OptVal), (s.vals vs).length = vs.length
  | [] => rfl
  | v :: vs => by simp [Ren.vals, vals_length vs]

theorem items_length : ∀ (vs : List (Str × OptVal)), (s.items vs).length = vs.length
  | [] => rfl
  | v :: vs => by simp [Ren.items, items_length vs]

mutual
theorem Sim.sameVal {o : Ghost} (h : Sim s r1 r2) : (v : OptVal) → GoodVal o r1 v → SameVal r1 r2 v (s.val v)
  | .bool _ _ _, g => .bool (h.optOK g)
  | .int _ _ _, g => .int (h.optOK g)
  | .uint _ _ _, g => .uint (h.optOK g)
  | .float _ _ _, g => .float (h.optOK g)
  | .string _ _ _, g => .string (h.optOK g)
  | .bytes _ _ _, g => .bytes (h.optOK g)
  | .enum _ _ _ _, g => .enum (h.optOK g.1) (h.corr (rooted_file' g.2.rooted))
  | .array _ vs, g => .array (h.optOK g.1) (vals_length vs).symm (Sim.sameVals h vs g.2)
  | .map _ _ items, g => .map (h.optOK g.1) (items_length items).symm
      (fun i k v k' v' a b => (Sim.sameItems h items g.2 i k v k' v' a b).1)
      (fun i k v k' v' a b => (Sim.sameItems h items g.2 i k v k' v' a b).2)
theorem Sim.sameVals {o : Ghost} (h : Sim s r1 r2) : (vs : List OptVal) → GoodVals o r1 vs →
    ∀ (i : Nat) (v v' : OptVal), vs[i]? = some v → (s.vals vs)[i]? = some v' → SameVal r1 r2 v v'
  | [], _, _, _, _, a, _ => by cases a
  | v :: _, g, 0, _, _, a, b => by
    have a := Option.some.inj a
    have b := Option.some.inj b
    rw [← a, ← b]
    exact Sim.sameVal h v g.1
  | _ :: vs, g, i + 1, v, v', a, b => Sim.sameVals h vs g.2 i v v' a b
theorem Sim.sameItems {o : Ghost} (h : Sim s r1 r2) : (vs : List (Str × OptVal)) → GoodItems o r1 vs →
    ∀ (i : Nat) (k : Str) (v : OptVal) (k' : Str) (v' : OptVal), vs[i]? = some (k, v) →
      (s.items vs)[i]? = some (k', v') → k = k' ∧ SameVal r1 r2 v v'
  | [], _, _, _, _, _, _, a, _ => by cases a
  | kv :: _, g, 0, _, _, _, _, a, b => by
    have a := Option.some.inj a
    have b := Option.some.inj b
    have := Sim.sameItem h kv g.1
    rw [b, a] at this
    exact this
  | _ :: vs, g, i + 1, k, v, k', v', a, b => Sim.sameItems h vs g.2 i k v k' v' a b
theorem Sim.sameItem {o : Ghost} (h : Sim s r1 r2) : (kv : Str × OptVal) → GoodItem o r1 kv →
    kv.1 = (s.item kv).1 ∧ SameVal r1 r2 kv.2 (s.item kv).2
  | (_, v), g => ⟨rfl, Sim.sameVal h v g⟩
end

theorem Sim.sameNode {o : Ghost} (h : Sim s r1 r2) : (n : Node) → Good o r1 n → SameNode r1 r2 n (s.node n)
  | .wrapped _ _ _, g => .wrapped (h.corr (rooted_file' g.rooted))
  | .option _ _ _ _, ⟨_, ⟨⟨_, _, k1⟩, _⟩, ⟨_, _, k2⟩, ⟨_, _, _, _, _, k3⟩, _⟩ =>
    .option (h.corr (kind_file' k1)) (h.corr (kind_file' k2)) (h.corr (kind_file' k3))
  | .oneof _ _, ⟨_, _, g⟩ => .oneof (h.corr (rooted_file' g))
  | .map _ _, ⟨_, _, _, _, _, k⟩ => .map (h.corr (kind_file' k))
  | .repeated _ none, _ => .repeatedNil
  | .repeated _ (some t), g => .repeated (Sim.sameNode h t g.2.2)
  | .builtin _, _ => .builtin
  | .value v, g => .value (h.sameVal v g)
  | .mapItem _ v, g => .mapItem (h.sameVal v g)

theorem goEq_ren (n m : Node) : GoEq n m ↔ GoEq (s.node n) (s.node m) := by
  have e : ∀ a b : Nat, a = b ↔ s.addr a = s.addr b := fun a b => ⟨fun h => h ▸ rfl, s.ainj a b⟩
  have h0 : ∀ a t, ∃ t', s.node (.repeated a t) = .repeated (s.addr a) t' := fun a t => by
    cases t <;> exact ⟨_, rfl⟩
  cases n with
  | «repeated» a t =>
    obtain ⟨t1, h1⟩ := h0 a t
    rw [h1]
    cases m with
    | «repeated» b u =>
      obtain ⟨t2, h2⟩ := h0 b u
      rw [h2]
      exact e a b
    | _ => exact Iff.rfl
  | _ =>
    cases m with
    | «repeated» b u =>
      obtain ⟨t2, h2⟩ := h0 b u
      rw [h2]
      exact Iff.rfl
    | _ => simp only [GoEq, Ren.node, ← e]

end

theorem SimC.same {s : Ren} {o : Ghost} {c1 c2} (h : SimC s c1 c2) (hg : GoodL o c1.reg c1.pool) :
    SameHandles c1 c2 := by
  obtain ⟨hp, -⟩ := h.pool
  have hget : ∀ (i : Nat) (n1 n2 : Node), c1.pool[i]? = some n1 → c2.pool[i]? = some n2 → n2 = s.node n1 := by
    intro i n1 n2 h1 h2
    rw [hp, List.getElem?_map, h1] at h2
    exact (Option.some.inj h2).symm
  refine ⟨by rw [hp, List.length_map], ?_, ?_⟩
  · intro i n1 n2 h1 h2
    rw [hget i n1 n2 h1 h2]
    exact h.reg.sameNode n1 (hg n1 (List.mem_of_getElem? h1))
  · intro i j n1 n2 m1 m2 h1 h2 h3 h4
    rw [hget i n1 n2 h1 h2, hget j m1 m2 h3 h4]
    exact goEq_ren n1 m1

end Protoast
