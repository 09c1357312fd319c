import Verif.Spec.Process
import Verif.Proof.Rename5
/-
  Registries in one process do not disturb each other.
-/
namespace Protoast

/-- The places and addresses from which on a renaming is shifted. -/
def Ren.shift (s : Ren) (r1 r2 : Reg) (d e : Nat) (hs : Sim s r1 r2) : Ren where
  file i := if i < r1.heap.length then s.file i else s.file i + d
  addr a := if a < r1.next then s.addr a else s.addr a + e
  full := s.full
  inj := by
    have hlow : ∀ i, i < r1.heap.length → s.file i < r2.heap.length := by
      intro i hi
      have := hs.heap i
      rw [List.getElem?_eq_getElem hi] at this
      exact (List.getElem?_eq_some_iff.mp this).1
    have hhigh : ∀ i, ¬ i < r1.heap.length → r2.heap.length ≤ s.file i := by
      intro i hi
      have := hs.new (i - r1.heap.length)
      rw [Nat.add_sub_cancel' (Nat.le_of_not_lt hi)] at this
      omega
    intro i j h
    by_cases hi : i < r1.heap.length <;> by_cases hj : j < r1.heap.length <;> simp only [hi, hj, if_true, if_false] at h
    · exact s.inj _ _ h
    · have := hlow i hi; have := hhigh j hj; omega
    · have := hlow j hj; have := hhigh i hi; omega
    · exact s.inj _ _ (by omega)
  ainj := by
    have hlow : ∀ a, a < r1.next → s.addr a < r2.next := by
      intro a ha
      rcases Nat.lt_or_ge (s.addr a) r2.next with h | h
      · exact h
      · have := hs.next (s.addr a - r2.next)
        rw [Nat.add_sub_cancel' h] at this
        have := s.ainj _ _ this
        omega
    have hhigh : ∀ a, ¬ a < r1.next → r2.next ≤ s.addr a := by
      intro a ha
      have := hs.next (a - r1.next)
      rw [Nat.add_sub_cancel' (Nat.le_of_not_lt ha)] at this
      omega
    intro i j h
    by_cases hi : i < r1.next <;> by_cases hj : j < r1.next <;> simp only [hi, hj, if_true, if_false] at h
    · exact s.ainj _ _ h
    · have := hlow i hi; have := hhigh j hj; omega
    · have := hlow j hj; have := hhigh i hi; omega
    · exact s.ainj _ _ (by omega)

section
variable {s : Ren} {r1 r2 : Reg} {d e : Nat} {hs : Sim s r1 r2} {o : Ghost}

theorem shift_file {i : Nat} (h : i < r1.heap.length) : (s.shift r1 r2 d e hs).file i = s.file i := if_pos h

theorem shift_ptr {p : Ptr} (h : p.file < r1.heap.length) : (s.shift r1 r2 d e hs).ptr p = s.ptr p := by
  simp only [Ren.ptr, shift_file h]

theorem shift_addr {a : Nat} (h : a < r1.next) : (s.shift r1 r2 d e hs).addr a = s.addr a := if_pos h

theorem shift_optOK {q : Option Ptr} (h : OptOK r1 q) : q.map (s.shift r1 r2 d e hs).ptr = q.map s.ptr := by
  cases q with
  | none => rfl
  | some p => simp only [Option.map_some, shift_ptr h.2.file]

mutual
theorem shift_val (hi : Inv o r1) : (v : OptVal) → GoodVal o r1 v → (s.shift r1 r2 d e hs).val v = s.val v
  | .bool q _ _, g => by simp only [Ren.val, shift_optOK (show OptOK r1 q from g)]
  | .int q _ _, g => by simp only [Ren.val, shift_optOK (show OptOK r1 q from g)]
  | .uint q _ _, g => by simp only [Ren.val, shift_optOK (show OptOK r1 q from g)]
  | .float q _ _, g => by simp only [Ren.val, shift_optOK (show OptOK r1 q from g)]
  | .string q _ _, g => by simp only [Ren.val, shift_optOK (show OptOK r1 q from g)]
  | .bytes q _ _, g => by simp only [Ren.val, shift_optOK (show OptOK r1 q from g)]
  | .enum q _ a p, g => by
    simp only [Ren.val, shift_optOK g.1, shift_addr (hi.fresh _ _ g.2.owner), shift_ptr g.2.rooted.file]
  | .array q vs, g => by simp only [Ren.val, shift_optOK g.1, shift_vals hi vs g.2]
  | .map q _ vs, g => by simp only [Ren.val, shift_optOK g.1, shift_items hi vs g.2]
theorem shift_vals (hi : Inv o r1) : (vs : List OptVal) → GoodVals o r1 vs → (s.shift r1 r2 d e hs).vals vs = s.vals vs
  | [], _ => rfl
  | v :: vs, g => by simp only [Ren.vals, shift_val hi v g.1, shift_vals hi vs g.2]
theorem shift_items (hi : Inv o r1) : (vs : List (Str × OptVal)) → GoodItems o r1 vs →
    (s.shift r1 r2 d e hs).items vs = s.items vs
  | [], _ => rfl
  | v :: vs, g => by simp only [Ren.items, shift_item hi v g.1, shift_items hi vs g.2]
theorem shift_item (hi : Inv o r1) : (v : Str × OptVal) → GoodItem o r1 v → (s.shift r1 r2 d e hs).item v = s.item v
  | (_, v), g => by simp only [Ren.item, shift_val hi v g]
end

theorem shift_node (hi : Inv o r1) : (n : Node) → Good o r1 n → (s.shift r1 r2 d e hs).node n = s.node n
  | .wrapped a k p, g => by simp only [Ren.node, shift_addr (hi.fresh _ _ g.owner), shift_ptr g.rooted.file]
  | .option a p c f, g => by
    obtain ⟨h1, h2, ⟨_, _, h3⟩, -, h4⟩ := g
    simp only [Ren.node, shift_addr (hi.fresh _ _ h1), shift_ptr h2.2.file, shift_ptr (kind_file h3), shift_ptr h4.file]
  | .oneof a p, g => by simp only [Ren.node, shift_addr (hi.fresh _ _ g.1), shift_ptr g.2.2.file]
  | .map a p, g => by
    obtain ⟨h1, _, _, _, _, h2⟩ := g
    simp only [Ren.node, shift_addr (hi.fresh _ _ h1), shift_ptr (kind_file h2)]
  | .repeated a none, g => by simp only [Ren.node, shift_addr (hi.fresh _ _ (show o a = some _ from g))]
  | .repeated a (some t), g => by
    simp only [Ren.node, shift_addr (hi.fresh _ _ g.1), shift_node hi t g.2.2]
  | .builtin _, _ => rfl
  | .value v, g => by simp only [Ren.node, shift_val hi v g]
  | .mapItem _ v, g => by simp only [Ren.node, shift_val hi v g]

/-- Entries for places beyond the end of the heap are missing on both sides. -/
theorem Sim.beyond {β : Type} {f : Vis → Option β} {g : Vis → Option β} (hs : Sim s r1 r2)
    (hfg : ∀ p, f (.at (s.ptr p)) = g (.at p)) (hg : ∀ p : Ptr, g (.at p) ≠ none → p.file < r1.heap.length)
    {p : Ptr} (hp : ¬ p.file < r1.heap.length) (d e : Nat) : f (.at ((s.shift r1 r2 d e hs).ptr p)) = none := by
  have h1 := hs.new (p.file - r1.heap.length)
  rw [Nat.add_sub_cancel' (Nat.le_of_not_lt hp)] at h1
  have h2 := hs.new (p.file - r1.heap.length + d)
  have : (s.shift r1 r2 d e hs).ptr p = s.ptr ⟨r1.heap.length + (p.file - r1.heap.length + d), p.path⟩ := by
    simp only [Ren.ptr, Ren.shift, if_neg hp, h2]
    rw [h1, Nat.add_assoc]
  rw [this, hfg]
  cases hx : g (.at ⟨r1.heap.length + (p.file - r1.heap.length + d), p.path⟩) with
  | none => rfl
  | some x =>
    have h3 : r1.heap.length + (p.file - r1.heap.length + d) < r1.heap.length :=
      hg ⟨r1.heap.length + (p.file - r1.heap.length + d), p.path⟩ (by rw [hx]; simp)
    omega

/-- Other registries may load files and hand out nodes meanwhile. -/
theorem Sim.shift (hs : Sim s r1 r2) (hi : Inv o r1) (hf : s.full) (l : List ProtoFile) (e : Nat) :
    Sim (s.shift r1 r2 l.length e hs) r1 { r2 with heap := r2.heap ++ l, next := r2.next + e } := by
  have hsf := hs.scopesFull hf
  have scopeFile : ∀ p : Ptr, r1.scopes (.at p) ≠ none → p.file < r1.heap.length := by
    intro p h
    obtain ⟨sc, hsc⟩ := Option.ne_none_iff_exists'.mp h
    rcases hi.scopeKey _ _ hsc with h | ⟨q, h, hl⟩
    · cases h
    · cases h; exact hl.1
  have cacheFile : ∀ p : Ptr, r1.cache (.at p) ≠ none → p.file < r1.heap.length := by
    intro p h
    obtain ⟨x, hx⟩ := Option.ne_none_iff_exists'.mp h
    cases x with
    | none => exact ((hi.cacheNone _ hx).2 p rfl).1
    | some n => exact (hi.cacheRooted _ _ hx).file
  have hscopes : ∀ v, r2.scopes ((s.shift r1 r2 l.length e hs).vis v) = r1.scopes v := by
    intro v
    cases v with
    | «at» p =>
      by_cases hp : p.file < r1.heap.length
      · have := hsf (.at p)
        simp only [Ren.vis] at this ⊢
        rw [shift_ptr hp]; exact this
      · have h1 : r1.scopes (.at p) = none := by
          cases hx : r1.scopes (.at p) with
          | none => rfl
          | some x => exact absurd (scopeFile p (by rw [hx]; simp)) hp
        rw [h1]
        exact hs.beyond (f := r2.scopes) (g := r1.scopes) (fun p => hsf (.at p)) scopeFile hp _ _
    | nil => exact hsf .nil
    | nilProto => exact hsf .nilProto
    | nilOption => exact hsf .nilOption
  constructor
  · intro i
    show (r2.heap ++ l)[if i < r1.heap.length then s.file i else s.file i + l.length]? = _
    by_cases h : i < r1.heap.length
    · have h1 := hs.heap i
      rw [List.getElem?_eq_getElem h] at h1
      rw [if_pos h, List.getElem?_append_left (List.getElem?_eq_some_iff.mp h1).1, hs.heap]
    · have h1 := hs.new (i - r1.heap.length)
      rw [Nat.add_sub_cancel' (Nat.le_of_not_lt h)] at h1
      rw [if_neg h, h1, List.getElem?_eq_none (by rw [List.length_append]; omega), List.getElem?_eq_none (by omega)]
  · intro k
    show (if r1.heap.length + k < r1.heap.length then _ else s.file (r1.heap.length + k) + l.length) =
      (r2.heap ++ l).length + k
    rw [if_neg (by omega), hs.new, List.length_append]
    omega
  · intro path
    show r2.protos path = _
    rw [hs.protos]
    cases hp : r1.protos path with
    | none => rfl
    | some i =>
      obtain ⟨f, hf, -⟩ := hi.protosHeap _ _ hp
      simp only [Option.map_some, shift_file (List.getElem?_eq_some_iff.mp hf).1]
  · intro name
    show r2.registry name = _
    rw [hs.names]
    cases hp : r1.registry name with
    | none => rfl
    | some p => simp only [Option.map_some, shift_ptr (hi.regRooted _ _ hp).file]
  · exact hs.deep
  · intro p _; exact hscopes (.at p)
  · intro v
    show r2.cache _ = _
    have key : ∀ v, (∀ p, v = .at p → p.file < r1.heap.length) →
        (r1.cache v).map (Option.map (s.shift r1 r2 l.length e hs).node) = (r1.cache v).map (Option.map s.node) := by
      intro v _
      cases hx : r1.cache v with
      | none => rfl
      | some x =>
        cases x with
        | none => rfl
        | some n =>
          obtain ⟨a, k, p, rfl, rfl, -, ho⟩ := hi.cacheSome _ _ hx
          simp only [Option.map_some, Ren.node, shift_addr (hi.fresh _ _ ho), shift_ptr (hi.cacheRooted _ _ hx).file]
    cases v with
    | «at» p =>
      by_cases hp : p.file < r1.heap.length
      · rw [key _ (fun q h => by cases h; exact hp)]
        have := hs.cache (.at p)
        simp only [Ren.vis] at this ⊢
        rw [shift_ptr hp]; exact this
      · have h1 : r1.cache (.at p) = none := by
          cases hx : r1.cache (.at p) with
          | none => rfl
          | some x => exact absurd (cacheFile p (by rw [hx]; simp)) hp
        rw [h1]
        exact hs.beyond (f := r2.cache) (g := fun v => (r1.cache v).map (Option.map s.node)) (fun p => hs.cache (.at p))
          (fun p h => cacheFile p (fun h' => h (by simp [h']))) hp _ _
    | nil => rw [key _ (fun q h => by cases h)]; exact hs.cache .nil
    | nilProto => rw [key _ (fun q h => by cases h)]; exact hs.cache .nilProto
    | nilOption => rw [key _ (fun q h => by cases h)]; exact hs.cache .nilOption
  · exact hs.cached
  · intro a
    show r2.ftcache (if a < r1.next then s.addr a else s.addr a + e) = _
    by_cases ha : a < r1.next
    · rw [if_pos ha, hs.ftcache]
      cases hx : r1.ftcache a with
      | none => rfl
      | some x =>
        cases x with
        | none => rfl
        | some n => simp only [Option.map_some, shift_node hi n (hi.ftGood _ _ hx).2]
    · have none_of : ∀ a, ¬ a < r1.next → r1.ftcache a = none := by
        intro a ha
        cases hx : r1.ftcache a with
        | none => rfl
        | some x =>
          obtain ⟨p, ho, -⟩ := hi.ftKey _ _ hx
          exact absurd (hi.fresh _ _ ho) ha
      have h1 := hs.next (a - r1.next)
      rw [Nat.add_sub_cancel' (Nat.le_of_not_lt ha)] at h1
      have h2 := hs.next (a - r1.next + e)
      rw [if_neg ha, none_of a ha, h1, Nat.add_assoc, ← h2, hs.ftcache, none_of _ (by omega)]
      rfl
  · exact hs.ftdeep
  · intro k
    show (if r1.next + k < r1.next then _ else s.addr (r1.next + k) + e) = r2.next + e + k
    rw [if_neg (by omega), hs.next]
    omega
  · intro _ v; exact hscopes v

end

/-- The index of every node, when the scopes of files correspond as well. -/
theorem nodeIndexFull_eqv {s : Ren} (hf : s.full) {n : Node} (hd : Deep n) : EqvEq s (nodeIndex n) (nodeIndex (s.node n)) := by
  by_cases h : ∃ a p, n = .wrapped a .file p
  · obtain ⟨a, p, rfl⟩ := h
    refine Eqv.get fun r1 r2 hs => ?_
    have := hs.scopesFull hf (.at p)
    simp only [Ren.vis] at this
    simp only [Reg.scope, this]
    exact Eqv.pure rfl
  · exact nodeIndex_eqv hd (fun a p e => h ⟨a, p, e⟩)

/-! ### What a call does to the heap -/

/-- `r'` comes after `r`: files and addresses are only added. -/
structure Grown (r r' : Reg) : Prop where
  heap : ∃ l, r'.heap = r.heap ++ l
  next : r.next ≤ r'.next

theorem Grown.refl (r : Reg) : Grown r r := ⟨⟨[], by simp⟩, Nat.le_refl _⟩
theorem Grown.trans {a b c : Reg} (h : Grown a b) (g : Grown b c) : Grown a c := by
  obtain ⟨l, hl⟩ := h.heap
  obtain ⟨m, hm⟩ := g.heap
  exact ⟨⟨l ++ m, by rw [hm, hl, List.append_assoc]⟩, Nat.le_trans h.next g.next⟩

end Protoast
