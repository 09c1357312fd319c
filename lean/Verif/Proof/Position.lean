import Verif.Proof.Values
import Verif.Proof.HeapSat
/-
  Positions, NodeFile and Pos.
-/
namespace Protoast

theorem elemsPosAll_get {Q : Position → Bool} : ∀ {es : List Elem}, elemsPosAll Q es = true →
    ∀ {i : Nat} {e : Elem}, es[i]? = some e → e.posAll Q = true := by
  intro es
  induction es with
  | nil => intro _ i e h; simp at h
  | cons a es ih =>
    intro h i e he
    unfold elemsPosAll at h
    rw [Bool.and_eq_true] at h
    cases i with
    | zero => simp at he; subst he; exact h.1
    | succ n => exact ih h.2 (by simpa using he)

theorem childrenAt_posAll {Q : Position → Bool} {f : ProtoFile} (h : elemsPosAll Q f.elems = true) :
    ∀ (path : List Nat), (∀ es, f.childrenAt path = some es → elemsPosAll Q es = true) ∧
      (∀ e, f.elemAt path = some e → e.posAll Q = true) := by
  intro path
  induction path with
  | nil =>
    refine ⟨?_, ?_⟩
    · intro es he; cases he; exact h
    · intro e he; simp [ProtoFile.elemAt] at he
  | cons i rest ih =>
    have hel : ∀ e, f.elemAt (i :: rest) = some e → e.posAll Q = true := by
      intro e he
      simp only [ProtoFile.elemAt] at he
      rw [Option.bind_eq_some_iff] at he
      obtain ⟨es, h1, h2⟩ := he
      exact elemsPosAll_get (ih.1 es h1) h2
    refine ⟨?_, hel⟩
    intro es he
    simp only [ProtoFile.childrenAt, Option.map_eq_some_iff] at he
    obtain ⟨e, h1, h2⟩ := he
    have := hel e h1
    rcases e with ⟨a, b, c, d⟩
    simp only [Elem.children_mk] at h2
    subst h2
    unfold Elem.posAll at this
    simp only [Bool.and_eq_true] at this
    exact this.2

theorem elem_pos {Q : Position → Bool} {e : Elem} (h : e.posAll Q = true) : Q e.pos = true := by
  rcases e with ⟨a, b, c, d⟩
  unfold Elem.posAll at h
  simp only [Bool.and_eq_true] at h
  exact h.1.1

theorem elem_kindPos {Q : Position → Bool} {e : Elem} (h : e.posAll Q = true) : e.kind.posAll Q = true := by
  rcases e with ⟨a, b, c, d⟩
  unfold Elem.posAll at h
  simp only [Bool.and_eq_true] at h
  exact h.1.2

theorem lits_get {Q : Position → Bool} : ∀ {es : List Literal}, litsPosAll Q es = true →
    ∀ {i : Nat} {e : Literal}, es[i]? = some e → e.posAll Q = true := by
  intro es
  induction es with
  | nil => intro _ i e h; simp at h
  | cons a es ih =>
    intro h i e he
    unfold litsPosAll at h
    rw [Bool.and_eq_true] at h
    cases i with
    | zero => simp at he; subst he; exact h.1
    | succ n => exact ih h.2 (by simpa using he)

theorem items_get {Q : Position → Bool} : ∀ {es : List (Str × Literal)}, itemsPosAll Q es = true →
    ∀ {i : Nat} {k : Str} {e : Literal}, es[i]? = some (k, e) → e.posAll Q = true := by
  intro es
  induction es with
  | nil => intro _ i k e h; simp at h
  | cons a es ih =>
    intro h i k e he
    unfold itemsPosAll at h
    rw [Bool.and_eq_true] at h
    cases i with
    | zero =>
      simp at he; subst he
      have := h.1
      unfold itemPosAll at this
      exact this
    | succ n => exact ih h.2 (by simpa using he)

theorem subValue_pos {Q : Position → Bool} {v l v' l'} (h : l.posAll Q = true) (hs : SubValue v l v' l') :
    l'.posAll Q = true := by
  induction hs with
  | self => exact h
  | @elem o vs lit i v' l' _ h1 h2 ih =>
    rcases lit with ⟨a, b, c, d⟩
    unfold Literal.posAll at ih
    simp only [Bool.and_eq_true] at ih
    exact lits_get ih.1.2 h2
  | @item o l0 items lit i k v' k' l' _ h1 h2 ih =>
    rcases lit with ⟨a, b, c, d⟩
    unfold Literal.posAll at ih
    simp only [Bool.and_eq_true] at ih
    exact items_get ih.2 h2

theorem lit_pos {Q : Position → Bool} {l : Literal} (h : l.posAll Q = true) : Q l.pos = true := by
  rcases l with ⟨a, b, c, d⟩
  unfold Literal.posAll at h
  simp only [Bool.and_eq_true] at h
  exact h.1.1

/-- The body of Pos for a non-array value. -/
theorem posBody_value {v l r} (h : Mirrors v l) (ha : v.isArray = false) : posBody (.value v) r = (.ok l.pos, r) := by
  cases v <;> simp only [OptVal.isArray, Bool.true_eq_false] at ha <;> unfold Mirrors at h
  all_goals first
    | (subst h; rfl)
    | (obtain ⟨rfl, _⟩ := h; rfl)

theorem pos_done {fuel n x r} (h : posBody n r = (.ok x, r)) (hf : x.filename ≠ []) : pos fuel n r = (.ok x, r) := by
  unfold pos
  rw [h]
  simp only [posDefer]
  rw [if_pos hf]
  rfl

/-- What the switch of Pos gives for something written in a file. -/
def rawPos (r : Reg) (p : Ptr) : Option Position :=
  match r.heap[p.file]? with
  | none => none
  | some f =>
    match p.path with
    | [] => some { filename := f.filename, line := 1 }
    | _ => (f.elemAt p.path).map Elem.pos

theorem elem_none (r : Reg) (i : Nat) : r.elem ⟨i, []⟩ = none := by
  unfold Reg.elem
  cases r.heap[i]? with
  | none => rfl
  | some f => simp [ProtoFile.elemAt]

theorem elemPos_raw {r : Reg} {p : Ptr} {e : Elem} (h : r.elem p = some e) :
    elemPos p r = (.ok e.pos, r) ∧ rawPos r p = some e.pos := by
  refine ⟨by unfold elemPos; simp [h], ?_⟩
  rcases p with ⟨i, path⟩
  cases path with
  | nil => rw [elem_none] at h; cases h
  | cons j t =>
    unfold Reg.elem at h
    rw [Option.bind_eq_some_iff] at h
    obtain ⟨f, h1, h2⟩ := h
    unfold rawPos
    rw [h1]
    simp [h2]

theorem kind_elem {r : Reg} {p : Ptr} {k : Kind} (h : r.kind p = some k) : ∃ e, r.elem p = some e ∧ e.kind = k := by
  unfold Reg.kind at h
  rw [Option.map_eq_some_iff] at h
  exact h

/-- The position of a live handle of something written in a file. -/
theorem good_pos {o r} {n : Node} (g : Good o r n) {p : Ptr} (h : n.origin = some p) :
    ∃ x, rawPos r p = some x ∧ posBody n r = (.ok x, r) ∧ nodePos n r = (.ok x, r) := by
  cases n with
  | wrapped a k q =>
    cases h
    have ht := GoodW.target g
    rcases p with ⟨i, path⟩
    cases path with
    | nil =>
      have hk := file_of_path g
      subst hk
      obtain ⟨f, hf, _⟩ := GoodW.rooted g
      have hf' : r.heap[i]? = some f := hf
      refine ⟨{ filename := f.filename, line := 1 }, ?_, ?_, ?_⟩
      · unfold rawPos; simp [hf']
      · show filePos _ r = _; unfold filePos; simp [hf']
      · show filePos _ r = _; unfold filePos; simp [hf']
    | cons j t =>
      have hk : k ≠ .file := by
        rintro rfl
        simp only [Reg.wrapTarget, Option.map_eq_some_iff, Option.bind_eq_some_iff, Prod.mk.injEq] at ht
        obtain ⟨k, ⟨kd, _, h2⟩, rfl, _⟩ := ht
        cases kd <;> simp [wrapKind] at h2
      have : ∃ e, r.elem ⟨i, j :: t⟩ = some e := by
        simp only [Reg.wrapTarget, Option.map_eq_some_iff, Option.bind_eq_some_iff] at ht
        obtain ⟨_, ⟨kd, h1, _⟩, _⟩ := ht
        obtain ⟨e, he, _⟩ := kind_elem h1
        exact ⟨e, he⟩
      obtain ⟨e, he⟩ := this
      obtain ⟨h1, h2⟩ := elemPos_raw he
      refine ⟨_, h2, ?_, ?_⟩ <;> cases k <;> first | exact h1 | exact absurd rfl hk
  | option a q c f =>
    cases h
    obtain ⟨_, ⟨⟨n, l, hk⟩, _⟩, _⟩ := g
    obtain ⟨e, he, _⟩ := kind_elem hk
    obtain ⟨h1, h2⟩ := elemPos_raw he
    exact ⟨_, h2, h1, h1⟩
  | oneof a q =>
    cases h
    obtain ⟨_, ⟨n, hk⟩, _⟩ := g
    obtain ⟨e, he, _⟩ := kind_elem hk
    obtain ⟨h1, h2⟩ := elemPos_raw he
    exact ⟨_, h2, h1, h1⟩
  | map a q =>
    cases h
    obtain ⟨_, ⟨n, _, _, _, hk⟩⟩ := g
    obtain ⟨e, he, _⟩ := kind_elem hk
    obtain ⟨h1, h2⟩ := elemPos_raw he
    exact ⟨_, h2, h1, h1⟩
  | _ => cases h

/-- Positions of parsed objects, for parsers that fill in the file name, at least sometimes. -/
theorem rawPos_source {r : Reg} {p : Ptr} {x : Position} (h : rawPos r p = some x) :
    ∃ f, r.heap[p.file]? = some f ∧ sourcePos r p = some { x with filename := f.filename } ∧
      ∀ Q : Position → Bool, elemsPosAll Q f.elems = true →
        (p.path = [] ∧ x.filename = f.filename) ∨ Q x = true := by
  unfold rawPos at h
  cases hf : r.heap[p.file]? with
  | none => rw [hf] at h; cases h
  | some f =>
    rw [hf] at h
    refine ⟨f, rfl, ?_⟩
    unfold sourcePos
    rw [hf]
    rcases p with ⟨i, path⟩
    cases path with
    | nil => cases h; exact ⟨rfl, fun Q _ => .inl ⟨rfl, rfl⟩⟩
    | cons j t =>
      simp only [Option.map_eq_some_iff] at h ⊢
      obtain ⟨e, he, rfl⟩ := h
      exact ⟨⟨e, he, rfl⟩, fun Q hQ => .inr (elem_pos ((childrenAt_posAll hQ _).2 e he))⟩

theorem positioned_pos {r : Reg} (hs : HeapSat Positioned r) {p : Ptr} {x : Position} (h : rawPos r p = some x) :
    ∃ f, r.heap[p.file]? = some f ∧ sourcePos r p = some x ∧ x.filename = f.filename ∧ f.filename ≠ [] := by
  obtain ⟨f, hf, h1, h2⟩ := rawPos_source h
  have := hs _ _ hf
  have hx : x.filename = f.filename := by
    rcases h2 _ this.2 with h | h
    · exact h.2
    · simpa using h
  refine ⟨f, hf, ?_, hx, this.1⟩
  rw [h1, ← hx]

/-- NodeFile, given the position. -/
theorem nodeFile_full {o r} (hi : Inv o r) {n : Node} {x : Position} {i : Nat} {f : ProtoFile}
    (h : nodePos n r = (.ok x, r)) (hf : r.heap[i]? = some f) (hx : x.filename = f.filename) :
    ∃ a o' r', nodeFile n r = (.ok (some (.wrapped a .file ⟨i, []⟩)), r') ∧ Ext o r o' r' ∧ Inv o' r' ∧
      GoodW o' r' a .file ⟨i, []⟩ := by
  have hl := (List.getElem?_eq_some_iff.mp hf).1
  have hr := rooted_file hl
  have ht : r.wrapTarget (.at ⟨i, []⟩) = some (.file, ⟨i, []⟩) := by
    simp only [Reg.wrapTarget]; rw [if_pos hl]
  obtain ⟨a, o', r', hw, hx', hi', hg⟩ := wrap_full hi ht hr.under
  refine ⟨a, o', r', ?_, hx', hi', hg⟩
  unfold nodeFile
  simp only [M.bind_apply, h, M.get_apply, hx, hi.heapProtos _ _ hf]
  unfold wrapAs assertKind
  simp [M.bind_apply, hw]

/-- The last element of a hierarchy. -/
theorem lastFile_full {a : Nat} {q : Ptr} : ∀ {l : List Node} {r : Reg}, l.getLast? = some (.wrapped a .file q) →
    lastFile l r = (.ok q, r) := by
  intro l
  induction l with
  | nil => intro r h; cases h
  | cons x l ih =>
    intro r h
    cases l with
    | nil => simp at h; subst h; rfl
    | cons y l =>
      have e : lastFile (x :: y :: l) = lastFile (y :: l) := by rw [lastFile]
      rw [e]
      exact ih (by simpa using h)

/-- Pos of something written in a file, when the parser leaves out some file names. -/
theorem pos_full {o r} (hi : Inv o r) (hs : HeapSat LooselyPositioned r) {n : Node} (g : Good o r n)
    {p : Ptr} (h : n.source = some p) {fuel : Nat} (hfuel : p.path.length < fuel) :
    ∃ x r', sourcePos r p = some x ∧ pos fuel n r = (.ok x, r') := by
  have ho : n.origin = some p := by
    cases n <;> first | exact h | cases h
  obtain ⟨x, h1, h2, _⟩ := good_pos g ho
  obtain ⟨f, hf, h4, h5⟩ := rawPos_source h1
  have hfn : x.filename = f.filename ∨ x.filename = [] := by
    rcases h5 _ (hs _ _ hf) with h | h
    · exact .inl h.2
    · simpa [Bool.or_eq_true] using h
  by_cases he : x.filename = []
  · obtain ⟨ns, o', r', hh, hx', hi', _, _, _, ⟨a, hl⟩⟩ := hierarchy_full p.file p.path hi g h
    refine ⟨_, r', h4, ?_⟩
    unfold pos
    rw [h2]
    simp only [posDefer]
    rw [if_neg (by simp [he])]
    simp only [M.bind_apply, hh fuel hfuel, lastFile_full hl]
    obtain ⟨l, hl'⟩ := hx'.heap
    have hf' : r'.heap[p.file]? = some f := by
      rw [hl', List.getElem?_append_left (List.getElem?_eq_some_iff.mp hf).1]; exact hf
    unfold File.name
    simp [hf']
  · refine ⟨x, r, ?_, pos_done h2 he⟩
    rw [h4]
    rcases hfn with hfn | hfn
    · rw [← hfn]
    · exact absurd hfn he

end Protoast
