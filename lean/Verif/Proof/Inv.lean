import Verif.Proof.ReadOnly
/-
  The invariant of reachable registries.

  The ghost map `o` remembers, for every wrapper address ever allocated for a node that was handed
  out, which node lives there.
-/
namespace Protoast

/-- Which node lives at an address. -/
abbrev Ghost := Nat → Option Node

/-- The pointer refers to a `*proto.Option`. -/
def IsOptionAt (r : Reg) (p : Ptr) : Prop := ∃ n c, r.kind p = some (.option n c)
/-- The pointer refers to a `*proto.NormalField`. -/
def IsFieldAt (r : Reg) (p : Ptr) : Prop := ∃ a b c d e, r.kind p = some (.normalField a b c d e)
/-- The pointer refers to a `*proto.Message`. -/
def IsMessageAt (r : Reg) (p : Ptr) : Prop := ∃ a b, r.kind p = some (.message a b)
/-- The pointer refers to a `*proto.Oneof`. -/
def IsOneofAt (r : Reg) (p : Ptr) : Prop := ∃ a, r.kind p = some (.oneof a)
/-- The pointer refers to a `*proto.MapField`. -/
def IsMapAt (r : Reg) (p : Ptr) : Prop := ∃ a b c d, r.kind p = some (.mapField a b c d)

/-- Every object on the way from the file to `path` has a wrapper type. -/
def RootedPath (f : ProtoFile) : List Nat → Prop
  | [] => True
  | i :: rest => RootedPath f rest ∧ ∃ e k, f.elemAt (i :: rest) = some e ∧ wrapKind e.kind = some k

/-- The object at `p` and all objects around it have wrapper types. -/
def Rooted (r : Reg) (p : Ptr) : Prop := ∃ f, r.heap[p.file]? = some f ∧ RootedPath f p.path

/-- The pointer refers to something. -/
def Live (r : Reg) (p : Ptr) : Prop := p.file < r.heap.length ∧ (p.path ≠ [] → ∃ e, r.elem p = some e)

/-- A key of the table of scopes: a declaration or a file, or the nil `*proto.Proto` that stands for imported files. -/
def ScopeKey (r : Reg) (v : Vis) : Prop := v = .nilProto ∨ ∃ p, v = .at p ∧ Live r p

/-- `p` refers to something, and all objects around it have wrapper types. -/
def Under (r : Reg) (p : Ptr) : Prop := Rooted r ⟨p.file, p.path.tail⟩ ∧ (p.path ≠ [] → ∃ e, r.elem p = some e)

theorem RootedPath.tail {f : ProtoFile} {l : List Nat} (h : RootedPath f l) : RootedPath f l.tail := by
  cases l with
  | nil => trivial
  | cons i t => exact h.1

theorem Rooted.under {r p} (h : Rooted r p) : Under r p := by
  obtain ⟨f, h1, h2⟩ := h
  refine ⟨⟨f, h1, h2.tail⟩, fun hp => ?_⟩
  rcases p with ⟨i, path⟩
  cases path with
  | nil => exact absurd rfl hp
  | cons j t =>
    obtain ⟨_, e, k, h3, _⟩ := h2
    exact ⟨e, by simp [Reg.elem, h1, h3]⟩

theorem Rooted.file {r p} (h : Rooted r p) : p.file < r.heap.length := by
  obtain ⟨f, h1, _⟩ := h
  exact (List.getElem?_eq_some_iff.mp h1).1

theorem Under.file {r p} (h : Under r p) : p.file < r.heap.length := Rooted.file (p := ⟨p.file, p.path.tail⟩) h.1

theorem Under.live {r p} (h : Under r p) : Live r p := ⟨h.file, h.2⟩

theorem rooted_file {r : Reg} {i : Nat} (h : i < r.heap.length) : Rooted r ⟨i, []⟩ :=
  ⟨r.heap[i], List.getElem?_eq_getElem h, trivial⟩

theorem under_child {r : Reg} {p : Ptr} {i : Nat} : Under r (p.child i) → Rooted r p := And.left

theorem Rooted.target {r p} (h : Rooted r p) : ∃ k, r.wrapTarget (.at p) = some (k, p) := by
  obtain ⟨f, h1, h2⟩ := h
  have hl := (List.getElem?_eq_some_iff.mp h1).1
  rcases p with ⟨i, path⟩
  cases path with
  | nil => exact ⟨.file, by simp only [Reg.wrapTarget]; rw [if_pos hl]⟩
  | cons j t =>
    obtain ⟨_, e, k, h3, h4⟩ := h2
    exact ⟨k, by simp [Reg.wrapTarget, Reg.kind, Reg.elem, h1, h3, h4]⟩

theorem Under.rooted {r p x} (h : Under r p) (ht : r.wrapTarget (.at p) = some x) : Rooted r p := by
  obtain ⟨⟨f, h1, h2⟩, -⟩ := h
  rcases p with ⟨i, path⟩
  cases path with
  | nil => exact ⟨f, h1, trivial⟩
  | cons j t =>
    refine ⟨f, h1, h2, ?_⟩
    simp only [Reg.wrapTarget, Reg.kind, Reg.elem, Option.map_eq_some_iff, Option.bind_eq_some_iff] at ht
    obtain ⟨k, ⟨kd, ⟨e, ⟨f', hf, he⟩, rfl⟩, hk⟩, _⟩ := ht
    rw [h1] at hf
    cases hf
    exact ⟨e, k, he, hk⟩

/-- A live single-field wrapper. -/
structure GoodW (o : Ghost) (r : Reg) (a : Nat) (k : WKind) (p : Ptr) : Prop where
  owner : o a = some (.wrapped a k p)
  target : r.wrapTarget (.at p) = some (k, p)
  rooted : Rooted r p
  cached : k ≠ .file → r.cache (.at p) = some (some (.wrapped a k p))

/-- The embedded option pointer of a value. -/
def OptOK (r : Reg) : Option Ptr → Prop
  | none => True
  | some p => IsOptionAt r p ∧ Under r p

mutual
/-- A live option value. -/
def GoodVal (o : Ghost) (r : Reg) : OptVal → Prop
  | .bool p _ _ => OptOK r p
  | .int p _ _ => OptOK r p
  | .uint p _ _ => OptOK r p
  | .float p _ _ => OptOK r p
  | .string p _ _ => OptOK r p
  | .bytes p _ _ => OptOK r p
  | .enum p _ a q => OptOK r p ∧ GoodW o r a .enumValue q
  | .array p vs => OptOK r p ∧ GoodVals o r vs
  | .map p _ items => OptOK r p ∧ GoodItems o r items
def GoodVals (o : Ghost) (r : Reg) : List OptVal → Prop
  | [] => True
  | v :: vs => GoodVal o r v ∧ GoodVals o r vs
def GoodItems (o : Ghost) (r : Reg) : List (Str × OptVal) → Prop
  | [] => True
  | v :: vs => GoodItem o r v ∧ GoodItems o r vs
def GoodItem (o : Ghost) (r : Reg) : Str × OptVal → Prop
  | (_, v) => GoodVal o r v
end

/-- A live node. -/
def Good (o : Ghost) (r : Reg) : Node → Prop
  | .wrapped a k p => GoodW o r a k p
  | .option a p c f =>
    o a = some (.option a p c f) ∧ (IsOptionAt r p ∧ Under r p) ∧ IsMessageAt r c ∧ IsFieldAt r f ∧ Under r f
  | .oneof a p => o a = some (.oneof a p) ∧ IsOneofAt r p ∧ Rooted r p
  | .map a p => o a = some (.map a p) ∧ IsMapAt r p
  | .repeated a none => o a = some (.repeated a none)
  | .repeated a (some t) => o a = some (.repeated a (some t)) ∧ t.isType = true ∧ Good o r t
  | .builtin _ => True
  | .value v => GoodVal o r v
  | .mapItem _ v => GoodVal o r v

/-- The type a field of declared type `typ` may have, the repeated label aside: the builtin type of
    that name, or for other names nil, or a message, enum or enum value. -/
def BaseShape (typ : Str) (t : Option Node) : Prop :=
  match builtinType typ with
  | some b => t = some (.builtin b)
  | none => t = none ∨ ∃ a k p, t = some (.wrapped a k p) ∧ (k = .message ∨ k = .enum ∨ k = .enumValue)

/-- The type a field may have. -/
def FieldShape (r : Reg) (p : Ptr) (t : Option Node) : Prop :=
  (∃ n typ s opt, r.kind p = some (.normalField n typ s false opt) ∧ BaseShape typ t) ∨
  (∃ n typ s opt, r.kind p = some (.normalField n typ s true opt) ∧
    (∃ a t', t = some (.repeated a t') ∧ BaseShape typ t')) ∨
  (IsOneofAt r p ∧ ∃ a, t = some (.oneof a p)) ∨
  (IsMapAt r p ∧ ∃ a, t = some (.map a p))

/-- `Type` of the field at `p` may be nil: its declared type name is not a builtin one. -/
def NilType (r : Reg) (p : Ptr) : Prop :=
  ∃ n typ s rep opt, r.kind p = some (.normalField n typ s rep opt) ∧ builtinType typ = none

/-- The invariant. -/
structure Inv (o : Ghost) (r : Reg) : Prop where
  fresh : ∀ a n, o a = some n → a < r.next
  cacheSome : ∀ v n, r.cache v = some (some n) →
    ∃ a k p, v = .at p ∧ n = .wrapped a k p ∧ r.wrapTarget v = some (k, p) ∧ o a = some n
  cacheNone : ∀ v, r.cache v = some none →
    r.wrapTarget v = none ∧ ∀ p, v = .at p → Live r p
  regPtr : ∀ name p, r.registry name = some p →
    ∃ e k, r.elem p = some e ∧ wrapKind e.kind = some k
  cacheRooted : ∀ p n, r.cache (.at p) = some (some n) → Rooted r p
  regRooted : ∀ name p, r.registry name = some p → Rooted r p
  protosHeap : ∀ path i, r.protos path = some i → ∃ f, r.heap[i]? = some f ∧ f.filename = path
  heapProtos : ∀ i f, r.heap[i]? = some f → r.protos f.filename = some i
  ftKey : ∀ a t, r.ftcache a = some t → ∃ p, o a = some (.wrapped a .messageField p) ∧
    ((t = none ∧ NilType r p) ∨ FieldShape r p t)
  ftGood : ∀ a t, r.ftcache a = some (some t) → t.isType = true ∧ Good o r t
  ftCached : ∀ a t, r.ftcache a = some t → ∃ p, r.cache (.at p) = some (some (.wrapped a .messageField p))
  scopeKey : ∀ v s, r.scopes v = some s → ScopeKey r v

/-- The part of an extension that matters for live nodes. -/
structure GExt (o : Ghost) (r : Reg) (o' : Ghost) (r' : Reg) : Prop where
  owner : ∀ a n, o a = some n → o' a = some n
  heap : ∃ l, r'.heap = r.heap ++ l
  cache : ∀ v x, r.cache v = some x → r'.cache v = some x

/-- Extension of a state by a history. -/
structure Ext (o : Ghost) (r : Reg) (o' : Ghost) (r' : Reg) : Prop extends GExt o r o' r' where
  protos : ∀ s i, r.protos s = some i → r'.protos s = some i
  names : ∀ s p, r.registry s = some p → ∃ p', r'.registry s = some p'
  ftcache : ∀ v x, r.ftcache v = some x → r'.ftcache v = some x
  next : r.next ≤ r'.next

theorem Ext.mk' {o : Ghost} {r : Reg} {o' : Ghost} {r' : Reg}
    (owner : ∀ a n, o a = some n → o' a = some n)
    (heap : ∃ l, r'.heap = r.heap ++ l)
    (protos : ∀ s i, r.protos s = some i → r'.protos s = some i)
    (names : ∀ s p, r.registry s = some p → ∃ p', r'.registry s = some p')
    (cache : ∀ v x, r.cache v = some x → r'.cache v = some x)
    (ftcache : ∀ v x, r.ftcache v = some x → r'.ftcache v = some x)
    (next : r.next ≤ r'.next) : Ext o r o' r' :=
  ⟨⟨owner, heap, cache⟩, protos, names, ftcache, next⟩

theorem Ext.refl (o r) : Ext o r o r :=
  Ext.mk' (fun _ _ h => h) ⟨[], by simp⟩ (fun _ _ h => h) (fun _ p h => ⟨p, h⟩) (fun _ _ h => h)
    (fun _ _ h => h) (Nat.le_refl _)

theorem Ext.trans {o r o' r' o'' r''} (h : Ext o r o' r') (g : Ext o' r' o'' r'') :
    Ext o r o'' r'' := by
  obtain ⟨l, hl⟩ := h.heap
  obtain ⟨l', hl'⟩ := g.heap
  refine Ext.mk' (fun a n e => g.owner a n (h.owner a n e))
    ⟨l ++ l', by rw [hl', hl, List.append_assoc]⟩
    (fun s i e => g.protos s i (h.protos s i e)) ?_ (fun v x e => g.cache v x (h.cache v x e))
    (fun v x e => g.ftcache v x (h.ftcache v x e)) (Nat.le_trans h.next g.next)
  intro s p e
  obtain ⟨p', e'⟩ := h.names s p e
  exact g.names s p' e'

theorem CacheExt.toExt {o o' : Ghost} {r r' : Reg} (h : CacheExt r r')
    (ho : ∀ a n, o a = some n → o' a = some n) : Ext o r o' r' :=
  Ext.mk' ho ⟨[], by simp [h.heap]⟩ (fun s i e => by rw [h.protos]; exact e)
    (fun s p e => ⟨p, by rw [h.registry]; exact e⟩) h.cache h.ftcache h.next

/-! ### Monotonicity -/

theorem GExt.file {o r o' r'} (h : GExt o r o' r') {i : Nat} {f : ProtoFile}
    (e : r.heap[i]? = some f) : r'.heap[i]? = some f := by
  obtain ⟨l, hl⟩ := h.heap
  rw [hl]
  have hi := (List.getElem?_eq_some_iff.mp e).1
  rw [List.getElem?_append_left hi]
  exact e

theorem GExt.length {o r o' r'} (h : GExt o r o' r') : r.heap.length ≤ r'.heap.length := by
  obtain ⟨l, hl⟩ := h.heap
  rw [hl]; simp

theorem GExt.file_eq {o r o' r'} (h : GExt o r o' r') {i : Nat} (hi : i < r.heap.length) :
    r'.heap[i]? = r.heap[i]? := by
  have := List.getElem?_eq_getElem hi
  rw [this]
  exact h.file this

theorem GExt.elem_eq {o r o' r'} (h : GExt o r o' r') {p : Ptr} (hi : p.file < r.heap.length) :
    r'.elem p = r.elem p := by
  unfold Reg.elem; rw [h.file_eq hi]

theorem GExt.kind_eq {o r o' r'} (h : GExt o r o' r') {p : Ptr} (hi : p.file < r.heap.length) :
    r'.kind p = r.kind p := by
  unfold Reg.kind; rw [h.elem_eq hi]

theorem GExt.children_eq {o r o' r'} (h : GExt o r o' r') {p : Ptr} (hi : p.file < r.heap.length) :
    r'.children p = r.children p := by
  unfold Reg.children; rw [h.file_eq hi]

theorem elem_file {r : Reg} {p : Ptr} {e : Elem} (h : r.elem p = some e) :
    p.file < r.heap.length := by
  unfold Reg.elem at h
  rw [Option.bind_eq_some_iff] at h
  obtain ⟨f, hf, _⟩ := h
  exact (List.getElem?_eq_some_iff.mp hf).1

theorem kind_file {r : Reg} {p : Ptr} {k : Kind} (h : r.kind p = some k) :
    p.file < r.heap.length := by
  unfold Reg.kind at h
  rw [Option.map_eq_some_iff] at h
  obtain ⟨e, he, _⟩ := h
  exact elem_file he

theorem children_file {r : Reg} {p : Ptr} {es : List Elem} (h : r.children p = some es) :
    p.file < r.heap.length := by
  unfold Reg.children at h
  rw [Option.bind_eq_some_iff] at h
  obtain ⟨f, hf, _⟩ := h
  exact (List.getElem?_eq_some_iff.mp hf).1

theorem GExt.kind {o r o' r'} (h : GExt o r o' r') {p : Ptr} {k : Kind} (e : r.kind p = some k) :
    r'.kind p = some k := by rw [h.kind_eq (kind_file e)]; exact e

theorem GExt.elem {o r o' r'} (h : GExt o r o' r') {p : Ptr} {k : Elem} (e : r.elem p = some k) :
    r'.elem p = some k := by rw [h.elem_eq (elem_file e)]; exact e

theorem GExt.target_eq {o r o' r'} (h : GExt o r o' r') {p : Ptr} (hi : p.file < r.heap.length) :
    r'.wrapTarget (.at p) = r.wrapTarget (.at p) := by
  unfold Reg.wrapTarget
  have hl := h.length
  have : p.file < r'.heap.length := by omega
  simp only [hi, this, h.kind_eq hi]

theorem target_file {r : Reg} {p : Ptr} {x} (h : r.wrapTarget (.at p) = some x) :
    p.file < r.heap.length := by
  unfold Reg.wrapTarget at h
  simp only at h
  split at h
  · split at h
    · assumption
    · cases h
  · rw [Option.map_eq_some_iff] at h
    obtain ⟨k, hk, _⟩ := h
    rw [Option.bind_eq_some_iff] at hk
    obtain ⟨kd, hkd, _⟩ := hk
    exact kind_file hkd

theorem GExt.target {o r o' r'} (h : GExt o r o' r') {v : Vis} {x}
    (e : r.wrapTarget v = some x) : r'.wrapTarget v = some x := by
  cases v
  case «at» p => rw [h.target_eq (target_file e)]; exact e
  all_goals simp [Reg.wrapTarget] at e

theorem target_self {r : Reg} {v : Vis} {k p} (h : r.wrapTarget v = some (k, p)) : v = .at p := by
  cases v
  case «at» q =>
    unfold Reg.wrapTarget at h
    simp only at h
    split at h
    · split at h
      · simp only [Option.some.injEq, Prod.mk.injEq] at h; rw [h.2]
      · cases h
    · rw [Option.map_eq_some_iff] at h
      obtain ⟨_, _, h⟩ := h
      simp only [Prod.mk.injEq] at h; rw [h.2]
  all_goals simp [Reg.wrapTarget] at h

theorem GExt.rooted {o r o' r'} (h : GExt o r o' r') {p} : Rooted r p → Rooted r' p
  | ⟨f, h1, h2⟩ => ⟨f, h.file h1, h2⟩

theorem GExt.live {o r o' r'} (h : GExt o r o' r') {p} (g : Live r p) : Live r' p :=
  ⟨Nat.lt_of_lt_of_le g.1 h.length, fun hp => (g.2 hp).imp fun _ e => h.elem e⟩

theorem GExt.scopeKey {o r o' r'} (h : GExt o r o' r') {v} (g : ScopeKey r v) : ScopeKey r' v :=
  g.imp id fun ⟨p, e, l⟩ => ⟨p, e, h.live l⟩

theorem GExt.under {o r o' r'} (h : GExt o r o' r') {p} (g : Under r p) : Under r' p :=
  ⟨h.rooted g.1, fun hp => (g.2 hp).imp fun _ e => h.elem e⟩

theorem GExt.nilType {o r o' r'} (h : GExt o r o' r') {p} : NilType r p → NilType r' p
  | ⟨n, typ, s, rep, opt, h1, h2⟩ => ⟨n, typ, s, rep, opt, h.kind h1, h2⟩

theorem GExt.goodW {o r o' r'} (h : GExt o r o' r') {a k p} (g : GoodW o r a k p) :
    GoodW o' r' a k p :=
  ⟨h.owner _ _ g.owner, h.target g.target, h.rooted g.rooted, fun hk => h.cache _ _ (g.cached hk)⟩

theorem GExt.isOption {o r o' r'} (h : GExt o r o' r') {p} : IsOptionAt r p → IsOptionAt r' p
  | ⟨a, b, e⟩ => ⟨a, b, h.kind e⟩
theorem GExt.isField {o r o' r'} (h : GExt o r o' r') {p} : IsFieldAt r p → IsFieldAt r' p
  | ⟨a, b, c, d, f, e⟩ => ⟨a, b, c, d, f, h.kind e⟩
theorem GExt.isMessage {o r o' r'} (h : GExt o r o' r') {p} : IsMessageAt r p → IsMessageAt r' p
  | ⟨a, b, e⟩ => ⟨a, b, h.kind e⟩
theorem GExt.isOneof {o r o' r'} (h : GExt o r o' r') {p} : IsOneofAt r p → IsOneofAt r' p
  | ⟨a, e⟩ => ⟨a, h.kind e⟩
theorem GExt.isMap {o r o' r'} (h : GExt o r o' r') {p} : IsMapAt r p → IsMapAt r' p
  | ⟨a, b, c, d, e⟩ => ⟨a, b, c, d, h.kind e⟩
theorem GExt.optOK {o r o' r'} (h : GExt o r o' r') {p} (g : OptOK r p) : OptOK r' p := by
  cases p with
  | none => trivial
  | some p => exact ⟨h.isOption g.1, h.under g.2⟩

mutual
theorem GExt.goodVal {o r o' r'} (h : GExt o r o' r') : (v : OptVal) → GoodVal o r v → GoodVal o' r' v
  | .bool _ _ _, g | .int _ _ _, g | .uint _ _ _, g | .float _ _ _, g | .string _ _ _, g
  | .bytes _ _ _, g => h.optOK g
  | .enum _ _ _ _, g => ⟨h.optOK g.1, h.goodW g.2⟩
  | .array _ vs, g => ⟨h.optOK g.1, GExt.goodVals h vs g.2⟩
  | .map _ _ items, g => ⟨h.optOK g.1, GExt.goodItems h items g.2⟩
theorem GExt.goodVals {o r o' r'} (h : GExt o r o' r') :
    (v : List OptVal) → GoodVals o r v → GoodVals o' r' v
  | [], _ => trivial
  | v :: vs, g => ⟨GExt.goodVal h v g.1, GExt.goodVals h vs g.2⟩
theorem GExt.goodItems {o r o' r'} (h : GExt o r o' r') :
    (v : List (Str × OptVal)) → GoodItems o r v → GoodItems o' r' v
  | [], _ => trivial
  | v :: vs, g => ⟨GExt.goodItem h v g.1, GExt.goodItems h vs g.2⟩
theorem GExt.goodItem {o r o' r'} (h : GExt o r o' r') :
    (v : Str × OptVal) → GoodItem o r v → GoodItem o' r' v
  | (_, v), g => GExt.goodVal h v g
end

theorem GExt.good {o r o' r'} (h : GExt o r o' r') : (n : Node) → Good o r n → Good o' r' n
  | .wrapped _ _ _, g => h.goodW g
  | .option _ _ _ _, g => 
    ⟨h.owner _ _ g.1, ⟨h.isOption g.2.1.1, h.under g.2.1.2⟩, h.isMessage g.2.2.1, h.isField g.2.2.2.1,
      h.under g.2.2.2.2⟩
  | .oneof _ _, g => ⟨h.owner _ _ g.1, h.isOneof g.2.1, h.rooted g.2.2⟩
  | .map _ _, g => ⟨h.owner _ _ g.1, h.isMap g.2⟩
  | .repeated _ none, g => h.owner _ _ g
  | .repeated _ (some t), g => ⟨h.owner _ _ g.1, g.2.1, GExt.good h t g.2.2⟩
  | .builtin _, _ => trivial
  | .value v, g => h.goodVal v g
  | .mapItem _ v, g => h.goodVal v g

theorem GExt.fieldShape {o r o' r'} (h : GExt o r o' r') {p t} (g : FieldShape r p t) :
    FieldShape r' p t := by
  rcases g with ⟨n, typ, s, op, e, g⟩ | ⟨n, typ, s, op, e, g⟩ | ⟨e, g⟩ | ⟨e, g⟩
  · exact .inl ⟨n, typ, s, op, h.kind e, g⟩
  · exact .inr (.inl ⟨n, typ, s, op, h.kind e, g⟩)
  · exact .inr (.inr (.inl ⟨h.isOneof e, g⟩))
  · exact .inr (.inr (.inr ⟨h.isMap e, g⟩))

/-! ### Hoare triples -/

/-- From `(o, r)` the computation preserves the invariant, and its normal result satisfies `Q`. -/
def Tri {α : Type} (o : Ghost) (r : Reg) (m : M α) (Q : Ghost → Reg → α → Prop) : Prop :=
  ∃ o', Ext o r o' (m r).2 ∧ Inv o' (m r).2 ∧ ∀ a, (m r).1 = .ok a → Q o' (m r).2 a

theorem Tri.pure {α} {o r} {a : α} {Q} (hi : Inv o r) (hq : Q o r a) : Tri o r (pure a : M α) Q :=
  ⟨o, Ext.refl _ _, hi, by intro b hb; cases hb; exact hq⟩

theorem Tri.panic {α} {o r} {p} {Q : Ghost → Reg → α → Prop} (hi : Inv o r) :
    Tri o r (M.panic p : M α) Q :=
  ⟨o, Ext.refl _ _, hi, by intro b hb; cases hb⟩

theorem Tri.bind {α β} {o r} {m : M α} {f : α → M β} {Q R} (hm : Tri o r m Q)
    (hf : ∀ o' r' a, m r = (.ok a, r') → Ext o r o' r' → Inv o' r' → Q o' r' a → Tri o' r' (f a) R) :
    Tri o r (m >>= f) R := by
  obtain ⟨o', he, hi, hq⟩ := hm
  unfold Tri
  simp only [M.bind_apply]
  rcases hmr : m r with ⟨res, r'⟩
  rw [hmr] at he hi hq
  cases res with
  | ok a =>
    obtain ⟨o'', he', hi', hq'⟩ := hf o' r' a hmr he hi (hq a rfl)
    exact ⟨o'', he.trans he', hi', hq'⟩
  | panic p => exact ⟨o', he, hi, by intro a ha; cases ha⟩
  | timeout => exact ⟨o', he, hi, by intro a ha; cases ha⟩

theorem Tri.get {β} {o r} {f : Reg → M β} {R} (h : Tri o r (f r) R) :
    Tri o r (M.get >>= f) R := h

theorem Tri.mono {α} {o r} {m : M α} {Q R : Ghost → Reg → α → Prop} (h : Tri o r m Q)
    (hqr : ∀ o' r' a, m r = (.ok a, r') → Ext o r o' r' → Inv o' r' → Q o' r' a → R o' r' a) :
    Tri o r m R := by
  obtain ⟨o', he, hi, hq⟩ := h
  refine ⟨o', he, hi, fun a ha => hqr o' _ a ?_ he hi (hq a ha)⟩
  rw [← ha]

/-- Allocation of one fresh node. -/
theorem Tri.alloc {o r} (hi : Inv o r) (mk : Nat → Node) :
    Tri o r M.alloc (fun o' _ a => o' a = some (mk a) ∧ a = r.next) := by
  refine ⟨fun a => if a = r.next then some (mk a) else o a, ?_, ?_, ?_⟩
  · refine (RO.alloc r).toExt ?_
    intro a n h
    have := hi.fresh a n h
    simp [show a ≠ r.next by omega, h]
  · have hext : Ext o r (fun a => if a = r.next then some (mk a) else o a) (M.alloc r).2 := by
      refine (RO.alloc r).toExt ?_
      intro a n h
      have := hi.fresh a n h
      simp [show a ≠ r.next by omega, h]
    refine ⟨?_, ?_, ?_, hi.regPtr, hi.cacheRooted, hi.regRooted, hi.protosHeap, hi.heapProtos, ?_, ?_, hi.ftCached, hi.scopeKey⟩
    · intro a n h
      simp only [M.alloc_apply]
      by_cases e : a = r.next
      · omega
      · simp only [e, ite_false] at h
        have := hi.fresh a n h
        omega
    · intro v n h
      obtain ⟨a, k, p, h1, h2, h3, h4⟩ := hi.cacheSome v n h
      exact ⟨a, k, p, h1, h2, h3, hext.owner _ _ h4⟩
    · exact hi.cacheNone
    · intro a t h
      obtain ⟨p, h1, h2⟩ := hi.ftKey a t h
      exact ⟨p, hext.owner _ _ h1, h2⟩
    · intro a t h
      exact ⟨(hi.ftGood a t h).1, hext.good t (hi.ftGood a t h).2⟩
  · intro a ha
    simp only [M.alloc_apply, Res.ok.injEq] at ha
    subst ha
    simp

/-! ### wrap -/

theorem wrap_tri {o r} (hi : Inv o r) {v : Vis} (hv : ∀ p, v = .at p → Under r p) :
    Tri o r (wrap v) (fun o' r' n => ∀ x, n = some x →
      ∃ a k p, v = .at p ∧ x = .wrapped a k p ∧ r'.cache v = some (some x) ∧ GoodW o' r' a k p) := by
  unfold Tri wrap
  split
  · next n hc =>
    refine ⟨o, Ext.refl _ _, hi, ?_⟩
    intro a ha x hx
    simp only [Res.ok.injEq] at ha
    subst ha hx
    obtain ⟨a, k, p, rfl, rfl, h3, h4⟩ := hi.cacheSome v x hc
    exact ⟨a, k, p, rfl, rfl, hc, h4, h3, hi.cacheRooted _ _ hc, fun _ => hc⟩
  · next hc =>
    split
    · next k p ht =>
      have hvp : v = .at p := by
        exact target_self ht
      subst hvp
      have hfr : ∀ a n, o a = some n → a ≠ r.next := fun a n h => by
        have := hi.fresh a n h; omega
      have hown : ∀ a n, o a = some n →
          (fun a => if a = r.next then some (Node.wrapped r.next k p) else o a) a = some n := by
        intro a n h
        simp [hfr a n h, h]
      have hce : CacheExt r { r with next := r.next + 1, cache := upd r.cache (.at p) (some (Node.wrapped r.next k p)) } :=
        ⟨rfl, rfl, rfl, rfl, upd_of_none hc, fun _ _ h => h, Nat.le_succ _, upd_nodes (.inr ⟨_, _, _, rfl, Nat.le_refl _⟩)⟩
      have hext := hce.toExt hown
      have hinv : Inv (fun a => if a = r.next then some (Node.wrapped r.next k p) else o a)
          { r with next := r.next + 1, cache := upd r.cache (.at p) (some (Node.wrapped r.next k p)) } := by
        refine ⟨?_, ?_, ?_, hi.regPtr, ?_, hi.regRooted, hi.protosHeap, hi.heapProtos, ?_, ?_,
          fun a t h => (hi.ftCached a t h).imp fun _ e => hext.cache _ _ e, hi.scopeKey⟩
        · intro a n h
          show a < r.next + 1
          by_cases e : a = r.next
          · omega
          · simp only [e, ite_false] at h
            have := hi.fresh a n h
            omega
        · intro w n h
          by_cases hw : w = .at p
          · subst hw
            simp only [upd, ite_true, Option.some.injEq] at h
            exact ⟨r.next, k, p, rfl, h.symm, ht, by simp [← h]⟩
          · simp only [upd, hw, ite_false] at h
            obtain ⟨a, k, p, h1, h2, h3, h4⟩ := hi.cacheSome w n h
            exact ⟨a, k, p, h1, h2, h3, hown _ _ h4⟩
        · intro w h
          by_cases hw : w = .at p
          · subst hw; simp [upd] at h
          · simp only [upd, hw, ite_false] at h
            exact hi.cacheNone w h
        · intro q n h
          by_cases hw : (Vis.at q) = .at p
          · cases hw; exact (hv p rfl).rooted ht
          · simp only [upd, hw, ite_false] at h
            exact hi.cacheRooted q n h
        · intro a t h
          obtain ⟨p, h1, h2⟩ := hi.ftKey a t h
          exact ⟨p, hown _ _ h1, h2⟩
        · intro a t h
          exact ⟨(hi.ftGood a t h).1, hext.good t (hi.ftGood a t h).2⟩
      refine ⟨_, hext, hinv, ?_⟩
      intro a ha x hx
      simp only [Res.ok.injEq] at ha
      subst ha
      simp only [Option.some.injEq] at hx
      subst hx
      refine ⟨r.next, k, p, rfl, rfl, by simp [upd], by simp, ?_, ?_, ?_⟩
      · exact ht
      · exact hext.rooted ((hv p rfl).rooted ht)
      · intro _; simp [upd]
    · next ht =>
      have hce : CacheExt r { r with cache := upd r.cache v none } :=
        ⟨rfl, rfl, rfl, rfl, upd_of_none hc, fun _ _ h => h, Nat.le_refl _, upd_nodes (.inl rfl)⟩
      have hext := hce.toExt (o := o) (fun _ _ h => h)
      refine ⟨o, hext, ?_, by intro a ha; cases ha⟩
      refine ⟨hi.fresh, ?_, ?_, hi.regPtr, ?_, hi.regRooted, hi.protosHeap, hi.heapProtos, hi.ftKey, ?_,
        fun a t h => (hi.ftCached a t h).imp fun _ e => hext.cache _ _ e, hi.scopeKey⟩
      · intro w n h
        by_cases hw : w = v
        · subst hw; simp [upd] at h
        · simp only [upd, hw, ite_false] at h
          exact hi.cacheSome w n h
      · intro w h
        by_cases hw : w = v
        · subst hw; exact ⟨ht, fun p hp => (hv p hp).live⟩
        · simp only [upd, hw, ite_false] at h
          exact hi.cacheNone w h
      · intro q n h
        by_cases hw : (Vis.at q) = v
        · subst hw; simp [upd] at h
        · simp only [upd, hw, ite_false] at h
          exact hi.cacheRooted q n h
      · intro a t h
        exact ⟨(hi.ftGood a t h).1, hext.good t (hi.ftGood a t h).2⟩

theorem wrapAs_tri {o r} (hi : Inv o r) {k : WKind} {p : Ptr} (hp : Under r p) :
    Tri o r (wrapAs k p) (fun o' r' n => ∃ a, n = .wrapped a k p ∧ GoodW o' r' a k p) := by
  refine Tri.bind (wrap_tri hi (v := .at p) (by intro q hq; cases hq; exact hp)) ?_
  intro o' r' n _ he hi' hq
  unfold assertKind
  split
  · next _ a k' q =>
    split
    · next hk =>
      subst hk
      obtain ⟨a', k'', p', h1, h2, h3, h4⟩ := hq _ rfl
      cases h1; cases h2
      exact Tri.pure hi' ⟨_, rfl, h4⟩
    · exact Tri.panic hi'
  · exact Tri.panic hi'

/-- A successful wrap, with no panic: for a supported element `wrap` returns the node. -/
theorem wrap_ok {o r} (hi : Inv o r) {k : WKind} {p : Ptr}
    (ht : r.wrapTarget (.at p) = some (k, p)) :
    ∃ a r', wrap (.at p) r = (.ok (some (.wrapped a k p)), r') ∧
      r'.cache (.at p) = some (some (.wrapped a k p)) := by
  unfold wrap
  cases hc : r.cache (.at p) with
  | some n =>
    cases n with
    | none => rw [(hi.cacheNone _ hc).1] at ht; cases ht
    | some n =>
      obtain ⟨a, k', p', h1, rfl, h3, _⟩ := hi.cacheSome _ _ hc
      cases h1
      rw [ht] at h3
      cases h3
      exact ⟨a, r, rfl, hc⟩
  | none =>
    simp only [ht]
    exact ⟨_, _, rfl, by simp [upd]⟩

end Protoast
