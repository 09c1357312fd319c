import Verif.Spec.Attr
import Verif.Spec.Names
import Verif.Proof.Acts
/-
  Renaming of files: two registries that hold the same files at different places of the heap, and whose
  wrappers have different addresses, behave alike.
-/
namespace Protoast

/-- A renaming: where the files are, and the addresses of the wrappers. `full`: the scopes recorded for files correspond
    as well. -/
structure Ren where
  file : Nat → Nat
  addr : Nat → Nat
  inj : ∀ i j, file i = file j → i = j
  ainj : ∀ a b, addr a = addr b → a = b
  full : Prop

variable (s : Ren)

/-- Renaming of pointers. -/
def Ren.ptr (p : Ptr) : Ptr := ⟨s.file p.file, p.path⟩

/-- Renaming of map keys. -/
def Ren.vis : Vis → Vis
  | .at p => .at (s.ptr p)
  | v => v

mutual
/-- Renaming of option values. -/
def Ren.val : OptVal → OptVal
  | .bool o l v => .bool (o.map s.ptr) l v
  | .int o l v => .int (o.map s.ptr) l v
  | .uint o l v => .uint (o.map s.ptr) l v
  | .float o l v => .float (o.map s.ptr) l v
  | .string o l v => .string (o.map s.ptr) l v
  | .bytes o l v => .bytes (o.map s.ptr) l v
  | .enum o l a p => .enum (o.map s.ptr) l (s.addr a) (s.ptr p)
  | .array o vs => .array (o.map s.ptr) (Ren.vals vs)
  | .map o l items => .map (o.map s.ptr) l (Ren.items items)
def Ren.vals : List OptVal → List OptVal
  | [] => []
  | v :: vs => Ren.val v :: Ren.vals vs
def Ren.items : List (Str × OptVal) → List (Str × OptVal)
  | [] => []
  | kv :: rest => Ren.item kv :: Ren.items rest
def Ren.item : Str × OptVal → Str × OptVal
  | (k, v) => (k, Ren.val v)
end

/-- Renaming of nodes. -/
def Ren.node : Node → Node
  | .wrapped a k p => .wrapped (s.addr a) k (s.ptr p)
  | .option a p c f => .option (s.addr a) (s.ptr p) (s.ptr c) (s.ptr f)
  | .oneof a p => .oneof (s.addr a) (s.ptr p)
  | .map a p => .map (s.addr a) (s.ptr p)
  | .repeated a none => .repeated (s.addr a) none
  | .repeated a (some t) => .repeated (s.addr a) (some (Ren.node t))
  | .builtin b => .builtin b
  | .value v => .value (s.val v)
  | .mapItem k v => .mapItem k (s.val v)

mutual
/-- The pointers of an option value do not point to files. -/
def DeepVal : OptVal → Prop
  | .enum _ _ _ p => p.path ≠ []
  | .array _ vs => DeepVals vs
  | .map _ _ items => DeepItems items
  | _ => True
def DeepVals : List OptVal → Prop
  | [] => True
  | v :: vs => DeepVal v ∧ DeepVals vs
def DeepItems : List (Str × OptVal) → Prop
  | [] => True
  | kv :: rest => DeepItem kv ∧ DeepItems rest
def DeepItem : Str × OptVal → Prop
  | (_, v) => DeepVal v
end

/-- Only file nodes point to files. -/
def Deep : Node → Prop
  | .wrapped _ k p => k = .file ↔ p.path = []
  | .option _ p c f => p.path ≠ [] ∧ c.path ≠ [] ∧ f.path ≠ []
  | .oneof _ p => p.path ≠ []
  | .map _ p => p.path ≠ []
  | .repeated _ none => True
  | .repeated _ (some t) => Deep t
  | .builtin _ => True
  | .value v => DeepVal v
  | .mapItem _ v => DeepVal v

/-- The nodes correspond. -/
def Ren.nd (n1 n2 : Node) : Prop := n2 = s.node n1 ∧ Deep n1

/-- The possibly-nil nodes correspond. -/
def Ren.opt (o1 o2 : Option Node) : Prop := o2 = o1.map s.node ∧ ∀ n, o1 = some n → Deep n

/-- The lists of nodes correspond. -/
def Ren.nds (l1 l2 : List Node) : Prop := l2 = l1.map s.node ∧ ∀ n ∈ l1, Deep n

/-- The option values correspond. -/
def Ren.vl (v1 v2 : OptVal) : Prop := v2 = s.val v1 ∧ DeepVal v1

/-- The two registries correspond. -/
structure Sim (r1 r2 : Reg) : Prop where
  heap : ∀ i, r2.heap[s.file i]? = r1.heap[i]?
  new : ∀ k, s.file (r1.heap.length + k) = r2.heap.length + k
  protos : ∀ path, r2.protos path = (r1.protos path).map s.file
  names : ∀ name, r2.registry name = (r1.registry name).map s.ptr
  deep : ∀ name p, r1.registry name = some p → p.path ≠ []
  scopes : ∀ p : Ptr, p.path ≠ [] → r2.scopes (.at (s.ptr p)) = r1.scopes (.at p)
  cache : ∀ v, r2.cache (s.vis v) = (r1.cache v).map (Option.map s.node)
  cached : ∀ v n, r1.cache v = some (some n) → ∃ a k p, n = .wrapped a k p ∧ v = .at p ∧ (k = .file ↔ p.path = [])
  ftcache : ∀ a, r2.ftcache (s.addr a) = (r1.ftcache a).map (Option.map s.node)
  ftdeep : ∀ a n, r1.ftcache a = some (some n) → Deep n
  next : ∀ k, s.addr (r1.next + k) = r2.next + k
  scopesFull : s.full → ∀ v, r2.scopes (s.vis v) = r1.scopes v

/-- Corresponding outcomes. -/
def ResRel {α β : Type} (R : α → β → Prop) : Res α → Res β → Prop
  | .ok a, .ok b => R a b
  | .panic e, .panic e' => e = e'
  | .timeout, .timeout => True
  | _, _ => False

/-- The computations do corresponding things in corresponding states. -/
def Eqv {α β : Type} (R : α → β → Prop) (m1 : M α) (m2 : M β) : Prop :=
  ∀ r1 r2, Sim s r1 r2 → ResRel R (m1 r1).1 (m2 r2).1 ∧ Sim s (m1 r1).2 (m2 r2).2

variable {s}

theorem Eqv.pure {α β : Type} {R : α → β → Prop} {a b} (h : R a b) : Eqv s R (Pure.pure a) (Pure.pure b) :=
  fun _ _ hs => ⟨h, hs⟩

theorem Eqv.panic {α β : Type} {R : α → β → Prop} {e} : Eqv s R (M.panic e) (M.panic e) :=
  fun _ _ hs => ⟨rfl, hs⟩

theorem Eqv.bind {α β γ δ : Type} {R : α → β → Prop} {S : γ → δ → Prop} {m1 m2} {f : α → M γ} {g : β → M δ}
    (h : Eqv s R m1 m2) (k : ∀ a b, R a b → Eqv s S (f a) (g b)) : Eqv s S (m1 >>= f) (m2 >>= g) := by
  intro r1 r2 hs
  have h0 := h r1 r2 hs
  simp only [M.bind_apply]
  rcases h1 : m1 r1 with ⟨res1, r1'⟩
  rcases h2 : m2 r2 with ⟨res2, r2'⟩
  rw [h1, h2] at h0
  cases res1 <;> cases res2 <;> simp only [ResRel] at h0 <;> try exact h0.1.elim
  · exact k _ _ h0.1 _ _ h0.2
  · exact ⟨h0.1, h0.2⟩
  · exact ⟨trivial, h0.2⟩

theorem Eqv.get {γ δ : Type} {S : γ → δ → Prop} {f : Reg → M γ} {g : Reg → M δ}
    (k : ∀ r1 r2, Sim s r1 r2 → Eqv s S (f r1) (g r2)) : Eqv s S (M.get >>= f) (M.get >>= g) :=
  fun r1 r2 hs => k r1 r2 hs r1 r2 hs

theorem Eqv.mono {α β : Type} {R S : α → β → Prop} {m1 m2} (h : Eqv s R m1 m2) (hRS : ∀ a b, R a b → S a b) :
    Eqv s S m1 m2 := by
  intro r1 r2 hs
  obtain ⟨h1, h2⟩ := h r1 r2 hs
  refine ⟨?_, h2⟩
  revert h1
  cases (m1 r1).1 <;> cases (m2 r2).1 <;> simp only [ResRel] <;> first | exact id | exact hRS _ _

theorem Sim.next_succ {r1 r2 : Reg} (hs : Sim s r1 r2) (k : Nat) : s.addr (r1.next + 1 + k) = r2.next + 1 + k := by
  have := hs.next (1 + k)
  rw [Nat.add_assoc, this, Nat.add_assoc]

theorem Eqv.alloc : Eqv s (fun a b => b = s.addr a) M.alloc M.alloc := by
  intro r1 r2 hs
  refine ⟨(hs.next 0).symm, ?_⟩
  exact { hs with next := hs.next_succ }

/-! ### Reading -/

theorem Ren.ptr_inj {p q : Ptr} (h : s.ptr p = s.ptr q) : p = q := by
  rcases p with ⟨i, l⟩; rcases q with ⟨j, m⟩
  simp only [Ren.ptr, Ptr.mk.injEq] at h
  rw [s.inj _ _ h.1, h.2]

theorem Ren.ptr_iff {p q : Ptr} : s.ptr p = s.ptr q ↔ p = q := ⟨Ren.ptr_inj, fun h => h ▸ rfl⟩

theorem Ren.vis_inj {v w : Vis} (h : s.vis v = s.vis w) : v = w := by
  cases v <;> cases w <;> simp only [Ren.vis] at h <;> first | rfl | cases h | skip
  rw [Ren.ptr_inj (Vis.at.inj h)]

theorem Ren.child (p : Ptr) (i : Nat) : (s.ptr p).child i = s.ptr (p.child i) := rfl

theorem Ren.parent {p : Ptr} : (s.ptr p).parent = s.vis p.parent := by
  rcases p with ⟨i, l⟩
  cases l <;> rfl

theorem Sim.elem {r1 r2} (h : Sim s r1 r2) (p : Ptr) : r2.elem (s.ptr p) = r1.elem p := by
  simp only [Reg.elem, Ren.ptr, h.heap]

theorem Sim.kind {r1 r2} (h : Sim s r1 r2) (p : Ptr) : r2.kind (s.ptr p) = r1.kind p := by
  simp only [Reg.kind, h.elem]

theorem Sim.children {r1 r2} (h : Sim s r1 r2) (p : Ptr) : r2.children (s.ptr p) = r1.children p := by
  simp only [Reg.children, Ren.ptr, h.heap]

theorem Ren.kidsFrom (p : Ptr) : ∀ (es : List Elem) (n : Nat),
    kidsFrom (s.ptr p) n es = (Protoast.kidsFrom p n es).map (fun qe => (s.ptr qe.1, qe.2)) := by
  intro es
  induction es with
  | nil => intro n; rfl
  | cons e es ih => intro n; simp only [Protoast.kidsFrom, List.map_cons, ih, Ren.child]

theorem Sim.kids {r1 r2} (h : Sim s r1 r2) (p : Ptr) :
    r2.kids (s.ptr p) = (r1.kids p).map (fun qe => (s.ptr qe.1, qe.2)) := by
  simp only [Reg.kids, h.children, Ren.kidsFrom]

theorem kidsFrom_deep {p : Ptr} : ∀ (es : List Elem) (n : Nat) q e, (q, e) ∈ kidsFrom p n es → q.path ≠ [] := by
  intro es
  induction es with
  | nil => intro n q e h; cases h
  | cons x es ih =>
    intro n q e h
    simp only [kidsFrom, List.mem_cons, Prod.mk.injEq] at h
    rcases h with ⟨rfl, -⟩ | h
    · simp [Ptr.child]
    · exact ih _ _ _ h

theorem Sim.defined {r1 r2} (h : Sim s r1 r2) : r2.defined = r1.defined := by
  funext n
  simp only [Reg.defined, h.names, Option.isSome_map]

theorem Sim.scope {r1 r2} (h : Sim s r1 r2) {p : Ptr} (hp : p.path ≠ []) :
    r2.scope (.at (s.ptr p)) = r1.scope (.at p) := by
  simp only [Reg.scope, h.scopes p hp]

theorem Sim.wrapTarget {r1 r2} (h : Sim s r1 r2) (v : Vis) :
    r2.wrapTarget (s.vis v) = (r1.wrapTarget v).map (fun kp => (kp.1, s.ptr kp.2)) := by
  cases v with
  | «at» p =>
    rcases p with ⟨i, l⟩
    cases l with
    | nil =>
      simp only [Ren.vis, Ren.ptr, Reg.wrapTarget]
      have h1 := h.heap i
      by_cases hi : i < r1.heap.length
      · rw [if_pos hi, if_pos]
        · rfl
        · rw [List.getElem?_eq_getElem hi] at h1
          exact (List.getElem?_eq_some_iff.mp h1).1
      · rw [if_neg hi, if_neg]
        · rfl
        · have := h.new (i - r1.heap.length)
          rw [Nat.add_sub_cancel' (Nat.le_of_not_lt hi)] at this
          omega
    | cons j t =>
      have := h.kind ⟨i, j :: t⟩
      simp only [Ren.vis, Ren.ptr, Reg.wrapTarget] at this ⊢
      rw [this]
      cases (r1.kind ⟨i, j :: t⟩).bind wrapKind <;> rfl
  | _ => rfl

theorem Sim.isRepeatedField {r1 r2} (h : Sim s r1 r2) (p : Ptr) :
    r2.isRepeatedField (s.ptr p) = r1.isRepeatedField p := by
  simp only [Reg.isRepeatedField, h.kind]

theorem wrapKind_not_file : ∀ {kd : Kind} {k}, wrapKind kd = some k → k ≠ .file := by
  intro kd k h
  cases kd <;> simp [wrapKind] at h <;> subst h <;> simp

theorem wrapTarget_deep {r : Reg} {v k p} (h : r.wrapTarget v = some (k, p)) :
    v = .at p ∧ (k = .file ↔ p.path = []) := by
  cases v with
  | «at» q =>
    rcases q with ⟨i, l⟩
    cases l with
    | nil =>
      simp only [Reg.wrapTarget] at h
      split at h
      · cases h; simp
      · cases h
    | cons j t =>
      simp only [Reg.wrapTarget, Option.map_eq_some_iff, Option.bind_eq_some_iff] at h
      obtain ⟨k', ⟨kd, -, hk⟩, h⟩ := h
      cases h
      refine ⟨rfl, ?_⟩
      simp [wrapKind_not_file hk]
  | _ => cases h

/-! ### Wrapping -/

/-- What `wrap` gives for `v`. -/
def WrapR (s : Ren) (v : Vis) (o1 o2 : Option Node) : Prop :=
  o2 = o1.map s.node ∧ ∀ n, o1 = some n → ∃ a k p, n = .wrapped a k p ∧ v = .at p ∧ (k = .file ↔ p.path = [])

theorem Eqv.wrap (v : Vis) : Eqv s (WrapR s v) (Protoast.wrap v) (Protoast.wrap (s.vis v)) := by
  intro r1 r2 hs
  unfold Protoast.wrap
  rw [hs.cache v, hs.wrapTarget v]
  cases hc : r1.cache v with
  | some n =>
    refine ⟨⟨rfl, ?_⟩, hs⟩
    intro m hm
    subst hm
    exact hs.cached _ _ hc
  | none =>
    have hupd : ∀ (x : Option Node) w, upd r2.cache (s.vis v) (x.map s.node) (s.vis w) =
        (upd r1.cache v x w).map (Option.map s.node) := by
      intro x w
      by_cases hw : w = v
      · subst hw; simp [upd]
      · have : s.vis w ≠ s.vis v := fun h => hw (Ren.vis_inj h)
        simp [upd, hw, this, hs.cache]
    cases ht : r1.wrapTarget v with
    | some kp =>
      rcases kp with ⟨k, p⟩
      obtain ⟨rfl, hd⟩ := wrapTarget_deep ht
      have hn : s.node (.wrapped r1.next k p) = .wrapped r2.next k (s.ptr p) := by
        have := hs.next 0; simp only [Nat.add_zero] at this; simp [Ren.node, this]
      refine ⟨⟨?_, ?_⟩, ?_⟩
      · simp [hn]
      · intro n h; cases h; exact ⟨_, _, _, rfl, rfl, hd⟩
      · refine { hs with cache := ?_, cached := ?_, next := ?_ }
        · intro w
          have := hupd (some (.wrapped r1.next k p)) w
          simp only [Option.map_some, hn] at this ⊢
          exact this
        · intro w n h
          simp only [upd] at h
          split at h
          · rename_i hw
            cases h
            exact ⟨_, _, _, rfl, hw, hd⟩
          · exact hs.cached _ _ h
        · exact hs.next_succ
    | none =>
      refine ⟨rfl, { hs with cache := ?_, cached := ?_ }⟩
      · exact hupd none
      · intro w n h
        simp only [upd] at h
        split at h
        · cases h
        · exact hs.cached _ _ h

theorem WrapR.opt {v o1 o2} (h : WrapR s v o1 o2) : s.opt o1 o2 := by
  refine ⟨h.1, ?_⟩
  intro n hn
  obtain ⟨a, k, p, rfl, -, hd⟩ := h.2 n hn
  exact hd

/-- A type assertion. -/
def KindR (s : Ren) (k : WKind) (n1 n2 : Node) : Prop :=
  s.nd n1 n2 ∧ ∃ a p, n1 = .wrapped a k p

theorem Eqv.assertKind (k : WKind) {o1 o2} (h : s.opt o1 o2) :
    Eqv s (KindR s k) (Protoast.assertKind k o1) (Protoast.assertKind k o2) := by
  obtain ⟨rfl, hd⟩ := h
  cases o1 with
  | none => exact Eqv.panic
  | some n =>
    have hd := hd n rfl
    cases n with
    | wrapped a k' p =>
      simp only [Option.map_some, Ren.node, Protoast.assertKind]
      split
      · rename_i hk; subst hk; exact Eqv.pure ⟨⟨rfl, hd⟩, _, _, rfl⟩
      · exact Eqv.panic
    | «repeated» a t => cases t <;> exact Eqv.panic
    | _ => exact Eqv.panic

theorem Eqv.wrapAs (k : WKind) (p : Ptr) : Eqv s (KindR s k) (Protoast.wrapAs k p) (Protoast.wrapAs k (s.ptr p)) :=
  Eqv.bind (Eqv.wrap (.at p)) fun _ _ h => Eqv.assertKind k h.opt

theorem KindR.nd {k n1 n2} (h : KindR s k n1 n2) : s.nd n1 n2 := h.1

theorem Eqv.wrapNamed (p : Ptr) : Eqv s s.nd (Protoast.wrapNamed p) (Protoast.wrapNamed (s.ptr p)) := by
  refine Eqv.bind (Eqv.wrap (.at p)) ?_
  rintro o1 o2 ⟨rfl, hd⟩
  cases o1 with
  | none => exact Eqv.panic
  | some n =>
    obtain ⟨a, k, q, rfl, -, hd⟩ := hd n rfl
    cases k <;> first | exact Eqv.panic | exact Eqv.pure ⟨rfl, hd⟩

theorem Eqv.someOf {m1 m2 : M Node} (h : Eqv s s.nd m1 m2) :
    Eqv s s.opt (m1 >>= fun n => Pure.pure (some n)) (m2 >>= fun n => Pure.pure (some n)) :=
  Eqv.bind h fun _ _ h => Eqv.pure ⟨by rw [h.1]; rfl, fun _ e => by cases e; exact h.2⟩

theorem Ren.opt_none : s.opt none none := ⟨rfl, fun _ h => by cases h⟩

/-! ### Loops over children -/

/-- Lists with corresponding elements. -/
inductive AllRel {α β : Type} (R : α → β → Prop) : List α → List β → Prop where
  | nil : AllRel R [] []
  | cons {a b as bs} : R a b → AllRel R as bs → AllRel R (a :: as) (b :: bs)

theorem AllRel.get {α β : Type} {R : α → β → Prop} {l1 l2} (h : AllRel R l1 l2) (i : Nat) :
    (l1[i]? = none ∧ l2[i]? = none) ∨ ∃ a b, l1[i]? = some a ∧ l2[i]? = some b ∧ R a b := by
  induction h generalizing i with
  | nil => exact .inl ⟨rfl, rfl⟩
  | cons hab _ ih =>
    cases i with
    | zero => exact .inr ⟨_, _, rfl, rfl, hab⟩
    | succ i => simpa using ih i

theorem Eqv.overKids {α : Type} {R : α → α → Prop} (p : Ptr) {pick : Ptr → Kind → Option (M α)}
    (h : ∀ q k, q.path ≠ [] → (pick q k = none ∧ pick (s.ptr q) k = none) ∨
      ∃ m1 m2, pick q k = some m1 ∧ pick (s.ptr q) k = some m2 ∧ Eqv s R m1 m2) :
    Eqv s (AllRel (Eqv s R)) (Protoast.overKids p pick) (Protoast.overKids (s.ptr p) pick) := by
  refine Eqv.get fun r1 r2 hs => Eqv.pure ?_
  rw [hs.kids]
  have hk : ∀ q e, (q, e) ∈ r1.kids p → q.path ≠ [] := fun q e => kidsFrom_deep _ _ q e
  generalize r1.kids p = l at hk
  induction l with
  | nil => exact AllRel.nil
  | cons qe l ih =>
    have ih := ih fun q e hq => hk q e (List.mem_cons_of_mem _ hq)
    have h0 := h qe.1 qe.2.kind (hk qe.1 qe.2 (List.mem_cons_self ..))
    simp only [List.map_cons, List.filterMap_cons]
    rcases h0 with ⟨e1, e2⟩ | ⟨m1, m2, e1, e2, hm⟩
    · simp only [e1, e2]; exact ih
    · simp only [e1, e2]; exact AllRel.cons hm ih

theorem Eqv.nth {α : Type} {R : α → α → Prop} {q1 q2 : Seq α} (h : Eqv s (AllRel (Eqv s R)) q1 q2) (i : Nat) :
    Eqv s (fun o1 o2 => (o1 = none ∧ o2 = none) ∨ ∃ a b, o1 = some a ∧ o2 = some b ∧ R a b) (q1.nth i) (q2.nth i) := by
  refine Eqv.bind h fun l1 l2 hl => ?_
  rcases hl.get i with ⟨e1, e2⟩ | ⟨m1, m2, e1, e2, hm⟩
  · simp only [e1, e2]; exact Eqv.pure (.inl ⟨rfl, rfl⟩)
  · simp only [e1, e2]
    exact Eqv.bind hm fun a b hab => Eqv.pure (.inr ⟨a, b, rfl, rfl, hab⟩)

theorem Eqv.nthNode {q1 q2 : Seq Node} (h : Eqv s (AllRel (Eqv s s.nd)) q1 q2) (i : Nat) :
    Eqv s s.opt (q1.nth i) (q2.nth i) :=
  (Eqv.nth h i).mono fun o1 o2 h => by
    rcases h with ⟨rfl, rfl⟩ | ⟨a, b, rfl, rfl, h⟩
    · exact Ren.opt_none
    · exact ⟨by rw [h.1]; rfl, fun _ e => by cases e; exact h.2⟩

theorem Eqv.nthOpt {q1 q2 : Seq (Option Node)} (h : Eqv s (AllRel (Eqv s s.opt)) q1 q2) (i : Nat) :
    Eqv s s.opt (q1.nth i >>= fun x => Pure.pure (flatOpt x)) (q2.nth i >>= fun x => Pure.pure (flatOpt x)) :=
  Eqv.bind (Eqv.nth h i) fun o1 o2 h => by
    rcases h with ⟨rfl, rfl⟩ | ⟨a, b, rfl, rfl, h⟩
    · exact Eqv.pure Ren.opt_none
    · exact Eqv.pure h

theorem Sim.find {r1 r2 : Reg} (hs : Sim s r1 r2) (p : Ptr) (f : Ptr × Elem → Bool) (hf : ∀ q e, f (s.ptr q, e) = f (q, e)) :
    (r2.kids (s.ptr p)).find? f = ((r1.kids p).find? f).map (fun qe => (s.ptr qe.1, qe.2)) := by
  rw [hs.kids, List.find?_map]
  have : (f ∘ fun qe : Ptr × Elem => (s.ptr qe.1, qe.2)) = f := by
    funext qe
    exact hf qe.1 qe.2
  rw [this]

theorem find_deep {r : Reg} {p : Ptr} {f : Ptr × Elem → Bool} {q e} (h : (r.kids p).find? f = some (q, e)) :
    q.path ≠ [] := kidsFrom_deep _ _ q e (List.mem_of_find?_eq_some h)

theorem Ren.find_kids {r1 r2 : Reg} (hs : Sim s r1 r2) (p : Ptr) (sel : Kind → Bool) :
    ((r1.kids p).find? (fun qe => sel qe.2.kind) = none ∧ (r2.kids (s.ptr p)).find? (fun qe => sel qe.2.kind) = none) ∨
    ∃ q e, (r1.kids p).find? (fun qe => sel qe.2.kind) = some (q, e) ∧
      (r2.kids (s.ptr p)).find? (fun qe => sel qe.2.kind) = some (s.ptr q, e) ∧ q.path ≠ [] ∧ sel e.kind = true := by
  rw [hs.kids, List.find?_map]
  have hcomp : ((fun qe : Ptr × Elem => sel qe.2.kind) ∘ fun qe : Ptr × Elem => (s.ptr qe.1, qe.2)) =
      (fun qe : Ptr × Elem => sel qe.2.kind) := rfl
  rw [hcomp]
  cases h : (r1.kids p).find? (fun qe => sel qe.2.kind) with
  | none => exact .inl ⟨rfl, rfl⟩
  | some qe =>
    refine .inr ⟨qe.1, qe.2, rfl, rfl, kidsFrom_deep _ _ qe.1 qe.2 (List.mem_of_find?_eq_some h), ?_⟩
    have := List.find?_some h
    exact this

theorem Eqv.firstKid (p : Ptr) (k : WKind) (sel : Kind → Bool) :
    Eqv s s.opt (Protoast.firstKid p k sel) (Protoast.firstKid (s.ptr p) k sel) := by
  refine Eqv.get fun r1 r2 hs => ?_
  rcases Ren.find_kids hs p sel with ⟨e1, e2⟩ | ⟨q, e, e1, e2, -⟩
  · simp only [e1, e2]; exact Eqv.pure Ren.opt_none
  · simp only [e1, e2]; exact Eqv.someOf ((Eqv.wrapAs k q).mono fun _ _ h => h.nd)

end Protoast
