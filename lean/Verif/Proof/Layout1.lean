import Verif.Spec.Layout
import Verif.Proof.Acts
/-
  Erasing the layout of files: a registry and the same registry without layout behave alike.
-/
namespace Protoast.Layout

/-- A file without layout. -/
def fileP (f : ProtoFile) : ProtoFile := { filename := f.filename, elems := Elem.plains f.elems }

/-- A registry without layout. -/
def regP (r : Reg) : Reg :=
  { r with
    heap := r.heap.map fileP
    cache := fun v => (r.cache v).map (Option.map Node.shorn)
    ftcache := fun a => (r.ftcache a).map (Option.map Node.shorn) }

/-- A world without layout. -/
def worldP (W : World) : World := { W with load := fun n p => plainLoad (W.load n p) }

/-- The second registry is the first without layout. -/
def Sim (r1 r2 : Reg) : Prop := r2 = regP r1

/-- Corresponding outcomes. -/
def ResRel {α β : Type} (R : α → β → Prop) : Res α → Res β → Prop
  | .ok a, .ok b => R a b
  | .panic e, .panic e' => e = e'
  | .timeout, .timeout => True
  | _, _ => False

/-- The computations do corresponding things in corresponding states. -/
def Eqv {α β : Type} (R : α → β → Prop) (m1 : M α) (m2 : M β) : Prop :=
  ∀ r1 r2, Sim r1 r2 → ResRel R (m1 r1).1 (m2 r2).1 ∧ Sim (m1 r1).2 (m2 r2).2

/-- Equality of results. -/
abbrev EqvEq {α : Type} (m1 m2 : M α) : Prop := Eqv (fun a b => a = b) m1 m2

/-- The nodes correspond. -/
def nd (n1 n2 : Node) : Prop := n2 = n1.shorn
/-- The possibly-nil nodes correspond. -/
def opt (o1 o2 : Option Node) : Prop := o2 = o1.map Node.shorn
/-- The lists of nodes correspond. -/
def nds (l1 l2 : List Node) : Prop := l2 = l1.map Node.shorn
/-- The option values correspond. -/
def vl (v1 v2 : OptVal) : Prop := v2 = v1.shorn

theorem Eqv.pure {α β : Type} {R : α → β → Prop} {a b} (h : R a b) : Eqv R (Pure.pure a) (Pure.pure b) :=
  fun _ _ hs => ⟨h, hs⟩

theorem Eqv.panic {α β : Type} {R : α → β → Prop} {e} : Eqv R (M.panic e) (M.panic e) :=
  fun _ _ hs => ⟨rfl, hs⟩

theorem Eqv.bind {α β γ δ : Type} {R : α → β → Prop} {S : γ → δ → Prop} {m1 m2} {f : α → M γ} {g : β → M δ}
    (h : Eqv R m1 m2) (k : ∀ a b, R a b → Eqv S (f a) (g b)) : Eqv S (m1 >>= f) (m2 >>= g) := by
  intro r1 r2 hs
  have h0 := h r1 r2 hs
  simp only [M.bind_apply]
  rcases h1 : m1 r1 with ⟨res1, r1'⟩
  rcases h2 : m2 r2 with ⟨res2, r2'⟩
  rw [h1, h2] at h0
  cases res1 <;> cases res2 <;> simp only [ResRel] at h0 <;> try exact h0.1.elim
  · exact k _ _ h0.1 _ _ h0.2
  · exact ⟨h0.1, h0.2⟩
  · exact ⟨trivial, h0.2⟩

theorem Eqv.get {γ δ : Type} {S : γ → δ → Prop} {f : Reg → M γ} {g : Reg → M δ}
    (k : ∀ r1 r2, Sim r1 r2 → Eqv S (f r1) (g r2)) : Eqv S (M.get >>= f) (M.get >>= g) :=
  fun r1 r2 hs => k r1 r2 hs r1 r2 hs

theorem Eqv.mono {α β : Type} {R S : α → β → Prop} {m1 m2} (h : Eqv R m1 m2) (hRS : ∀ a b, R a b → S a b) :
    Eqv S m1 m2 := by
  intro r1 r2 hs
  obtain ⟨h1, h2⟩ := h r1 r2 hs
  refine ⟨?_, h2⟩
  revert h1
  cases (m1 r1).1 <;> cases (m2 r2).1 <;> simp only [ResRel] <;> first | exact id | exact hRS _ _

theorem Eqv.alloc : EqvEq M.alloc M.alloc := by
  rintro r1 _ rfl
  exact ⟨rfl, rfl⟩

/-! ### Reading -/

theorem plains_eq : ∀ es : List Elem, Elem.plains es = es.map Elem.shorn
  | [] => by simp [Elem.plains]
  | e :: es => by simp [Elem.plains, plains_eq es]

theorem elem_kind (e : Elem) : e.shorn.kind = e.kind.shorn := by cases e; simp [Elem.shorn, Elem.kind]
theorem elem_children (e : Elem) : e.shorn.children = e.children.map Elem.shorn := by
  cases e; simp [Elem.shorn, Elem.children, plains_eq]
theorem elem_pos (e : Elem) : e.shorn.pos = e.pos.shorn := by cases e; simp [Elem.shorn, Elem.pos]

theorem childrenAt_plain (f : ProtoFile) : ∀ path, (fileP f).childrenAt path = (f.childrenAt path).map (List.map Elem.shorn)
  | [] => by simp [ProtoFile.childrenAt, fileP, plains_eq]
  | i :: rest => by
    simp only [ProtoFile.childrenAt, childrenAt_plain f rest]
    cases f.childrenAt rest with
    | none => rfl
    | some es =>
      simp only [Option.map_some, Option.bind_some, List.getElem?_map]
      cases es[i]? with
      | none => rfl
      | some e => simp [elem_children]

theorem elemAt_plain (f : ProtoFile) (path) : (fileP f).elemAt path = (f.elemAt path).map Elem.shorn := by
  cases path with
  | nil => rfl
  | cons i rest =>
    simp only [ProtoFile.elemAt, childrenAt_plain]
    cases f.childrenAt rest with
    | none => rfl
    | some es => simp

theorem Sim.heap {r1 r2} (h : Sim r1 r2) (i : Nat) : r2.heap[i]? = (r1.heap[i]?).map fileP := by
  subst h; simp [regP]

theorem Sim.length {r1 r2} (h : Sim r1 r2) : r2.heap.length = r1.heap.length := by
  subst h; simp [regP]

theorem Sim.protos {r1 r2} (h : Sim r1 r2) : r2.protos = r1.protos := by subst h; rfl
theorem Sim.names {r1 r2} (h : Sim r1 r2) : r2.registry = r1.registry := by subst h; rfl
theorem Sim.scopes {r1 r2} (h : Sim r1 r2) : r2.scopes = r1.scopes := by subst h; rfl
theorem Sim.defined {r1 r2} (h : Sim r1 r2) : r2.defined = r1.defined := by subst h; rfl
theorem Sim.scope {r1 r2} (h : Sim r1 r2) : r2.scope = r1.scope := by subst h; rfl

theorem Sim.elem {r1 r2} (h : Sim r1 r2) (p : Ptr) : r2.elem p = (r1.elem p).map Elem.shorn := by
  simp only [Reg.elem, h.heap]
  cases r1.heap[p.file]? with
  | none => rfl
  | some f => simp [elemAt_plain]

theorem Sim.kind {r1 r2} (h : Sim r1 r2) (p : Ptr) : r2.kind p = (r1.kind p).map Kind.shorn := by
  simp only [Reg.kind, h.elem]
  cases r1.elem p <;> simp [elem_kind]

theorem Sim.children {r1 r2} (h : Sim r1 r2) (p : Ptr) : r2.children p = (r1.children p).map (List.map Elem.shorn) := by
  simp only [Reg.children, h.heap]
  cases r1.heap[p.file]? with
  | none => rfl
  | some f => simp [childrenAt_plain]

theorem kidsFrom_plain (p : Ptr) : ∀ (es : List Elem) (n : Nat),
    kidsFrom p n (es.map Elem.shorn) = (kidsFrom p n es).map (fun qe => (qe.1, qe.2.shorn)) := by
  intro es
  induction es with
  | nil => intro n; rfl
  | cons e es ih => intro n; simp only [kidsFrom, List.map_cons, ih]

theorem Sim.kids {r1 r2} (h : Sim r1 r2) (p : Ptr) :
    r2.kids p = (r1.kids p).map (fun qe => (qe.1, qe.2.shorn)) := by
  simp only [Reg.kids, h.children]
  cases r1.children p with
  | none => rfl
  | some es => exact kidsFrom_plain p es 0

theorem Sim.wrapTarget {r1 r2} (h : Sim r1 r2) (v : Vis) : r2.wrapTarget v = r1.wrapTarget v := by
  cases v with
  | «at» p =>
    rcases p with ⟨i, l⟩
    cases l with
    | nil => simp only [Reg.wrapTarget, h.length]
    | cons j t =>
      simp only [Reg.wrapTarget, h.kind]
      cases r1.kind ⟨i, j :: t⟩ with
      | none => rfl
      | some k => cases k <;> rfl
  | _ => rfl

theorem Sim.isRepeatedField {r1 r2} (h : Sim r1 r2) (p : Ptr) : r2.isRepeatedField p = r1.isRepeatedField p := by
  simp only [Reg.isRepeatedField, h.kind]
  cases r1.kind p with
  | none => rfl
  | some k => cases k <;> rfl

/-! ### Wrapping -/

theorem upd_map {κ : Type} [DecidableEq κ] (c : κ → Option (Option Node)) (v : κ) (x : Option Node) :
    upd (fun v => (c v).map (Option.map Node.shorn)) v (x.map Node.shorn) =
      fun w => (upd c v x w).map (Option.map Node.shorn) := by
  funext w
  simp only [upd]
  split <;> rfl

theorem wrap_eqv (v : Vis) : Eqv opt (Protoast.wrap v) (Protoast.wrap v) := by
  intro r1 r2 hs
  have ht := hs.wrapTarget v
  have hs' := hs
  subst hs'
  unfold Protoast.wrap
  rw [ht]
  cases hc : r1.cache v with
  | some n =>
    have h2 : (regP r1).cache v = some (n.map Node.shorn) := by simp [regP, hc]
    simp only [h2]
    exact ⟨rfl, rfl⟩
  | none =>
    have h2 : (regP r1).cache v = none := by simp [regP, hc]
    simp only [h2]
    cases r1.wrapTarget v with
    | some kp =>
      refine ⟨rfl, ?_⟩
      have := upd_map r1.cache v (some (.wrapped r1.next kp.1 kp.2))
      simp only [Option.map_some, Node.shorn] at this
      simp only [Sim, regP, this]
    | none =>
      refine ⟨rfl, ?_⟩
      have := upd_map r1.cache v none
      simp only [Option.map_none] at this
      simp only [Sim, regP, this]

/-- The handle is a wrapper, so the same on both sides. -/
def kindR (k : WKind) (n1 n2 : Node) : Prop := n2 = n1 ∧ ∃ a p, n1 = .wrapped a k p

theorem kindR.nd {k n1 n2} (h : kindR k n1 n2) : nd n1 n2 := by
  obtain ⟨rfl, a, p, rfl⟩ := h
  rfl

theorem assertKind_eqv (k : WKind) {o1 o2} (h : opt o1 o2) :
    Eqv (kindR k) (Protoast.assertKind k o1) (Protoast.assertKind k o2) := by
  obtain rfl := h
  cases o1 with
  | none => exact Eqv.panic
  | some n =>
    cases n with
    | wrapped a k' p =>
      simp only [Option.map_some, Node.shorn, Protoast.assertKind]
      split
      · rename_i hk; subst hk; exact Eqv.pure ⟨rfl, _, _, rfl⟩
      · exact Eqv.panic
    | «repeated» a t => cases t <;> exact Eqv.panic
    | _ => exact Eqv.panic

theorem wrapAs_kind (k : WKind) (p : Ptr) : Eqv (kindR k) (Protoast.wrapAs k p) (Protoast.wrapAs k p) :=
  Eqv.bind (wrap_eqv (.at p)) fun _ _ h => assertKind_eqv k h

theorem wrapAs_nd (k : WKind) (q : Ptr) : Eqv nd (wrapAs k q) (wrapAs k q) :=
  (wrapAs_kind k q).mono fun _ _ h => h.nd

theorem wrapNamed_eqv (p : Ptr) : Eqv nd (Protoast.wrapNamed p) (Protoast.wrapNamed p) := by
  refine Eqv.bind (wrap_eqv (.at p)) ?_
  rintro o1 o2 rfl
  cases o1 with
  | none => exact Eqv.panic
  | some n =>
    cases n with
    | wrapped a k q => cases k <;> first | exact Eqv.panic | exact Eqv.pure rfl
    | «repeated» a t => cases t <;> exact Eqv.panic
    | _ => exact Eqv.panic

theorem Eqv.someOf {m1 m2 : M Node} (h : Eqv nd m1 m2) :
    Eqv opt (m1 >>= fun n => Pure.pure (some n)) (m2 >>= fun n => Pure.pure (some n)) :=
  Eqv.bind h fun _ _ h => Eqv.pure (by rw [h]; rfl)

theorem opt_none : opt none none := rfl

/-! ### Loops over children -/

/-- Lists with corresponding elements. -/
inductive AllRel {α β : Type} (R : α → β → Prop) : List α → List β → Prop where
  | nil : AllRel R [] []
  | cons {a b as bs} : R a b → AllRel R as bs → AllRel R (a :: as) (b :: bs)

theorem AllRel.get {α β : Type} {R : α → β → Prop} {l1 l2} (h : AllRel R l1 l2) (i : Nat) :
    (l1[i]? = none ∧ l2[i]? = none) ∨ ∃ a b, l1[i]? = some a ∧ l2[i]? = some b ∧ R a b := by
  induction h generalizing i with
  | nil => exact .inl ⟨rfl, rfl⟩
  | cons hab _ ih =>
    cases i with
    | zero => exact .inr ⟨_, _, rfl, rfl, hab⟩
    | succ i => simpa using ih i

theorem overKids_eqv {α : Type} {R : α → α → Prop} (p : Ptr) {pick : Ptr → Kind → Option (M α)}
    (h : ∀ q k, (pick q k = none ∧ pick q k.shorn = none) ∨
      ∃ m1 m2, pick q k = some m1 ∧ pick q k.shorn = some m2 ∧ Eqv R m1 m2) :
    Eqv (AllRel (Eqv R)) (Protoast.overKids p pick) (Protoast.overKids p pick) := by
  refine Eqv.get fun r1 r2 hs => Eqv.pure ?_
  rw [hs.kids]
  generalize r1.kids p = l
  induction l with
  | nil => exact AllRel.nil
  | cons qe l ih =>
    have h0 := h qe.1 qe.2.kind
    simp only [List.map_cons, List.filterMap_cons, elem_kind]
    rcases h0 with ⟨e1, e2⟩ | ⟨m1, m2, e1, e2, hm⟩
    · simp only [e1, e2]; exact ih
    · simp only [e1, e2]; exact AllRel.cons hm ih

theorem Eqv.nth {α : Type} {R : α → α → Prop} {q1 q2 : Seq α} (h : Eqv (AllRel (Eqv R)) q1 q2) (i : Nat) :
    Eqv (fun o1 o2 => (o1 = none ∧ o2 = none) ∨ ∃ a b, o1 = some a ∧ o2 = some b ∧ R a b) (q1.nth i) (q2.nth i) := by
  refine Eqv.bind h fun l1 l2 hl => ?_
  rcases hl.get i with ⟨e1, e2⟩ | ⟨m1, m2, e1, e2, hm⟩
  · simp only [e1, e2]; exact Eqv.pure (.inl ⟨rfl, rfl⟩)
  · simp only [e1, e2]
    exact Eqv.bind hm fun a b hab => Eqv.pure (.inr ⟨a, b, rfl, rfl, hab⟩)

theorem Eqv.nthNode {q1 q2 : Seq Node} (h : Eqv (AllRel (Eqv nd)) q1 q2) (i : Nat) :
    Eqv opt (q1.nth i) (q2.nth i) :=
  (Eqv.nth h i).mono fun o1 o2 h => by
    rcases h with ⟨rfl, rfl⟩ | ⟨a, b, rfl, rfl, h⟩
    · exact opt_none
    · rw [h]; rfl

theorem Eqv.nthOpt {q1 q2 : Seq (Option Node)} (h : Eqv (AllRel (Eqv opt)) q1 q2) (i : Nat) :
    Eqv opt (q1.nth i >>= fun x => Pure.pure (flatOpt x)) (q2.nth i >>= fun x => Pure.pure (flatOpt x)) :=
  Eqv.bind (Eqv.nth h i) fun o1 o2 h => by
    rcases h with ⟨rfl, rfl⟩ | ⟨a, b, rfl, rfl, h⟩
    · exact Eqv.pure opt_none
    · exact Eqv.pure h

theorem Sim.find {r1 r2 : Reg} (hs : Sim r1 r2) (p : Ptr) (f : Ptr × Elem → Bool)
    (hf : ∀ q e, f (q, e.shorn) = f (q, e)) :
    (r2.kids p).find? f = ((r1.kids p).find? f).map (fun qe => (qe.1, qe.2.shorn)) := by
  rw [hs.kids, List.find?_map]
  have : (f ∘ fun qe : Ptr × Elem => (qe.1, qe.2.shorn)) = f := by
    funext qe
    exact hf qe.1 qe.2
  rw [this]

/-- A selection that looks at the kind does not see the layout. -/
def Blind (sel : Kind → Bool) : Prop := ∀ k, sel k.shorn = sel k

theorem firstKid_kind (p : Ptr) (k : WKind) {sel : Kind → Bool} (hsel : Blind sel) :
    Eqv (fun o1 o2 => o2 = o1 ∧ ∀ n, o1 = some n → ∃ a q, n = .wrapped a k q)
      (Protoast.firstKid p k sel) (Protoast.firstKid p k sel) := by
  refine Eqv.get fun r1 r2 hs => ?_
  rw [hs.find p _ (by intro q e; simp only [elem_kind]; exact hsel _)]
  cases (r1.kids p).find? (fun qe => sel qe.2.kind) with
  | none => exact Eqv.pure ⟨rfl, fun _ h => by cases h⟩
  | some qe =>
    refine Eqv.bind (wrapAs_kind k qe.1) ?_
    rintro n _ ⟨rfl, a, q, rfl⟩
    exact Eqv.pure ⟨rfl, fun m h => by cases h; exact ⟨_, _, rfl⟩⟩

theorem firstKid_eqv (p : Ptr) (k : WKind) {sel : Kind → Bool} (hsel : Blind sel) :
    Eqv opt (Protoast.firstKid p k sel) (Protoast.firstKid p k sel) :=
  (firstKid_kind p k hsel).mono fun o1 o2 h => by
    obtain ⟨e, h⟩ := h
    subst e
    cases o2 with
    | none => rfl
    | some n => obtain ⟨a, q, rfl⟩ := h n rfl; rfl

end Protoast.Layout
