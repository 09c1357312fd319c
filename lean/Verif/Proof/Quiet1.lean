import Verif.Spec.Attr
import Verif.Spec.Names
import Verif.Proof.Rename
import Verif.Proof.InvQuery
/-
  Registries that hold the same files and differ only in what was asked of them so far: which nodes were handed
  out, and which field types were looked up. They behave alike.
-/
namespace Protoast.Quiet

/-- Which wrapper address of the one registry matches which address of the other. -/
abbrev Match := Nat → Nat → Prop

/-- More addresses match. -/
def Match.le (b c : Match) : Prop := ∀ x y, b x y → c x y

theorem Match.le_refl (b : Match) : b.le b := fun _ _ h => h
theorem Match.le_trans {b c d : Match} (h : b.le c) (g : c.le d) : b.le d := fun _ _ e => g _ _ (h _ _ e)

/-- One more match. -/
def Match.add (m : Match) (a b : Nat) : Match := fun x y => m x y ∨ (x = a ∧ y = b)

theorem Match.le_add (m : Match) (a b : Nat) : m.le (m.add a b) := fun _ _ h => .inl h

/-- The other way round. -/
def Match.flip (m : Match) : Match := fun x y => m y x

mutual
/-- Matching option values. -/
inductive VRel (m : Match) : OptVal → OptVal → Prop where
  | bool {o l v} : VRel m (.bool o l v) (.bool o l v)
  | int {o l v} : VRel m (.int o l v) (.int o l v)
  | uint {o l v} : VRel m (.uint o l v) (.uint o l v)
  | float {o l v} : VRel m (.float o l v) (.float o l v)
  | string {o l v} : VRel m (.string o l v) (.string o l v)
  | bytes {o l v} : VRel m (.bytes o l v) (.bytes o l v)
  | enum {o l a b p} : m a b → VRel m (.enum o l a p) (.enum o l b p)
  | array {o vs ws} : VRels m vs ws → VRel m (.array o vs) (.array o ws)
  | map {o l vs ws} : VItems m vs ws → VRel m (.map o l vs) (.map o l ws)
/-- Matching lists of option values. -/
inductive VRels (m : Match) : List OptVal → List OptVal → Prop where
  | nil : VRels m [] []
  | cons {v w vs ws} : VRel m v w → VRels m vs ws → VRels m (v :: vs) (w :: ws)
/-- Matching lists of items. -/
inductive VItems (m : Match) : List (Str × OptVal) → List (Str × OptVal) → Prop where
  | nil : VItems m [] []
  | cons {k v w vs ws} : VRel m v w → VItems m vs ws → VItems m ((k, v) :: vs) ((k, w) :: ws)
end

/-- Matching nodes. -/
inductive NRel (m : Match) : Node → Node → Prop where
  | wrapped {a b k p} : m a b → NRel m (.wrapped a k p) (.wrapped b k p)
  | option {a b p c f} : m a b → NRel m (.option a p c f) (.option b p c f)
  | oneof {a b p} : m a b → NRel m (.oneof a p) (.oneof b p)
  | map {a b p} : m a b → NRel m (.map a p) (.map b p)
  | repeatedNil {a b} : m a b → NRel m (.repeated a none) (.repeated b none)
  | repeated {a b t u} : m a b → NRel m t u → NRel m (.repeated a (some t)) (.repeated b (some u))
  | builtin {x} : NRel m (.builtin x) (.builtin x)
  | value {v w} : VRel m v w → NRel m (.value v) (.value w)
  | mapItem {k v w} : VRel m v w → NRel m (.mapItem k v) (.mapItem k w)

/-- Matching possibly-nil nodes. -/
inductive ORel (m : Match) : Option Node → Option Node → Prop where
  | none : ORel m none none
  | some {n1 n2} : NRel m n1 n2 → ORel m (some n1) (some n2)

/-- Matching lists of nodes. -/
abbrev LRel (m : Match) : List Node → List Node → Prop := AllRel (NRel m)

mutual
theorem VRel.mono {m m' : Match} (h : m.le m') : {v w : OptVal} → VRel m v w → VRel m' v w
  | _, _, .bool => .bool
  | _, _, .int => .int
  | _, _, .uint => .uint
  | _, _, .float => .float
  | _, _, .string => .string
  | _, _, .bytes => .bytes
  | _, _, .enum e => .enum (h _ _ e)
  | _, _, .array e => .array (VRels.mono h e)
  | _, _, .map e => .map (VItems.mono h e)
theorem VRels.mono {m m' : Match} (h : m.le m') : {v w : List OptVal} → VRels m v w → VRels m' v w
  | _, _, .nil => .nil
  | _, _, .cons e es => .cons (VRel.mono h e) (VRels.mono h es)
theorem VItems.mono {m m' : Match} (h : m.le m') : {v w : List (Str × OptVal)} → VItems m v w → VItems m' v w
  | _, _, .nil => .nil
  | _, _, .cons e es => .cons (VRel.mono h e) (VItems.mono h es)
end

theorem NRel.mono {m m' : Match} (h : m.le m') {v w : Node} (e : NRel m v w) : NRel m' v w := by
  induction e with
  | wrapped e => exact .wrapped (h _ _ e)
  | option e => exact .option (h _ _ e)
  | oneof e => exact .oneof (h _ _ e)
  | map e => exact .map (h _ _ e)
  | repeatedNil e => exact .repeatedNil (h _ _ e)
  | «repeated» e _ ih => exact .repeated (h _ _ e) ih
  | builtin => exact .builtin
  | value e => exact .value (e.mono h)
  | mapItem e => exact .mapItem (e.mono h)

theorem ORel.mono {m m' : Match} (h : m.le m') {v w : Option Node} (e : ORel m v w) : ORel m' v w := by
  cases e with
  | none => exact .none
  | some e => exact .some (e.mono h)

theorem LRel.mono {m m' : Match} (h : m.le m') {v w : List Node} (e : LRel m v w) : LRel m' v w := by
  induction e with
  | nil => exact .nil
  | cons e _ ih => exact .cons (e.mono h) ih

mutual
theorem VRel.flip {m : Match} : {v w : OptVal} → VRel m v w → VRel m.flip w v
  | _, _, .bool => .bool
  | _, _, .int => .int
  | _, _, .uint => .uint
  | _, _, .float => .float
  | _, _, .string => .string
  | _, _, .bytes => .bytes
  | _, _, .enum e => .enum e
  | _, _, .array e => .array (VRels.flip e)
  | _, _, .map e => .map (VItems.flip e)
theorem VRels.flip {m : Match} : {v w : List OptVal} → VRels m v w → VRels m.flip w v
  | _, _, .nil => .nil
  | _, _, .cons e es => .cons (VRel.flip e) (VRels.flip es)
theorem VItems.flip {m : Match} : {v w : List (Str × OptVal)} → VItems m v w → VItems m.flip w v
  | _, _, .nil => .nil
  | _, _, .cons e es => .cons (VRel.flip e) (VItems.flip es)
end

theorem NRel.flip {m : Match} {v w : Node} (e : NRel m v w) : NRel m.flip w v := by
  induction e with
  | wrapped e => exact .wrapped e
  | option e => exact .option e
  | oneof e => exact .oneof e
  | map e => exact .map e
  | repeatedNil e => exact .repeatedNil e
  | «repeated» e _ ih => exact .repeated e ih
  | builtin => exact .builtin
  | value e => exact .value e.flip
  | mapItem e => exact .mapItem e.flip

theorem ORel.flip {m : Match} {v w : Option Node} (e : ORel m v w) : ORel m.flip w v := by
  cases e with
  | none => exact .none
  | some e => exact .some e.flip

/-! ### Healthy registries -/

/-- The address of a type made for one field. -/
def top : Option Node → Option Nat
  | some (.repeated b _) => some b
  | some (.oneof b _) => some b
  | some (.map b _) => some b
  | _ => none

/-- The named type in the type of a field. -/
def inner : Option Node → Option Node
  | some (.wrapped b k p) => some (.wrapped b k p)
  | some (.repeated _ (some (.wrapped b k p))) => some (.wrapped b k p)
  | _ => none

/-- A type without a `repeated` label. -/
inductive Flat : Option Node → Prop where
  | none : Flat none
  | builtin {x} : Flat (some (.builtin x))
  | wrapped {a k p} : Flat (some (.wrapped a k p))

/-- The types of fields. -/
inductive TShape : Option Node → Prop where
  | flat {t} : Flat t → TShape t
  | repeated {a t} : Flat t → TShape (some (.repeated a t))
  | oneof {a p} : TShape (some (.oneof a p))
  | map {a p} : TShape (some (.map a p))

/-- What is needed of one registry. -/
structure Healthy (r : Reg) : Prop where
  cacheSome : ∀ v n, r.cache v = some (some n) → ∃ a k p, v = .at p ∧ n = .wrapped a k p ∧
    r.wrapTarget v = some (k, p) ∧ a < r.next
  cacheNone : ∀ v, r.cache v = some none → r.wrapTarget v = none
  cacheInj : ∀ v w a k p k' p', r.cache v = some (some (.wrapped a k p)) →
    r.cache w = some (some (.wrapped a k' p')) → v = w
  reg : ∀ name p, r.registry name = some p → ∃ k, r.wrapTarget (.at p) = some (k, p)
  ftKey : ∀ a t, r.ftcache a = some t → a < r.next
  ftShape : ∀ a t, r.ftcache a = some t → TShape t
  ftTop : ∀ a t b, r.ftcache a = some t → top t = some b → b < r.next ∧
    (∀ v k p, r.cache v ≠ some (some (.wrapped b k p))) ∧
    ∀ a' t', r.ftcache a' = some t' → top t' = some b → a' = a
  ftInner : ∀ a t b k p, r.ftcache a = some t → inner t = some (.wrapped b k p) →
    r.cache (.at p) = some (some (.wrapped b k p))

/-- The cached type of the field at `p`, if the field was handed out and its type looked up. -/
def ftOf (r : Reg) (p : Ptr) : Option (Option Node) :=
  match r.cache (.at p) with
  | some (some (.wrapped a _ _)) => r.ftcache a
  | _ => none

/-- What a type lookup by name gives, up to addresses. -/
def BaseOf (r : Reg) (p : Ptr) (typ : Str) (t : Option Node) : Prop :=
  match builtinType typ with
  | some b => t = some (.builtin b)
  | none =>
    match resolveNameRaw r.defined (r.scope (.at p)) typ with
    | (_, false) => t = none
    | (n, true) =>
      match r.registry n with
      | none => t = none
      | some obj => ∃ a k, t = some (.wrapped a k obj) ∧ r.wrapTarget (.at obj) = some (k, obj) ∧
          (Node.wrapped a k obj).isType = true

/-- What the first `Type` of the field at `p` gives, up to addresses. -/
def Computes (r : Reg) (p : Ptr) (t : Option Node) : Prop :=
  match r.kind p with
  | some (.normalField _ typ _ rep _) =>
    if rep then ∃ a b, t = some (.repeated a b) ∧ BaseOf r p typ b else BaseOf r p typ t
  | some (.oneof _) => ∃ a, t = some (.oneof a p)
  | some (.mapField _ _ _ _) => ∃ a, t = some (.map a p)
  | _ => False

/-- Cached types of one field. -/
inductive FtRel (fl : Bool) (m : Match) (r : Reg) (p : Ptr) : Option (Option Node) → Option (Option Node) → Prop where
  | none : FtRel fl m r p none none
  | both {t1 t2} : ORel m t1 t2 → FtRel fl m r p (some t1) (some t2)
  | left {t} : fl = false → Computes r p t → (∀ a, top t = some a → ∀ b, ¬ m a b) → FtRel fl m r p (some t) none
  | right {t} : fl = false → Computes r p t → (∀ b, top t = some b → ∀ a, ¬ m a b) → FtRel fl m r p none (some t)

/-- The registries differ only in what was asked of them. If `fl` holds, the same field types were asked for. -/
structure Sim (fl : Bool) (m : Match) (r1 r2 : Reg) : Prop where
  heap : r2.heap = r1.heap
  protos : r2.protos = r1.protos
  names : r2.registry = r1.registry
  scopes : r2.scopes = r1.scopes
  h1 : Healthy r1
  h2 : Healthy r2
  bound : ∀ a b, m a b → a < r1.next ∧ b < r2.next
  inj1 : ∀ a b b', m a b → m a b' → b = b'
  inj2 : ∀ a a' b, m a b → m a' b → a = a'
  poison : ∀ v, r1.cache v = some none ↔ r2.cache v = some none
  both : ∀ v a k p b k' p', r1.cache v = some (some (.wrapped a k p)) → r2.cache v = some (some (.wrapped b k' p')) → m a b
  left : ∀ v a k p, r1.cache v = some (some (.wrapped a k p)) → r2.cache v = none → ∀ b, ¬ m a b
  right : ∀ v b k p, r2.cache v = some (some (.wrapped b k p)) → r1.cache v = none → ∀ a, ¬ m a b
  ft : ∀ p, FtRel fl m r1 p (ftOf r1 p) (ftOf r2 p)

/-- A successful call leaves only nodes and types behind. -/
structure Grow (r r' : Reg) : Prop where
  heap : r'.heap = r.heap
  protos : r'.protos = r.protos
  names : r'.registry = r.registry
  scopes : r'.scopes = r.scopes
  next : r.next ≤ r'.next
  cache : ∀ v x, r.cache v = some x → r'.cache v = some x
  new : ∀ v x, r.cache v = none → r'.cache v = some x → ∃ a k p, x = some (.wrapped a k p) ∧ r.next ≤ a
  ftcache : ∀ a t, r.ftcache a = some t → r'.ftcache a = some t
  ftnew : ∀ a t, r.ftcache a = none → r'.ftcache a = some t → ∃ p,
    r'.cache (Vis.at p) = some (some (.wrapped a .messageField p)) ∧ Computes r p t ∧ ∀ b, top t = some b → r.next ≤ b

/-- Same front part. -/
structure Front (r r' : Reg) : Prop where
  heap : r'.heap = r.heap
  protos : r'.protos = r.protos
  names : r'.registry = r.registry
  scopes : r'.scopes = r.scopes

theorem Front.elem {r r'} (h : Front r r') (p) : r'.elem p = r.elem p := by simp only [Reg.elem, h.heap]
theorem Front.children {r r'} (h : Front r r') (p) : r'.children p = r.children p := by
  simp only [Reg.children, h.heap]
theorem Front.kids {r r'} (h : Front r r') (p) : r'.kids p = r.kids p := by simp only [Reg.kids, h.children]
theorem Front.kind {r r'} (h : Front r r') (p) : r'.kind p = r.kind p := by
  simp only [Reg.kind, Reg.elem, h.heap]
theorem Front.isRepeatedField {r r'} (h : Front r r') (p) : r'.isRepeatedField p = r.isRepeatedField p := by
  simp only [Reg.isRepeatedField, h.kind]
theorem Front.wrapTarget {r r'} (h : Front r r') (v) : r'.wrapTarget v = r.wrapTarget v := by
  unfold Reg.wrapTarget
  simp only [h.kind, h.heap]
theorem Front.scope {r r'} (h : Front r r') (v) : r'.scope v = r.scope v := by simp only [Reg.scope, h.scopes]
theorem Front.defined {r r'} (h : Front r r') : r'.defined = r.defined := by
  funext n; simp only [Reg.defined, h.names]
theorem Front.baseOf {r r'} (h : Front r r') {p typ t} (b : BaseOf r p typ t) : BaseOf r' p typ t := by
  unfold BaseOf at *
  simp only [h.scope, h.names, h.wrapTarget, h.defined]
  exact b
theorem Front.computes {r r'} (h : Front r r') {p t} (b : Computes r p t) : Computes r' p t := by
  unfold Computes at *
  rw [h.kind]
  split
  · rename_i rep _ hk
    rw [hk] at b
    simp only at b
    split
    · rename_i hr
      rw [if_pos hr] at b
      obtain ⟨a, x, h1, h2⟩ := b
      exact ⟨a, x, h1, h.baseOf h2⟩
    · rename_i hr
      rw [if_neg hr] at b
      exact h.baseOf b
  · rename_i hk; rw [hk] at b; exact b
  · rename_i hk; rw [hk] at b; exact b
  · rename_i h1 h2 h3
    cases hk : r.kind p with
    | none => rw [hk] at b; exact b
    | some kd =>
      rw [hk] at b
      cases kd <;> first | exact b | exact (h1 _ _ _ _ _ hk).elim | exact (h2 _ hk).elim | exact (h3 _ _ _ _ hk).elim

theorem Front.symm {r r'} (h : Front r r') : Front r' r := ⟨h.heap.symm, h.protos.symm, h.names.symm, h.scopes.symm⟩
theorem Sim.front {fl m r1 r2} (h : Sim fl m r1 r2) : Front r1 r2 := ⟨h.heap, h.protos, h.names, h.scopes⟩
theorem Grow.front {r r'} (h : Grow r r') : Front r r' := ⟨h.heap, h.protos, h.names, h.scopes⟩

theorem Grow.refl (r : Reg) : Grow r r :=
  ⟨rfl, rfl, rfl, rfl, Nat.le_refl _, fun _ _ h => h, fun v x h h' => (by rw [h] at h'; cases h'),
    fun _ _ h => h, fun a x h h' => (by rw [h] at h'; cases h')⟩

theorem Grow.trans {r r' r''} (h : Grow r r') (g : Grow r' r'') : Grow r r'' := by
  refine ⟨g.heap.trans h.heap, g.protos.trans h.protos, g.names.trans h.names, g.scopes.trans h.scopes,
    Nat.le_trans h.next g.next, fun v x e => g.cache v x (h.cache v x e), ?_,
    fun v x e => g.ftcache v x (h.ftcache v x e), ?_⟩
  · intro v x h0 h2
    cases h1 : r'.cache v with
    | some y =>
      rw [g.cache v y h1] at h2
      cases h2
      exact h.new v x h0 h1
    | none =>
      obtain ⟨a, k, p, rfl, ha⟩ := g.new v x h1 h2
      exact ⟨a, k, p, rfl, Nat.le_trans h.next ha⟩
  · intro a t h0 h2
    cases h1 : r'.ftcache a with
    | some y =>
      rw [g.ftcache a y h1] at h2
      cases h2
      obtain ⟨p, hp, hc, ht⟩ := h.ftnew a t h0 h1
      exact ⟨p, g.cache _ _ hp, hc, ht⟩
    | none =>
      obtain ⟨p, hp, hc, ht⟩ := g.ftnew a t h1 h2
      exact ⟨p, hp, h.front.symm.computes hc, fun b hb => Nat.le_trans h.next (ht b hb)⟩

/-- A registry and what a successful history of calls makes of it correspond; the common addresses match. -/
theorem Grow.sim {r r'} (h : Grow r r') (h1 : Healthy r) (h2 : Healthy r') (fl : Bool)
    (hfl : fl = true → r'.ftcache = r.ftcache) :
    Sim fl (fun a b => a = b ∧ a < r.next) r r' := by
  refine ⟨h.heap, h.protos, h.names, h.scopes, h1, h2, ?_, ?_, ?_, ?_, ?_, ?_, ?_, ?_⟩
  · rintro a b ⟨rfl, ha⟩; exact ⟨ha, Nat.lt_of_lt_of_le ha h.next⟩
  · rintro a b b' ⟨rfl, -⟩ ⟨rfl, -⟩; rfl
  · rintro a a' b ⟨rfl, -⟩ ⟨rfl, -⟩; rfl
  · intro v
    constructor
    · exact h.cache v none
    · intro e
      cases hc : r.cache v with
      | some x => rw [h.cache v x hc] at e; rw [Option.some.inj e]
      | none =>
        obtain ⟨a, k, p, he, -⟩ := h.new v none hc e
        cases he
  · intro v a k p b k' p' e1 e2
    rw [h.cache v _ e1] at e2
    cases e2
    obtain ⟨a', k', p', -, he, -, hn⟩ := h1.cacheSome _ _ e1
    cases he
    exact ⟨rfl, hn⟩
  · intro v a k p e1 e2
    rw [h.cache v _ e1] at e2
    cases e2
  · rintro v b k p e2 e1 a ⟨rfl, ha⟩
    obtain ⟨a', k', p', he, hn⟩ := h.new v _ e1 e2
    cases he
    omega
  · intro p
    have hrefl : ∀ a t, r.ftcache a = some t → ORel (fun a b => a = b ∧ a < r.next) t t := by
      intro a t ht
      have htop := h1.ftTop a t
      have hin : ∀ b k p, inner t = some (.wrapped b k p) → b < r.next := by
        intro b k p hi
        obtain ⟨a', k', p', -, he, -, hn⟩ := h1.cacheSome _ _ (h1.ftInner a t b k p ht hi)
        cases he
        exact hn
      have hflat : ∀ u, Flat u → (∀ b k p, u = some (.wrapped b k p) → b < r.next) →
          ORel (fun a b => a = b ∧ a < r.next) u u := by
        intro u hu hb
        cases hu with
        | none => exact .none
        | builtin => exact .some .builtin
        | wrapped => exact .some (.wrapped ⟨rfl, hb _ _ _ rfl⟩)
      cases h1.ftShape a t ht with
      | flat hf => exact hflat t hf fun b k p e => hin b k p (by subst e; rfl)
      | @«repeated» b u hf =>
        have hb := (htop b ht rfl).1
        have := hflat u hf fun b k p e => hin b k p (by subst e; rfl)
        cases this with
        | none => exact .some (.repeatedNil ⟨rfl, hb⟩)
        | some hn => exact .some (.repeated ⟨rfl, hb⟩ hn)
      | @oneof b q => exact .some (.oneof ⟨rfl, (htop b ht rfl).1⟩)
      | @map b q => exact .some (.map ⟨rfl, (htop b ht rfl).1⟩)
    have hnew : ftOf r p = none → FtRel fl (fun a b => a = b ∧ a < r.next) r p none (ftOf r' p) := by
      intro h0
      cases hf : ftOf r' p with
      | none => exact .none
      | some t =>
        unfold ftOf at hf
        cases hc : r'.cache (.at p) with
        | none => rw [hc] at hf; cases hf
        | some x =>
          cases x with
          | none => rw [hc] at hf; cases hf
          | some n =>
            obtain ⟨a, k, q, he, rfl, -, -⟩ := h2.cacheSome _ _ hc
            cases he
            rw [hc] at hf
            simp only at hf
            have hfn : r.ftcache a = none := by
              cases hfa : r.ftcache a with
              | none => rfl
              | some u =>
                exfalso
                cases hcp : r.cache (.at p) with
                | none =>
                  obtain ⟨a', k', p', he, hn⟩ := h.new _ _ hcp hc
                  cases he
                  have := h1.ftKey _ _ hfa
                  omega
                | some x =>
                  rw [h.cache _ _ hcp] at hc
                  cases hc
                  unfold ftOf at h0
                  rw [hcp] at h0
                  simp only at h0
                  rw [h0] at hfa
                  cases hfa
            obtain ⟨q, hq, hcm, ht⟩ := h.ftnew a t hfn hf
            have := h2.cacheInj _ _ _ _ _ _ _ hq hc
            cases this
            refine .right ?_ hcm ?_
            · cases fl with
              | false => rfl
              | true =>
                have := hfl rfl
                rw [this, hfn] at hf
                cases hf
            · rintro b hb a' ⟨rfl, ha⟩
              have := ht _ hb
              omega
    cases hf : ftOf r p with
    | none => exact hnew hf
    | some t =>
      unfold ftOf at hf
      cases hc : r.cache (.at p) with
      | none => rw [hc] at hf; cases hf
      | some x =>
        cases x with
        | none => rw [hc] at hf; cases hf
        | some n =>
          obtain ⟨a, k, q, he, rfl, -, -⟩ := h1.cacheSome _ _ hc
          cases he
          rw [hc] at hf
          simp only at hf
          have : ftOf r' p = some t := by
            unfold ftOf
            rw [h.cache _ _ hc]
            exact h.ftcache _ _ hf
          rw [this]
          exact .both (hrefl a t hf)

/-! ### Turning the relation round -/

theorem FtRel.flip {fl m r r' p x y} (hf : Front r r') (h : FtRel fl m r p x y) : FtRel fl m.flip r' p y x := by
  cases h with
  | none => exact .none
  | both h => exact .both h.flip
  | left h1 h2 h3 => exact .right h1 (hf.computes h2) h3
  | right h1 h2 h3 => exact .left h1 (hf.computes h2) h3

theorem Sim.flip {fl m r1 r2} (h : Sim fl m r1 r2) : Sim fl m.flip r2 r1 :=
  ⟨h.heap.symm, h.protos.symm, h.names.symm, h.scopes.symm, h.h2, h.h1, fun a b e => ⟨(h.bound b a e).2, (h.bound b a e).1⟩,
    fun _ _ _ e e' => h.inj2 _ _ _ e e', fun _ _ _ e e' => h.inj1 _ _ _ e e', fun v => (h.poison v).symm,
    fun v a k p b k' p' e1 e2 => h.both v b k' p' a k p e2 e1, h.right, h.left,
    fun p => (h.ft p).flip h.front⟩

/-! ### The primitive steps -/

theorem FtRel.mono {fl} {m m' : Match} {r r' p x y} (h : FtRel fl m r p x y) (hf : Front r r') (hle : m.le m')
    (hl : ∀ t, x = some t → y = Option.none → ∀ a, top t = some a → ∀ b, m' a b → m a b)
    (hr : ∀ t, y = some t → x = Option.none → ∀ b, top t = some b → ∀ a, m' a b → m a b) : FtRel fl m' r' p x y := by
  cases h with
  | none => exact .none
  | both h => exact .both (h.mono hle)
  | left h1 h2 h3 => exact .left h1 (hf.computes h2) fun a ha b hb => h3 a ha b (hl _ rfl rfl a ha b hb)
  | right h1 h2 h3 => exact .right h1 (hf.computes h2) fun b hb a ha => h3 b hb a (hr _ rfl rfl b hb a ha)

theorem ftOf_some {r : Reg} (h : Healthy r) {p t} (hf : ftOf r p = some t) :
    ∃ a k, r.cache (.at p) = some (some (.wrapped a k p)) ∧ r.ftcache a = some t := by
  unfold ftOf at hf
  cases hc : r.cache (.at p) with
  | none => rw [hc] at hf; cases hf
  | some x =>
    cases x with
    | none => rw [hc] at hf; cases hf
    | some n =>
      obtain ⟨a, k, q, he, rfl, -, -⟩ := h.cacheSome _ _ hc
      cases he
      rw [hc] at hf
      exact ⟨a, k, rfl, hf⟩

theorem Healthy.alloc {r : Reg} (h : Healthy r) : Healthy { r with next := r.next + 1 } := by
  refine { h with cacheSome := ?_, ftKey := ?_, ftTop := ?_ }
  · intro v n e
    obtain ⟨a, k, p, h1, h2, h3, h4⟩ := h.cacheSome v n e
    exact ⟨a, k, p, h1, h2, h3, Nat.lt_succ_of_lt h4⟩
  · intro a t e; exact Nat.lt_succ_of_lt (h.ftKey a t e)
  · intro a t b e ht
    obtain ⟨h1, h2, h3⟩ := h.ftTop a t b e ht
    exact ⟨Nat.lt_succ_of_lt h1, h2, h3⟩

/-- Both sides hand out a new address. -/
theorem Sim.alloc {fl m r1 r2} (h : Sim fl m r1 r2) :
    Sim fl (m.add r1.next r2.next) { r1 with next := r1.next + 1 } { r2 with next := r2.next + 1 } := by
  refine ⟨h.heap, h.protos, h.names, h.scopes, h.h1.alloc, h.h2.alloc, ?_, ?_, ?_, h.poison, ?_, ?_, ?_, ?_⟩
  · rintro a b (e | ⟨rfl, rfl⟩)
    · have := h.bound _ _ e; exact ⟨Nat.lt_succ_of_lt this.1, Nat.lt_succ_of_lt this.2⟩
    · exact ⟨Nat.lt_succ_self _, Nat.lt_succ_self _⟩
  · rintro a b b' (e | ⟨rfl, rfl⟩) (e' | ⟨e1, rfl⟩)
    · exact h.inj1 _ _ _ e e'
    · have := (h.bound _ _ e).1; omega
    · have := (h.bound _ _ e').1; omega
    · rfl
  · rintro a a' b (e | ⟨rfl, rfl⟩) (e' | ⟨rfl, e1⟩)
    · exact h.inj2 _ _ _ e e'
    · have := (h.bound _ _ e).2; omega
    · have := (h.bound _ _ e').2; omega
    · rfl
  · intro v a k p b k' p' e1 e2; exact .inl (h.both v a k p b k' p' e1 e2)
  · rintro v a k p e1 e2 b (e | ⟨rfl, rfl⟩)
    · exact h.left v a k p e1 e2 b e
    · obtain ⟨a', k', p', -, he, -, hn⟩ := h.h1.cacheSome _ _ e1
      cases he; omega
  · rintro v a k p e1 e2 b (e | ⟨rfl, rfl⟩)
    · exact h.right v a k p e1 e2 b e
    · obtain ⟨a', k', p', -, he, -, hn⟩ := h.h2.cacheSome _ _ e1
      cases he; omega
  · intro p
    refine FtRel.mono (h.ft p) ⟨rfl, rfl, rfl, rfl⟩ (Match.le_add _ _ _) ?_ ?_
    · rintro t hx - a ha b (e | ⟨rfl, rfl⟩)
      · exact e
      · obtain ⟨a', k, -, hft⟩ := ftOf_some h.h1 hx
        have := (h.h1.ftTop _ _ _ hft ha).1; omega
    · rintro t hx - b hb a (e | ⟨rfl, rfl⟩)
      · exact e
      · obtain ⟨a', k, -, hft⟩ := ftOf_some h.h2 hx
        have := (h.h2.ftTop _ _ _ hft hb).1; omega

/-- The registry after a new node was made. -/
def wrapped (r : Reg) (v : Vis) (k : WKind) (p : Ptr) : Reg :=
  { r with next := r.next + 1, cache := upd r.cache v (some (.wrapped r.next k p)) }

/-- The registry after `wrap` has panicked. -/
def poisoned (r : Reg) (v : Vis) : Reg := { r with cache := upd r.cache v none }

theorem upd_self {α β : Type} [DecidableEq α] (f : α → Option β) (a : α) (b : β) : upd f a b a = some b := by
  simp [upd]

theorem upd_other {α β : Type} [DecidableEq α] (f : α → Option β) {a x : α} (b : β) (h : x ≠ a) : upd f a b x = f x := by
  simp [upd, h]

theorem wrapped_front (r v k p) : Front r (wrapped r v k p) := ⟨rfl, rfl, rfl, rfl⟩
theorem poisoned_front (r v) : Front r (poisoned r v) := ⟨rfl, rfl, rfl, rfl⟩

theorem wrapped_cache {r : Reg} {v k p w x} (hn : r.cache v = none) (h : (wrapped r v k p).cache w = some x) :
    (w = v ∧ x = some (.wrapped r.next k p)) ∨ (w ≠ v ∧ r.cache w = some x) := by
  by_cases hw : w = v
  · subst hw
    simp only [wrapped, upd_self] at h
    exact .inl ⟨rfl, (Option.some.inj h).symm⟩
  · simp only [wrapped, upd_other _ _ hw] at h
    exact .inr ⟨hw, h⟩

theorem Healthy.wrapped {r : Reg} (h : Healthy r) {v k p} (hn : r.cache v = none) (ht : r.wrapTarget v = some (k, p)) :
    Healthy (wrapped r v k p) := by
  have hv := (wrapTarget_deep ht).1
  refine ⟨?_, ?_, ?_, ?_, ?_, h.ftShape, ?_, ?_⟩
  · intro w n e
    rcases wrapped_cache hn e with ⟨rfl, e0⟩ | ⟨-, e⟩
    · cases e0
      exact ⟨r.next, k, p, hv, rfl, ht, Nat.lt_succ_self _⟩
    · obtain ⟨a, k, p, h1, h2, h3, h4⟩ := h.cacheSome w n e
      exact ⟨a, k, p, h1, h2, h3, Nat.lt_succ_of_lt h4⟩
  · intro w e
    rcases wrapped_cache hn e with ⟨rfl, e0⟩ | ⟨-, e⟩
    · cases e0
    · exact h.cacheNone w e
  · intro w w' a k1 p1 k2 p2 e1 e2
    rcases wrapped_cache hn e1 with ⟨hw, x1⟩ | ⟨-, e1⟩ <;> rcases wrapped_cache hn e2 with ⟨hw', x2⟩ | ⟨-, e2⟩
    · rw [hw, hw']
    · cases x1
      obtain ⟨a, k, p, h1, h2, h3, h4⟩ := h.cacheSome _ _ e2
      cases h2; omega
    · cases x2
      obtain ⟨a, k, p, h1, h2, h3, h4⟩ := h.cacheSome _ _ e1
      cases h2; omega
    · exact h.cacheInj _ _ _ _ _ _ _ e1 e2
  · intro name q e; exact h.reg name q e
  · intro a t e; exact Nat.lt_succ_of_lt (h.ftKey a t e)
  · intro a t b e htop
    obtain ⟨h1, h2, h3⟩ := h.ftTop a t b e htop
    refine ⟨Nat.lt_succ_of_lt h1, ?_, h3⟩
    intro w k' p' e'
    rcases wrapped_cache hn e' with ⟨rfl, e'0⟩ | ⟨-, e'⟩
    · cases e'0; omega
    · exact h2 _ _ _ e'
  · intro a t b k' q e hin
    have := h.ftInner a t b k' q e hin
    have hne : (Vis.at q) ≠ v := by rintro rfl; rw [hn] at this; cases this
    simp only [Quiet.wrapped, upd_other _ _ hne]
    exact this

theorem ftOf_wrapped {r : Reg} (h : Healthy r) {v k p} (hn : r.cache v = none) (q : Ptr) :
    ftOf (wrapped r v k p) q = ftOf r q := by
  unfold ftOf
  by_cases hq : (Vis.at q) = v
  · subst hq
    simp only [wrapped, upd_self, hn]
    cases hf : r.ftcache r.next with
    | none => rfl
    | some t => have := h.ftKey _ _ hf; omega
  · simp only [wrapped, upd_other _ _ hq]

theorem poisoned_cache {r : Reg} {v w x} (h : (poisoned r v).cache w = some x) :
    (w = v ∧ x = none) ∨ (w ≠ v ∧ r.cache w = some x) := by
  by_cases hw : w = v
  · subst hw
    simp only [poisoned, upd_self] at h
    exact .inl ⟨rfl, (Option.some.inj h).symm⟩
  · simp only [poisoned, upd_other _ _ hw] at h
    exact .inr ⟨hw, h⟩

theorem Healthy.poisoned {r : Reg} (h : Healthy r) {v} (hn : r.cache v = none) (ht : r.wrapTarget v = none) :
    Healthy (poisoned r v) := by
  refine ⟨?_, ?_, ?_, h.reg, h.ftKey, h.ftShape, ?_, ?_⟩
  · intro w n e
    rcases poisoned_cache e with ⟨rfl, e0⟩ | ⟨-, e⟩
    · cases e0
    · exact h.cacheSome w n e
  · intro w e
    rcases poisoned_cache e with ⟨rfl, e0⟩ | ⟨-, e⟩
    · exact ht
    · exact h.cacheNone w e
  · intro w w' a k1 p1 k2 p2 e1 e2
    rcases poisoned_cache e1 with ⟨-, x1⟩ | ⟨-, e1⟩ <;> rcases poisoned_cache e2 with ⟨-, x2⟩ | ⟨-, e2⟩
    · cases x1
    · cases x1
    · cases x2
    · exact h.cacheInj _ _ _ _ _ _ _ e1 e2
  · intro a t b e htop
    obtain ⟨h1, h2, h3⟩ := h.ftTop a t b e htop
    refine ⟨h1, ?_, h3⟩
    intro w k' p' e'
    rcases poisoned_cache e' with ⟨rfl, e'0⟩ | ⟨-, e'⟩
    · cases e'0
    · exact h2 _ _ _ e'
  · intro a t b k' q e hin
    have := h.ftInner a t b k' q e hin
    have hne : (Vis.at q) ≠ v := by rintro rfl; rw [hn] at this; cases this
    simp only [Quiet.poisoned, upd_other _ _ hne]
    exact this

theorem ftOf_poisoned {r : Reg} {v} (hn : r.cache v = none) (q : Ptr) : ftOf (poisoned r v) q = ftOf r q := by
  unfold ftOf
  by_cases hq : (Vis.at q) = v
  · subst hq
    simp only [poisoned, upd_self, hn]
  · simp only [poisoned, upd_other _ _ hq]

/-- Both sides make a new node. -/
theorem Sim.wrapBoth {fl m r1 r2} (h : Sim fl m r1 r2) {v k p} (hn1 : r1.cache v = none) (hn2 : r2.cache v = none)
    (ht : r1.wrapTarget v = some (k, p)) :
    Sim fl (m.add r1.next r2.next) (wrapped r1 v k p) (wrapped r2 v k p) := by
  have ha := h.alloc
  refine ⟨h.heap, h.protos, h.names, h.scopes, h.h1.wrapped hn1 ht,
    h.h2.wrapped hn2 ((h.front.wrapTarget v).trans ht), ha.bound, ha.inj1, ha.inj2, ?_, ?_, ?_, ?_, ?_⟩
  · intro w
    by_cases hw : w = v
    · subst hw; simp [wrapped, upd_self]
    · simp only [wrapped, upd_other _ _ hw]; exact h.poison w
  · intro w a k p b k' p' e1 e2
    rcases wrapped_cache hn1 e1 with ⟨hw, x1⟩ | ⟨hw, e1⟩ <;> rcases wrapped_cache hn2 e2 with ⟨hw', x2⟩ | ⟨hw', e2⟩
    · cases x1; cases x2; exact .inr ⟨rfl, rfl⟩
    · exact (hw' hw).elim
    · exact (hw hw').elim
    · exact .inl (h.both w a k p b k' p' e1 e2)
  · intro w a k p e1 e2
    rcases wrapped_cache hn1 e1 with ⟨rfl, e10⟩ | ⟨hw, e1⟩
    · simp [wrapped, upd_self] at e2
    · simp only [wrapped, upd_other _ _ hw] at e2
      exact ha.left w a k p e1 e2
  · intro w a k p e1 e2
    rcases wrapped_cache hn2 e1 with ⟨rfl, e10⟩ | ⟨hw, e1⟩
    · simp [wrapped, upd_self] at e2
    · simp only [wrapped, upd_other _ _ hw] at e2
      exact ha.right w a k p e1 e2
  · intro q
    rw [ftOf_wrapped h.h1 hn1, ftOf_wrapped h.h2 hn2]
    exact FtRel.mono (ha.ft q) ⟨rfl, rfl, rfl, rfl⟩ (Match.le_refl _) (fun _ _ _ _ _ _ e => e) (fun _ _ _ _ _ _ e => e)

/-- Only the right side makes a new node, the left side having it already. -/
theorem Sim.wrapRight {fl m r1 r2} (h : Sim fl m r1 r2) {v a k p} (hc : r1.cache v = some (some (.wrapped a k p)))
    (hn2 : r2.cache v = none) : Sim fl (m.add a r2.next) r1 (wrapped r2 v k p) := by
  obtain ⟨a', k', p', hv, he, ht, hna⟩ := h.h1.cacheSome _ _ hc
  cases he
  have hnew := h.left _ _ _ _ hc hn2
  refine ⟨h.heap, h.protos, h.names, h.scopes, h.h1,
    h.h2.wrapped hn2 ((h.front.wrapTarget v).trans ht), ?_, ?_, ?_, ?_, ?_, ?_, ?_, ?_⟩
  · rintro x y (e | ⟨rfl, rfl⟩)
    · have := h.bound _ _ e; exact ⟨this.1, Nat.lt_succ_of_lt this.2⟩
    · exact ⟨hna, Nat.lt_succ_self _⟩
  · rintro x b b' (e | ⟨rfl, rfl⟩) (e' | ⟨e1, rfl⟩)
    · exact h.inj1 _ _ _ e e'
    · subst e1; exact (hnew _ e).elim
    · exact (hnew _ e').elim
    · rfl
  · rintro x x' b (e | ⟨rfl, rfl⟩) (e' | ⟨rfl, e1⟩)
    · exact h.inj2 _ _ _ e e'
    · have := (h.bound _ _ e).2; omega
    · have := (h.bound _ _ e').2; omega
    · rfl
  · intro w
    by_cases hw : w = v
    · subst hw
      simp only [wrapped, upd_self, hc]
      constructor <;> (intro e; cases e)
    · simp only [wrapped, upd_other _ _ hw]; exact h.poison w
  · intro w x k1 p1 b k' p' e1 e2
    rcases wrapped_cache hn2 e2 with ⟨rfl, e20⟩ | ⟨hw', e2⟩
    · rw [hc] at e1
      cases e1; cases e20; exact .inr ⟨rfl, rfl⟩
    · exact .inl (h.both w x k1 p1 b k' p' e1 e2)
  · intro w x k1 p1 e1 e2 b
    have hw : w ≠ v := by rintro rfl; simp [wrapped, upd_self] at e2
    simp only [wrapped, upd_other _ _ hw] at e2
    rintro (e | ⟨rfl, rfl⟩)
    · exact h.left w x k1 p1 e1 e2 b e
    · exact hw (h.h1.cacheInj _ _ _ _ _ _ _ e1 hc)
  · intro w b k1 p1 e1 e2 x
    rcases wrapped_cache hn2 e1 with ⟨rfl, e10⟩ | ⟨hw, e1⟩
    · rw [hc] at e2; cases e2
    · rintro (e | ⟨rfl, rfl⟩)
      · exact h.right w b k1 p1 e1 e2 x e
      · obtain ⟨a', k', p', -, he, -, hn⟩ := h.h2.cacheSome _ _ e1
        cases he; omega
  · intro q
    rw [ftOf_wrapped h.h2 hn2]
    refine FtRel.mono (h.ft q) ⟨rfl, rfl, rfl, rfl⟩ (Match.le_add _ _ _) ?_ ?_
    · rintro t hx - x ha b (e | ⟨rfl, rfl⟩)
      · exact e
      · obtain ⟨a', k, -, hft⟩ := ftOf_some h.h1 hx
        exact ((h.h1.ftTop _ _ _ hft ha).2.1 _ _ _ hc).elim
    · rintro t hx - b hb x (e | ⟨rfl, rfl⟩)
      · exact e
      · obtain ⟨a', k, -, hft⟩ := ftOf_some h.h2 hx
        have := (h.h2.ftTop _ _ _ hft hb).1; omega

/-- Both sides panic. -/
theorem Sim.poisonBoth {fl m r1 r2} (h : Sim fl m r1 r2) {v} (hn1 : r1.cache v = none) (hn2 : r2.cache v = none)
    (ht : r1.wrapTarget v = none) : Sim fl m (poisoned r1 v) (poisoned r2 v) := by
  refine ⟨h.heap, h.protos, h.names, h.scopes, h.h1.poisoned hn1 ht,
    h.h2.poisoned hn2 ((h.front.wrapTarget v).trans ht), h.bound, h.inj1, h.inj2, ?_, ?_, ?_, ?_, ?_⟩
  · intro w
    by_cases hw : w = v
    · subst hw; simp [poisoned, upd_self]
    · simp only [poisoned, upd_other _ _ hw]; exact h.poison w
  · intro w a k p b k' p' e1 e2
    rcases poisoned_cache e1 with ⟨hw, x1⟩ | ⟨hw, e1⟩ <;> rcases poisoned_cache e2 with ⟨hw', x2⟩ | ⟨hw', e2⟩
    · cases x1
    · exact (hw' hw).elim
    · exact (hw hw').elim
    · exact h.both w a k p b k' p' e1 e2
  · intro w a k p e1 e2
    rcases poisoned_cache e1 with ⟨rfl, e10⟩ | ⟨hw, e1⟩
    · cases e10
    · simp only [poisoned, upd_other _ _ hw] at e2
      exact h.left w a k p e1 e2
  · intro w a k p e1 e2
    rcases poisoned_cache e1 with ⟨rfl, e10⟩ | ⟨hw, e1⟩
    · cases e10
    · simp only [poisoned, upd_other _ _ hw] at e2
      exact h.right w a k p e1 e2
  · intro q
    rw [ftOf_poisoned hn1, ftOf_poisoned hn2]
    exact FtRel.mono (h.ft q) ⟨rfl, rfl, rfl, rfl⟩ (Match.le_refl _) (fun _ _ _ _ _ _ e => e) (fun _ _ _ _ _ _ e => e)

theorem wrapped_grow {r : Reg} (v k p) (hn : r.cache v = none) : Grow r (wrapped r v k p) := by
  refine ⟨rfl, rfl, rfl, rfl, Nat.le_succ _, ?_, ?_, fun _ _ h => h, fun a t h h' => ?_⟩
  · intro w x e
    have hw : w ≠ v := by rintro rfl; rw [hn] at e; cases e
    simp only [wrapped, upd_other _ _ hw]; exact e
  · intro w x e e'
    rcases wrapped_cache hn e' with ⟨rfl, e'0⟩ | ⟨hw, e'⟩
    · exact ⟨_, _, _, e'0, Nat.le_refl _⟩
    · rw [e] at e'; cases e'
  · have h' : r.ftcache a = some t := h'
    rw [h] at h'; cases h'

theorem alloc_grow (r : Reg) : Grow r { r with next := r.next + 1 } :=
  ⟨rfl, rfl, rfl, rfl, Nat.le_succ _, fun _ _ h => h, fun v x h h' => (by
    have h' : r.cache v = some x := h'
    rw [h] at h'; cases h'),
    fun _ _ h => h, fun a x h h' => (by
    have h' : r.ftcache a = some x := h'
    rw [h] at h'; cases h')⟩

/-! ### Computations -/

/-- The result of a call that remembers no nil: it returned, or it panicked for a reason other than an element that has
    no wrapper type or is not a type. -/
def Tidy {α : Type} : Res α → Prop
  | .ok _ => True
  | .panic e => e ≠ .unsupportedType ∧ e ≠ .notAType
  | .timeout => False

/-- The computations do corresponding things in corresponding states, whatever else matches already; a
    tidy one leaves only nodes and types behind. -/
def Eqv {α β : Type} (fl : Bool) (m : Match) (R : Match → α → β → Prop) (m1 : M α) (m2 : M β) : Prop :=
  ∀ m', m.le m' → ∀ r1 r2, Sim fl m' r1 r2 → ∃ m'', m'.le m'' ∧ ResRel (R m'') (m1 r1).1 (m2 r2).1 ∧
    Sim fl m'' (m1 r1).2 (m2 r2).2 ∧ (Tidy (m1 r1).1 → Grow r1 (m1 r1).2)

section
variable {fl : Bool} {m : Match}

theorem Eqv.le {α β : Type} {R : Match → α → β → Prop} {m m' : Match} {m1 m2} (h : Eqv fl m R m1 m2) (hl : m.le m') :
    Eqv fl m' R m1 m2 := fun k hk => h k (Match.le_trans hl hk)

theorem Eqv.pure {α β : Type} {R : Match → α → β → Prop} {a b} (h : ∀ m', m.le m' → R m' a b) :
    Eqv fl m R (Pure.pure a) (Pure.pure b) :=
  fun m' hm _ _ hs => ⟨m', Match.le_refl _, h m' hm, hs, fun _ => Grow.refl _⟩

theorem Eqv.panic {α β : Type} {R : Match → α → β → Prop} {e} : Eqv fl m R (M.panic e) (M.panic e) :=
  fun m' _ _ _ hs => ⟨m', Match.le_refl _, rfl, hs, fun _ => Grow.refl _⟩

theorem Eqv.bind {α β γ δ : Type} {R : Match → α → β → Prop} {S : Match → γ → δ → Prop} {m1 m2}
    {f : α → M γ} {g : β → M δ} (h : Eqv fl m R m1 m2)
    (k : ∀ m', m.le m' → ∀ a b, R m' a b → Eqv fl m' S (f a) (g b)) : Eqv fl m S (m1 >>= f) (m2 >>= g) := by
  intro m' hm r1 r2 hs
  obtain ⟨m2', hle, h1, h2, h3⟩ := h m' hm r1 r2 hs
  simp only [M.bind_apply]
  rcases e1 : m1 r1 with ⟨res1, r1'⟩
  rcases e2 : m2 r2 with ⟨res2, r2'⟩
  rw [e1, e2] at h1 h2
  rw [e1] at h3
  cases res1 <;> cases res2 <;> simp only [ResRel] at h1 <;> try exact h1.elim
  · rename_i a b
    obtain ⟨m3, hle', h4, h5, h6⟩ := k m2' (Match.le_trans hm hle) a b h1 m2' (Match.le_refl _) r1' r2' h2
    exact ⟨m3, Match.le_trans hle hle', h4, h5, fun hx => (h3 trivial).trans (h6 hx)⟩
  · exact ⟨m2', hle, h1, h2, fun h => h3 h⟩
  · exact ⟨m2', hle, trivial, h2, fun h => h.elim⟩

theorem Eqv.get {γ δ : Type} {S : Match → γ → δ → Prop} {f : Reg → M γ} {g : Reg → M δ}
    (k : ∀ m', m.le m' → ∀ r1 r2, Sim fl m' r1 r2 → Eqv fl m' S (f r1) (g r2)) : Eqv fl m S (M.get >>= f) (M.get >>= g) :=
  fun m' hm r1 r2 hs => k m' hm r1 r2 hs m' (Match.le_refl _) r1 r2 hs

theorem Eqv.read {γ : Type} {S : Match → γ → γ → Prop} {f : Reg → M γ} (hf : ∀ r1 r2, Front r1 r2 → f r2 = f r1)
    (k : ∀ m', m.le m' → ∀ r, Eqv fl m' S (f r) (f r)) : Eqv fl m S (M.get >>= f) (M.get >>= f) :=
  Eqv.get fun m' hm r1 r2 hs => by
    rw [hf r1 r2 hs.front]
    exact k m' hm r1

theorem Eqv.mono {α β : Type} {R S : Match → α → β → Prop} {m1 m2} (h : Eqv fl m R m1 m2)
    (hRS : ∀ m' a b, m.le m' → R m' a b → S m' a b) : Eqv fl m S m1 m2 := by
  intro m' hm r1 r2 hs
  obtain ⟨m2', hle, h1, h2, h3⟩ := h m' hm r1 r2 hs
  refine ⟨m2', hle, ?_, h2, h3⟩
  revert h1
  cases (m1 r1).1 <;> cases (m2 r2).1 <;> simp only [ResRel] <;>
    first | exact id | exact hRS _ _ _ (Match.le_trans hm hle)

theorem Eqv.alloc : Eqv fl m (fun m' a b => m' a b) M.alloc M.alloc := by
  intro m' hm r1 r2 hs
  exact ⟨_, Match.le_add _ _ _, .inr ⟨rfl, rfl⟩, hs.alloc, fun _ => alloc_grow r1⟩

theorem wrap_apply (v : Vis) (r : Reg) : wrap v r = match r.cache v with
    | some n => (.ok n, r)
    | none => match r.wrapTarget v with
      | some (k, p) => (.ok (some (.wrapped r.next k p)), wrapped r v k p)
      | none => (.panic .unsupportedType, poisoned r v) := rfl

/-- What `wrap` gives for `v`. -/
def WrapR (v : Vis) (m : Match) (o1 o2 : Option Node) : Prop :=
  ORel m o1 o2 ∧ ∀ n, o1 = some n → ∃ a k p, n = .wrapped a k p ∧ v = .at p

theorem Eqv.wrap (v : Vis) : Eqv fl m (WrapR v) (Protoast.wrap v) (Protoast.wrap v) := by
  intro m' hm r1 r2 hs
  rw [wrap_apply, wrap_apply]
  cases h1 : r1.cache v with
  | some x1 =>
    cases x1 with
    | none =>
      rw [(hs.poison v).mp h1]
      exact ⟨m', Match.le_refl _, ⟨.none, fun n h => by cases h⟩, hs, fun _ => Grow.refl _⟩
    | some n1 =>
      obtain ⟨a, k, p, hv, rfl, ht, -⟩ := hs.h1.cacheSome _ _ h1
      cases h2 : r2.cache v with
      | some x2 =>
        cases x2 with
        | none => rw [(hs.poison v).mpr h2] at h1; cases h1
        | some n2 =>
          obtain ⟨b, k', p', -, rfl, ht', -⟩ := hs.h2.cacheSome _ _ h2
          rw [hs.front.wrapTarget, ht] at ht'
          cases ht'
          exact ⟨m', Match.le_refl _, ⟨.some (.wrapped (hs.both _ _ _ _ _ _ _ h1 h2)),
            fun n h => by cases h; exact ⟨_, _, _, rfl, hv⟩⟩, hs, fun _ => Grow.refl _⟩
      | none =>
        simp only [hs.front.wrapTarget, ht]
        exact ⟨_, Match.le_add _ _ _, ⟨.some (.wrapped (.inr ⟨rfl, rfl⟩)),
          fun n h => by cases h; exact ⟨_, _, _, rfl, hv⟩⟩, hs.wrapRight h1 h2, fun _ => Grow.refl _⟩
  | none =>
    cases h2 : r2.cache v with
    | some x2 =>
      cases x2 with
      | none => rw [(hs.poison v).mpr h2] at h1; cases h1
      | some n2 =>
        obtain ⟨b, k, p, hv, rfl, ht, -⟩ := hs.h2.cacheSome _ _ h2
        rw [hs.front.wrapTarget] at ht
        simp only [ht]
        have hf := (hs.flip.wrapRight h2 h1).flip
        refine ⟨_, ?_, ⟨.some (.wrapped ?_), fun n h => by cases h; exact ⟨_, _, _, rfl, hv⟩⟩, hf,
          fun _ => wrapped_grow _ _ _ h1⟩
        · exact fun x y e => .inl e
        · exact .inr ⟨rfl, rfl⟩
    | none =>
      simp only [hs.front.wrapTarget]
      cases ht : r1.wrapTarget v with
      | none => exact ⟨m', Match.le_refl _, rfl, hs.poisonBoth h1 h2 ht, fun h => absurd rfl h.1⟩
      | some kp =>
        obtain ⟨k, p⟩ := kp
        exact ⟨_, Match.le_add _ _ _, ⟨.some (.wrapped (.inr ⟨rfl, rfl⟩)),
          fun n h => by cases h; exact ⟨_, _, _, rfl, (wrapTarget_deep ht).1⟩⟩, hs.wrapBoth h1 h2 ht,
          fun _ => wrapped_grow _ _ _ h1⟩

/-- A type assertion. -/
def KindR (k : WKind) (m : Match) (n1 n2 : Node) : Prop := ∃ a b p, n1 = .wrapped a k p ∧ n2 = .wrapped b k p ∧ m a b

theorem KindR.nd {k m n1 n2} (h : KindR k m n1 n2) : NRel m n1 n2 := by
  obtain ⟨a, b, p, rfl, rfl, h⟩ := h
  exact .wrapped h

theorem Eqv.assertKind (k : WKind) {o1 o2} (h : ORel m o1 o2) :
    Eqv fl m (KindR k) (Protoast.assertKind k o1) (Protoast.assertKind k o2) := by
  cases h with
  | none => exact Eqv.panic
  | some h =>
    cases h with
    | @wrapped a b k' p h =>
      simp only [Protoast.assertKind]
      split
      · rename_i hk; subst hk; exact Eqv.pure fun m' hm => ⟨_, _, _, rfl, rfl, hm _ _ h⟩
      · exact Eqv.panic
    | _ => exact Eqv.panic

theorem Eqv.wrapO (v : Vis) : Eqv fl m ORel (Protoast.wrap v) (Protoast.wrap v) :=
  (Eqv.wrap v).mono fun _ _ _ _ h => h.1

theorem Eqv.wrapAs (k : WKind) (p : Ptr) : Eqv fl m (KindR k) (Protoast.wrapAs k p) (Protoast.wrapAs k p) :=
  Eqv.bind (Eqv.wrapO (.at p)) fun _ _ _ _ h => Eqv.assertKind k h

theorem wrapAs_nd (k : WKind) (p : Ptr) : Eqv fl m NRel (Protoast.wrapAs k p) (Protoast.wrapAs k p) :=
  (Eqv.wrapAs k p).mono fun _ _ _ _ h => h.nd

theorem Eqv.wrapNamed (p : Ptr) : Eqv fl m NRel (Protoast.wrapNamed p) (Protoast.wrapNamed p) := by
  refine Eqv.bind (Eqv.wrap (.at p)) ?_
  rintro m' hm o1 o2 ⟨h, hd⟩
  cases h with
  | none => exact Eqv.panic
  | some h =>
    obtain ⟨a, k, q, rfl, -⟩ := hd _ rfl
    cases h with
    | wrapped h => cases k <;> first | exact Eqv.panic | exact Eqv.pure fun m'' hm => .wrapped (hm _ _ h)

theorem Eqv.someOf {m1 m2 : M Node} (h : Eqv fl m NRel m1 m2) :
    Eqv fl m ORel (m1 >>= fun n => Pure.pure (some n)) (m2 >>= fun n => Pure.pure (some n)) :=
  Eqv.bind h fun _ _ _ _ h => Eqv.pure fun _ hm => .some (h.mono hm)

theorem Eqv.pureNone : Eqv fl m ORel (Pure.pure none) (Pure.pure none) := Eqv.pure fun _ _ => .none

end

end Protoast.Quiet
