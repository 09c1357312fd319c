import Verif.Spec.Platform
import Verif.Proof.Strconv
/-
  Option values on platforms with another size of `int`.
-/
namespace Protoast

theorem parseUintAt_64 (s : Str) : parseUintAt 64 s = parseUint s := rfl
theorem atoiAt_64 (s : Str) : atoiAt 64 s = atoi s := rfl

theorem parseUintAt_32 (s : Str) : parseUintAt 32 s = (parseUint s).filter (fun v => v < 2 ^ 32) := by
  unfold parseUintAt parseUint
  split
  · rfl
  · cases digitsVal 0 s with
    | none => rfl
    | some v =>
      by_cases h : v < 2 ^ 32
      · have h2 : v < 2 ^ 64 := by omega
        simp only [h, h2, if_true, Option.filter, decide_true]
      · by_cases h2 : v < 2 ^ 64
        · simp only [h, h2, if_true, if_false, Option.filter, decide_false, Bool.false_eq_true]
        · simp only [h, h2, if_false, Option.filter]

instance (v : Int) : Decidable (FitsInt32 v) := inferInstanceAs (Decidable (_ ∧ _))

theorem atoiAt_32 (s : Str) : atoiAt 32 s = (atoi s).filter (fun v => decide (FitsInt32 v)) := by
  have key : ∀ (o : Option Nat) (neg : Bool),
      (match o.filter (fun v => v < 2 ^ 32) with
        | some v => if (if neg then v ≤ 2 ^ (32 - 1) else v < 2 ^ (32 - 1)) then
            some (if neg then -(v : Int) else (v : Int)) else none
        | none => none) =
      (match o with
        | some v => if (if neg then v ≤ 2 ^ 63 else v < 2 ^ 63) then
            some (if neg then -(v : Int) else (v : Int)) else none
        | none => none).filter (fun v => decide (FitsInt32 v)) := by
    intro o neg
    cases o with
    | none => rfl
    | some v =>
      have e31 : (2 : Nat) ^ (32 - 1) = 2147483648 := rfl
      have hfit : FitsInt32 (if neg then -(v : Int) else (v : Int)) ↔ (if neg then v ≤ 2147483648 else v < 2147483648) := by
        unfold FitsInt32
        cases neg <;> simp <;> omega
      have hbig : (if neg then v ≤ 2147483648 else v < 2147483648) → v < 2 ^ 32 ∧
          (if neg then v ≤ 2 ^ 63 else v < 2 ^ 63) := by
        cases neg <;> simp <;> omega
      rw [e31]
      by_cases h1 : (if neg then v ≤ 2147483648 else v < 2147483648)
      · obtain ⟨h2, h3⟩ := hbig h1
        simp only [Option.filter, h2, decide_true, if_true, h3, decide_eq_true (hfit.mpr h1), if_pos h1]
      · have h4 : ¬ FitsInt32 _ := fun h => h1 (hfit.mp h)
        by_cases h2 : v < 2 ^ 32
        · by_cases h3 : (if neg then v ≤ 2 ^ 63 else v < 2 ^ 63)
          · simp only [Option.filter, h2, decide_true, if_true, if_neg h1, if_pos h3, decide_eq_false h4,
              Bool.false_eq_true, if_false]
          · simp only [Option.filter, h2, decide_true, if_true, if_neg h1, if_neg h3]
        · by_cases h3 : (if neg then v ≤ 2 ^ 63 else v < 2 ^ 63)
          · simp only [Option.filter, h2, decide_false, Bool.false_eq_true, if_false, if_pos h3, decide_eq_false h4]
          · simp only [Option.filter, h2, decide_false, Bool.false_eq_true, if_false, if_neg h3]
  unfold atoiAt
  split
  · rfl
  · rw [parseUintAt_32]; exact key _ true
  · rw [parseUintAt_32]; exact key _ false
  · next h1 h2 h3 =>
    have e : atoi s = match parseUint s with
        | some v => if v < 2 ^ 63 then some (v : Int) else none
        | none => none := by
      unfold atoi
      split
      · exact (h1 rfl).elim
      · exact (h2 _ rfl).elim
      · exact (h3 _ rfl).elim
      · rfl
    rw [parseUintAt_32, e]
    exact key _ false

/-! ### 64 bits -/

theorem parseUint_lt {s n} (h : parseUint s = some n) : n % 2 ^ 64 = n :=
  Nat.mod_eq_of_lt (parseUint_iff.mp h).2

mutual
theorem buildAt_64 (F : FloatOps) (o : Option Ptr) (f : Ptr) (ig : Bool) :
    (l : Literal) → buildFromLiteralAt 64 F o f ig l = buildFromLiteral F o f ig l
  | .mk pos source array om => by
    have ha := buildArrayAt_64 F f array
    have hi := fun mp => buildItemsAt_64 F mp om
    unfold buildFromLiteralAt buildFromLiteral
    rw [ha]
    simp only [hi, atoiAt_64]
    congr 1
    funext r
    cases r.kind f with
    | none => rfl
    | some kd =>
      cases kd <;> try rfl
      rename_i typ _ isRepeated _
      by_cases hrep : (isRepeated && !ig) = true
      · simp only [hrep, if_true]
      · simp only [hrep, if_false, Bool.false_eq_true]
        cases scalarClass typ <;> try rfl
        cases h : parseUint source with
        | none => rfl
        | some v => simp only [parseUint_lt h]
theorem buildArrayAt_64 (F : FloatOps) (f : Ptr) : (ls : List Literal) → buildArrayAt 64 F f ls = buildArray F f ls
  | [] => by unfold buildArrayAt buildArray; rfl
  | l :: ls => by
    unfold buildArrayAt buildArray
    rw [buildAt_64 F none f true l, buildArrayAt_64 F f ls]
theorem buildItemsAt_64 (F : FloatOps) (m : Ptr) :
    (ls : List (Str × Literal)) → buildItemsAt 64 F m ls = buildItems F m ls
  | [] => by unfold buildItemsAt buildItems; rfl
  | nl :: rest => by
    unfold buildItemsAt buildItems
    rw [buildItemAt_64 F m nl, buildItemsAt_64 F m rest]
theorem buildItemAt_64 (F : FloatOps) (m : Ptr) : (nl : Str × Literal) → buildItemAt 64 F m nl = buildItem F m nl
  | (name, lit) => by
    unfold buildItemAt buildItem
    have h := fun fp => buildAt_64 F none fp false lit
    simp only [h]
    rfl
end

/-! ### 32 bits -/

/-- `m32` returns exactly when `m` does with a result for which `fit` holds; then it returns that result, changed by `g`,
    and does the same to the registry. -/
def Cuts {α : Type} (fit : α → Prop) (g : α → α) (m32 m : M α) : Prop :=
  ∀ r x r', m32 r = (.ok x, r') ↔ ∃ v, m r = (.ok v, r') ∧ fit v ∧ x = g v

theorem Cuts.pure {α} {fit : α → Prop} {g : α → α} {a : α} (h : fit a) : Cuts fit g (Pure.pure (g a)) (Pure.pure a) := by
  intro r x r'
  simp only [M.pure_apply, Prod.mk.injEq, Res.ok.injEq]
  constructor
  · rintro ⟨rfl, rfl⟩; exact ⟨a, ⟨rfl, rfl⟩, h, rfl⟩
  · rintro ⟨v, ⟨rfl, rfl⟩, _, rfl⟩; exact ⟨rfl, rfl⟩

theorem Cuts.panic {α} {fit : α → Prop} {g : α → α} (p q : Panic) : Cuts fit g (M.panic p) (M.panic q) := by
  intro r x r'
  simp

/-- The same computation on both platforms, followed by two that correspond. -/
theorem Cuts.after {α β} {fit : β → Prop} {g : β → β} {m : M α} {f32 f : α → M β}
    (h : ∀ a, Cuts fit g (f32 a) (f a)) : Cuts fit g (m >>= f32) (m >>= f) := by
  intro r x r'
  simp only [M.bind_apply]
  rcases m r with ⟨(a | p | _), r1⟩
  · exact h a r1 x r'
  · simp
  · simp

/-- Two computations that correspond, with the results put together. -/
theorem Cuts.map {α β} {fit : α → Prop} {g : α → α} {fit' : β → Prop} {g' : β → β} {m32 m : M α} {k : α → β}
    (h : Cuts fit g m32 m) (hf : ∀ a, fit' (k a) ↔ fit a) (hg : ∀ a, g' (k a) = k (g a)) :
    Cuts fit' g' (do let a ← m32; Pure.pure (k a)) (do let a ← m; Pure.pure (k a)) := by
  intro r x r'
  simp only [M.bind_apply, M.pure_apply]
  constructor
  · intro e
    rcases e2 : m32 r with ⟨(a | p | _), r1⟩ <;> rw [e2] at e <;> simp at e
    obtain ⟨rfl, rfl⟩ := e
    obtain ⟨v, h1, h2, rfl⟩ := (h r a r1).mp e2
    exact ⟨k v, by rw [h1], (hf v).mpr h2, (hg v).symm⟩
  · rintro ⟨v, e, h2, rfl⟩
    rcases e2 : m r with ⟨(a | p | _), r1⟩ <;> rw [e2] at e <;> simp at e
    obtain ⟨rfl, rfl⟩ := e
    rw [(h r (g a) r1).mpr ⟨a, e2, (hf a).mp h2, rfl⟩]
    simp only [hg]

theorem Cuts.both {α β γ} {fit : α → Prop} {g : α → α} {fit' : β → Prop} {g' : β → β} {fit'' : γ → Prop} {g'' : γ → γ}
    {m32 m : M α} {n32 n : M β} {k : α → β → γ} (h : Cuts fit g m32 m) (h' : Cuts fit' g' n32 n)
    (hf : ∀ a b, fit'' (k a b) ↔ fit a ∧ fit' b) (hg : ∀ a b, g'' (k a b) = k (g a) (g' b)) :
    Cuts fit'' g'' (do let a ← m32; let b ← n32; Pure.pure (k a b)) (do let a ← m; let b ← n; Pure.pure (k a b)) := by
  intro r x r'
  simp only [M.bind_apply, M.pure_apply]
  constructor
  · intro e
    rcases e2 : m32 r with ⟨(a | p | _), r1⟩ <;> rw [e2] at e <;> simp at e
    rcases e3 : n32 r1 with ⟨(b | p | _), r2⟩ <;> rw [e3] at e <;> simp at e
    obtain ⟨rfl, rfl⟩ := e
    obtain ⟨v, h1, h2, rfl⟩ := (h r a r1).mp e2
    obtain ⟨u, h3, h4, rfl⟩ := (h' r1 b r2).mp e3
    exact ⟨k v u, by rw [h1]; simp only [h3], (hf v u).mpr ⟨h2, h4⟩, (hg v u).symm⟩
  · rintro ⟨v, e, h2, rfl⟩
    rcases e2 : m r with ⟨(a | p | _), r1⟩ <;> rw [e2] at e <;> simp at e
    rcases e3 : n r1 with ⟨(b | p | _), r2⟩ <;> rw [e3] at e <;> simp at e
    obtain ⟨rfl, rfl⟩ := e
    obtain ⟨h4, h5⟩ := (hf a b).mp h2
    rw [(h r (g a) r1).mpr ⟨a, e2, h4, rfl⟩]
    simp only
    rw [(h' r1 (g' b) r2).mpr ⟨b, e3, h5, rfl⟩]
    simp only [hg]

theorem Cuts.leaf {v : OptVal} (e : v.cut = v) (h : IntsFit v) :
    Cuts IntsFit OptVal.cut (Pure.pure v) (Pure.pure v) := by
  have := Cuts.pure (g := OptVal.cut) h
  rwa [e] at this

theorem intsFit_array {o vs} : IntsFit (.array o vs) ↔ ∀ v ∈ vs, IntsFit v := by
  constructor
  · exact fun h v hv o' l n hs => h o' l n (.array hv hs)
  · intro h o' l n hs
    cases hs with
    | array hv hs => exact h _ hv _ _ _ hs

theorem intsFit_map {o l items} : IntsFit (.map o l items) ↔ ∀ kv ∈ items, IntsFit kv.2 := by
  constructor
  · exact fun h v hv o' l n hs => h o' l n (.map (k := v.1) hv hs)
  · intro h o' l n hs
    cases hs with
    | map hv hs => exact h _ hv _ _ _ hs

theorem intsFit_leaf {v : OptVal} (ha : ∀ o vs, v ≠ .array o vs) (hm : ∀ o l i, v ≠ .map o l i)
    (hi : ∀ o l n, v ≠ .int o l n) : IntsFit v := by
  intro o l n hs
  cases hs with
  | self => exact absurd rfl (hi _ _ _)
  | array => exact absurd rfl (ha _ _)
  | map => exact absurd rfl (hm _ _ _)

theorem intsFit_int {o l n} : IntsFit (.int o l n) ↔ FitsInt32 n := by
  constructor
  · exact fun h => h o l n .self
  · intro h o' l' n' hs
    cases hs
    exact h

mutual
theorem cuts_build (F : FloatOps) (o : Option Ptr) (f : Ptr) (ig : Bool) :
    (l : Literal) → Cuts IntsFit OptVal.cut (buildFromLiteralAt 32 F o f ig l) (buildFromLiteral F o f ig l)
  | .mk pos source array om => by
    have ha := cuts_array F f array
    have hi := fun mp => cuts_items F mp om
    unfold buildFromLiteralAt buildFromLiteral
    refine Cuts.after fun r => ?_
    cases r.kind f with
    | none => exact Cuts.panic _ _
    | some kd =>
      cases kd <;> try exact Cuts.panic _ _
      rename_i typ _ isRepeated _
      by_cases hrep : (isRepeated && !ig) = true
      · simp only [hrep, if_true]
        exact ha.map (fit' := IntsFit) (g' := OptVal.cut) (k := OptVal.array o) (fun a => intsFit_array) (fun a => rfl)
      · simp only [hrep, if_false, Bool.false_eq_true]
        cases scalarClass typ with
        | bool =>
          cases parseBool source with
          | none => exact Cuts.panic _ _
          | some v => exact Cuts.leaf rfl (intsFit_leaf (by simp) (by simp) (by simp))
        | int =>
          rw [atoiAt_32]
          cases atoi source with
          | none => exact Cuts.panic _ _
          | some v =>
            by_cases hv : FitsInt32 v
            · simp only [Option.filter, hv, decide_true, if_true]
              exact Cuts.leaf rfl (intsFit_int.mpr hv)
            · simp only [Option.filter, hv, decide_false, Bool.false_eq_true, if_false]
              intro r x r'
              simp only [M.panic_apply, M.pure_apply]
              constructor
              · intro h; cases h
              · rintro ⟨u, h, h2, _⟩
                cases h
                exact absurd (intsFit_int.mp h2) hv
        | uint =>
          cases parseUint source with
          | none => exact Cuts.panic _ _
          | some v =>
            exact Cuts.pure (g := OptVal.cut) (a := OptVal.uint o (.mk pos source array om) v)
              (intsFit_leaf (by simp) (by simp) (by simp))
        | float =>
          cases F.parse source with
          | none => exact Cuts.panic _ _
          | some v => exact Cuts.leaf rfl (intsFit_leaf (by simp) (by simp) (by simp))
        | string => exact Cuts.leaf rfl (intsFit_leaf (by simp) (by simp) (by simp))
        | bytes => exact Cuts.leaf rfl (intsFit_leaf (by simp) (by simp) (by simp))
        | named =>
          refine Cuts.after fun t => ?_
          rcases t with _ | n
          · exact Cuts.panic _ _
          · cases n <;> try exact Cuts.panic _ _
            rename_i k _
            cases k <;> try exact Cuts.panic _ _
            · exact (hi _).map (fit' := IntsFit) (g' := OptVal.cut) (k := OptVal.map o (.mk pos source array om))
                (fun a => intsFit_map) (fun a => rfl)
            · refine Cuts.after fun e => ?_
              rcases e with _ | n
              · exact Cuts.panic _ _
              · cases n <;> try exact Cuts.panic _ _
                exact Cuts.leaf rfl (intsFit_leaf (by simp) (by simp) (by simp))
theorem cuts_array (F : FloatOps) (f : Ptr) :
    (ls : List Literal) → Cuts (fun vs => ∀ v ∈ vs, IntsFit v) OptVal.cutAll (buildArrayAt 32 F f ls) (buildArray F f ls)
  | [] => by
    unfold buildArrayAt buildArray
    exact Cuts.pure (a := []) (by simp)
  | l :: ls => by
    unfold buildArrayAt buildArray
    exact (cuts_build F none f true l).both (cuts_array F f ls) (k := fun v vs => v :: vs) (fun a b => by simp) (fun a b => rfl)
theorem cuts_items (F : FloatOps) (m : Ptr) :
    (ls : List (Str × Literal)) →
      Cuts (fun vs => ∀ kv ∈ vs, IntsFit kv.2) OptVal.cutItems (buildItemsAt 32 F m ls) (buildItems F m ls)
  | [] => by
    unfold buildItemsAt buildItems
    exact Cuts.pure (a := []) (by simp)
  | nl :: rest => by
    unfold buildItemsAt buildItems
    exact (cuts_item F m nl).both (cuts_items F m rest) (k := fun v vs => v :: vs) (fun a b => by simp) (fun a b => rfl)
theorem cuts_item (F : FloatOps) (m : Ptr) :
    (nl : Str × Literal) → Cuts (fun kv => IntsFit kv.2) OptVal.cutItem (buildItemAt 32 F m nl) (buildItem F m nl)
  | (name, lit) => by
    have h := fun fp => cuts_build F none fp false lit
    unfold buildItemAt buildItem
    refine Cuts.after fun n => ?_
    rcases n with _ | n
    · exact Cuts.panic _ _
    · cases n <;> try exact Cuts.panic _ _
      refine Cuts.after fun r => ?_
      rename_i p
      cases r.kind p with
      | none => exact Cuts.panic _ _
      | some kd =>
        cases kd <;> try exact Cuts.panic _ _
        exact (h _).map (fit' := fun kv : Str × OptVal => IntsFit kv.2) (g' := OptVal.cutItem) (k := fun v => (name, v))
          (fun a => Iff.rfl) (fun a => rfl)
end

theorem cuts_value (F : FloatOps) (q f : Ptr) :
    Cuts IntsFit OptVal.cut (Option.valueAt 32 F q f) (Option.value F q f) := by
  unfold Option.valueAt Option.value
  refine Cuts.after fun r => ?_
  cases r.kind q with
  | none => exact Cuts.panic _ _
  | some kd =>
    cases kd <;> try exact Cuts.panic _ _
    exact cuts_build F _ f false _

theorem valueAt_64 (F : FloatOps) (q f : Ptr) : Option.valueAt 64 F q f = Option.value F q f := by
  unfold Option.valueAt Option.value
  congr 1
  funext r
  cases r.kind q with
  | none => rfl
  | some kd =>
    cases kd <;> try rfl
    exact buildAt_64 F _ f false _

mutual
theorem cut_fit : (v : OptVal) → UintsFit v → v.cut = v
  | .uint o l n, h => by
    have := h o l n .self
    simp only [OptVal.cut, Nat.mod_eq_of_lt this]
  | .array o vs, h => by
    simp only [OptVal.cut, cutAll_fit vs fun v hv o' l n hs => h o' l n (.array hv hs)]
  | .map o l items, h => by
    simp only [OptVal.cut, cutItems_fit items fun kv hv o' l n hs => h o' l n (.map (k := kv.1) hv hs)]
  | .bool .., _ | .int .., _ | .float .., _ | .string .., _ | .bytes .., _ | .enum .., _ => rfl
theorem cutAll_fit : (vs : List OptVal) → (∀ v ∈ vs, UintsFit v) → OptVal.cutAll vs = vs
  | [], _ => rfl
  | v :: vs, h => by
    simp only [OptVal.cutAll, cut_fit v (h v (by simp)), cutAll_fit vs fun u hu => h u (by simp [hu])]
theorem cutItems_fit : (vs : List (Str × OptVal)) → (∀ kv ∈ vs, UintsFit kv.2) → OptVal.cutItems vs = vs
  | [], _ => rfl
  | kv :: rest, h => by
    simp only [OptVal.cutItems, cutItem_fit kv (h kv (by simp)), cutItems_fit rest fun u hu => h u (by simp [hu])]
theorem cutItem_fit : (kv : Str × OptVal) → UintsFit kv.2 → OptVal.cutItem kv = kv
  | (k, v), h => by simp only [OptVal.cutItem, cut_fit v h]
end

end Protoast
