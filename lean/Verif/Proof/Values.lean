import Verif.Proof.Parents
/-
  Option values mirror their literals.
-/
namespace Protoast

mutual
/-- The value has the shape of the literal it was read from. -/
def Mirrors : OptVal → Literal → Prop
  | .bool _ l _, lit => l = lit
  | .int _ l _, lit => l = lit
  | .uint _ l _, lit => l = lit
  | .float _ l _, lit => l = lit
  | .string _ l _, lit => l = lit
  | .bytes _ l _, lit => l = lit
  | .enum _ l _ _, lit => l = lit
  | .array _ vs, lit => MirrorsAll vs lit.array
  | .map _ l items, lit => l = lit ∧ MirrorsItems items lit.orderedMap
def MirrorsAll : List OptVal → List Literal → Prop
  | [], [] => True
  | v :: vs, l :: ls => Mirrors v l ∧ MirrorsAll vs ls
  | _, _ => False
def MirrorsItems : List (Str × OptVal) → List (Str × Literal) → Prop
  | [], [] => True
  | v :: vs, l :: ls => MirrorsItem v l ∧ MirrorsItems vs ls
  | _, _ => False
def MirrorsItem : Str × OptVal → Str × Literal → Prop
  | (k, v), l => k = l.1 ∧ Mirrors v l.2
end

theorem mirrorsAll_get : ∀ {vs : List OptVal} {ls : List Literal}, MirrorsAll vs ls → ∀ {i : Nat} {v l},
    vs[i]? = some v → ls[i]? = some l → Mirrors v l := by
  intro vs
  induction vs with
  | nil => intro ls _ i v l h; simp at h
  | cons a vs ih =>
    intro ls h i v l hv hl
    cases ls with
    | nil => simp at hl
    | cons b ls =>
      unfold MirrorsAll at h
      cases i with
      | zero => simp at hv hl; subst hv hl; exact h.1
      | succ n => exact ih h.2 (by simpa using hv) (by simpa using hl)

theorem mirrorsItems_get : ∀ {vs : List (Str × OptVal)} {ls : List (Str × Literal)}, MirrorsItems vs ls →
    ∀ {i : Nat} {k v k' l}, vs[i]? = some (k, v) → ls[i]? = some (k', l) → k = k' ∧ Mirrors v l := by
  intro vs
  induction vs with
  | nil => intro ls _ i k v k' l h; simp at h
  | cons a vs ih =>
    intro ls h i k v k' l hv hl
    cases ls with
    | nil => simp at hl
    | cons b ls =>
      unfold MirrorsItems at h
      cases i with
      | zero =>
        simp at hv hl; subst hv hl
        have := h.1
        unfold MirrorsItem at this
        exact this
      | succ n => exact ih h.2 (by simpa using hv) (by simpa using hl)

theorem mirrorsAll_length : ∀ {vs : List OptVal} {ls : List Literal}, MirrorsAll vs ls → vs.length = ls.length := by
  intro vs
  induction vs with
  | nil => intro ls h; cases ls with | nil => rfl | cons b ls => unfold MirrorsAll at h; exact h.elim
  | cons a vs ih =>
    intro ls h
    cases ls with
    | nil => unfold MirrorsAll at h; exact h.elim
    | cons b ls => unfold MirrorsAll at h; simp [ih h.2]

theorem mirrorsItems_keys : ∀ {vs : List (Str × OptVal)} {ls : List (Str × Literal)}, MirrorsItems vs ls →
    vs.map Prod.fst = ls.map Prod.fst := by
  intro vs
  induction vs with
  | nil => intro ls h; cases ls with | nil => rfl | cons b ls => unfold MirrorsItems at h; exact h.elim
  | cons a vs ih =>
    intro ls h
    cases ls with
    | nil => unfold MirrorsItems at h; exact h.elim
    | cons b ls =>
      unfold MirrorsItems at h
      have h1 := h.1
      unfold MirrorsItem at h1
      simp [ih h.2, h1.1]

theorem subValue_mirrors {v l v' l'} (h : Mirrors v l) (hs : SubValue v l v' l') : Mirrors v' l' := by
  induction hs with
  | self => exact h
  | elem i _ h1 h2 ih => unfold Mirrors at ih; exact mirrorsAll_get ih h1 h2
  | item i _ h1 h2 ih => unfold Mirrors at ih; exact (mirrorsItems_get ih.2 h1 h2).2

mutual
theorem buildFromLiteral_mirrors (F : FloatOps) : (lit : Literal) → ∀ op f ig r v r',
    buildFromLiteral F op f ig lit r = (.ok v, r') → Mirrors v lit
  | .mk pos source array orderedMap => by
    intro op f ig r v r' h
    unfold buildFromLiteral at h
    simp only [M.bind_apply, M.get_apply] at h
    rcases hk : r.kind f with _ | kd
    · rw [hk] at h; cases h
    rw [hk] at h
    cases kd <;> simp only [M.panic_apply, Prod.mk.injEq, reduceCtorEq, false_and] at h
    case normalField n typ s rep opt =>
    split at h
    · simp only [M.bind_apply] at h
      rcases hb : buildArray F f array r with ⟨res, r1⟩
      rw [hb] at h
      cases res with
      | ok vs =>
        simp only [M.pure_apply, Prod.mk.injEq, Res.ok.injEq] at h
        rw [← h.1]
        unfold Mirrors
        exact buildArray_mirrors F array _ _ _ _ hb
      | panic e => cases h
      | timeout => cases h
    · cases hs : scalarClass typ <;> rw [hs] at h <;> simp only at h
      case bool =>
        cases hb : parseBool source <;> rw [hb] at h <;> cases h
        unfold Mirrors; rfl
      case int =>
        cases hb : atoi source <;> rw [hb] at h <;> cases h
        unfold Mirrors; rfl
      case uint =>
        cases hb : parseUint source <;> rw [hb] at h <;> cases h
        unfold Mirrors; rfl
      case float =>
        cases hb : F.parse source <;> rw [hb] at h <;> cases h
        unfold Mirrors; rfl
      case string => cases h; unfold Mirrors; rfl
      case bytes => cases h; unfold Mirrors; rfl
      case named =>
        simp only [M.bind_apply] at h
        rcases hb : getTypeByName f typ r with ⟨res, r1⟩
        rw [hb] at h
        cases res with
        | panic e => cases h
        | timeout => cases h
        | ok t =>
          simp only at h
          split at h
          · next a ep =>
            simp only [M.bind_apply] at h
            rcases hv : Enum.value ep source r1 with ⟨res, r2⟩
            rw [hv] at h
            cases res with
            | panic e => cases h
            | timeout => cases h
            | ok x =>
              simp only at h
              split at h
              · cases h; unfold Mirrors; rfl
              · cases h
          · next a mp =>
            simp only [M.bind_apply] at h
            rcases hv : buildItems F mp orderedMap r1 with ⟨res, r2⟩
            rw [hv] at h
            cases res with
            | panic e => cases h
            | timeout => cases h
            | ok items =>
              simp only [M.pure_apply, Prod.mk.injEq, Res.ok.injEq] at h
              rw [← h.1]
              unfold Mirrors
              exact ⟨rfl, buildItems_mirrors F orderedMap _ _ _ _ hv⟩
          · cases h
theorem buildArray_mirrors (F : FloatOps) : (ls : List Literal) → ∀ f r vs r',
    buildArray F f ls r = (.ok vs, r') → MirrorsAll vs ls
  | [] => by
    intro f r vs r' h
    unfold buildArray at h
    cases h
    unfold MirrorsAll; trivial
  | l :: ls => by
    intro f r vs r' h
    unfold buildArray at h
    simp only [M.bind_apply] at h
    rcases hb : buildFromLiteral F none f true l r with ⟨res, r1⟩
    rw [hb] at h
    cases res with
    | panic e => cases h
    | timeout => cases h
    | ok v =>
      simp only at h
      rcases hb2 : buildArray F f ls r1 with ⟨res, r2⟩
      rw [hb2] at h
      cases res with
      | panic e => cases h
      | timeout => cases h
      | ok vs' =>
        cases h
        unfold MirrorsAll
        exact ⟨buildFromLiteral_mirrors F l _ _ _ _ _ _ hb, buildArray_mirrors F ls _ _ _ _ hb2⟩
theorem buildItems_mirrors (F : FloatOps) : (ls : List (Str × Literal)) → ∀ m r vs r',
    buildItems F m ls r = (.ok vs, r') → MirrorsItems vs ls
  | [] => by
    intro f r vs r' h
    unfold buildItems at h
    cases h
    unfold MirrorsItems; trivial
  | l :: ls => by
    intro m r vs r' h
    unfold buildItems at h
    simp only [M.bind_apply] at h
    rcases hb : buildItem F m l r with ⟨res, r1⟩
    rw [hb] at h
    cases res with
    | panic e => cases h
    | timeout => cases h
    | ok v =>
      simp only at h
      rcases hb2 : buildItems F m ls r1 with ⟨res, r2⟩
      rw [hb2] at h
      cases res with
      | panic e => cases h
      | timeout => cases h
      | ok vs' =>
        cases h
        unfold MirrorsItems
        exact ⟨buildItem_mirrors F l _ _ _ _ hb, buildItems_mirrors F ls _ _ _ _ hb2⟩
theorem buildItem_mirrors (F : FloatOps) : (l : Str × Literal) → ∀ m r v r',
    buildItem F m l r = (.ok v, r') → MirrorsItem v l
  | (name, lit) => by
    intro m r v r' h
    unfold buildItem at h
    simp only [M.bind_apply] at h
    rcases hb : Message.field m name r with ⟨res, r1⟩
    rw [hb] at h
    cases res with
    | panic e => cases h
    | timeout => cases h
    | ok x =>
      simp only at h
      split at h
      · next a k fp =>
        simp only [M.bind_apply, M.get_apply] at h
        rcases hk : r1.kind fp with _ | kd
        · rw [hk] at h; cases h
        rw [hk] at h
        cases kd <;> simp only [M.panic_apply, Prod.mk.injEq, reduceCtorEq, false_and] at h
        simp only [M.bind_apply] at h
        rcases hb2 : buildFromLiteral F none fp false lit r1 with ⟨res, r2⟩
        rw [hb2] at h
        cases res with
        | panic e => cases h
        | timeout => cases h
        | ok v' =>
          cases h
          unfold MirrorsItem
          exact ⟨rfl, buildFromLiteral_mirrors F lit _ _ _ _ _ _ hb2⟩
      · cases h
end

end Protoast
