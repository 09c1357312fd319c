import Verif.Proof.Strconv
import Verif.Proof.Values
import Verif.Proof.Options2
import Verif.Proof.Types2
/-
  Option values against the specification of literals.
-/
namespace Protoast

section congr
variable {r0 r : Reg} (h : CacheExt r0 r)
include h

theorem CacheExt.kind_eq (p : Ptr) : r.kind p = r0.kind p := by simp only [Reg.kind, Reg.elem, h.heap]
theorem CacheExt.children_eq (p : Ptr) : r.children p = r0.children p := by simp only [Reg.children, h.heap]
theorem CacheExt.kids_eq (p : Ptr) : r.kids p = r0.kids p := by simp only [Reg.kids, h.children_eq]
theorem CacheExt.defined_eq : r.defined = r0.defined := by funext s; simp only [Reg.defined, h.registry]
theorem CacheExt.scope_eq (v : Vis) : r.scope v = r0.scope v := by simp only [Reg.scope, h.scopes]

theorem CacheExt.fieldAt {f t rep} : FieldAt r f t rep ↔ FieldAt r0 f t rep := by
  unfold FieldAt; rw [h.kind_eq]
theorem CacheExt.firstMember {p sel name q} : FirstMember r p sel name q ↔ FirstMember r0 p sel name q := by
  unfold FirstMember; rw [h.children_eq]
theorem CacheExt.refers {s n q} : Refers r s n q ↔ Refers r0 s n q := by
  unfold Refers; rw [h.registry, h.defined_eq]
end congr

/-- A lookup loop finds the first member. -/
theorem firstKid_exact {o r} (hi : Inv o r) {p : Ptr} (hp : Rooted r p) {k : WKind} {sel : Kind → Option WKind}
    (hs : SelOK sel) (hk : ∀ kd k', sel kd = some k' → k' = k) {pred : Kind → Bool} {name : Str}
    (hpred : ∀ kd, pred kd = ((sel kd).isSome && kd.declName == some name)) :
    (∃ q a r', FirstMember r p sel name q ∧ firstKid p k pred r = (.ok (some (.wrapped a k q)), r')) ∨
    ((∀ q, ¬ FirstMember r p sel name q) ∧ firstKid p k pred r = (.ok none, r)) := by
  have key := find_zipIdx (p := p) (P := pred) ((r.children p).getD []) 0
  unfold firstKid
  simp only [M.bind_apply, M.get_apply]
  have hfe : (r.kids p).find? (fun (_, e) => pred e.kind) = (kidsFrom p 0 ((r.children p).getD [])).find?
      (fun x => pred x.2.kind) := rfl
  rw [hfe]
  cases hx : (kidsFrom p 0 ((r.children p).getD [])).find? (fun x => pred x.2.kind) with
  | none =>
    rw [hx] at key
    right
    refine ⟨?_, rfl⟩
    rintro q ⟨es, i, e, h1, h2, h3, h4, h5, _⟩
    rw [h1] at key
    have := key e (by rw [Option.getD_some]; exact List.mem_of_getElem? h3)
    rw [hpred, h4, h5] at this
    simp at this
  | some x =>
    rw [hx] at key
    left
    obtain ⟨i, h1, h2, h3, h4⟩ := key
    rw [Nat.zero_add] at h2
    have h3' := h3
    rw [hpred] at h3
    simp only [Bool.and_eq_true, beq_iff_eq] at h3
    obtain ⟨k', hk'⟩ := Option.isSome_iff_exists.mp h3.1
    cases hk _ _ hk'
    have hm : (x.1, x.2) ∈ r.kids p := by
      have := List.mem_of_find?_eq_some hx
      exact this
    obtain ⟨he, hu⟩ := present_kids hp _ hm
    obtain ⟨a, o', r', hw, _⟩ := stepOK_wrapAs k x.1 o r hi (target_of_elem he (hs _ _ hk')) hu
    refine ⟨x.1, a, r', ?_, ?_⟩
    · cases hc : r.children p with
      | none => rw [hc] at h1; simp at h1
      | some es =>
        rw [hc] at h1 h4
        refine ⟨es, i, x.2, hc, h2, h1, h3.1, h3.2, ?_⟩
        intro j e' hj he' hse hde
        have := h4 j e' hj he'
        rw [hpred, hse, hde] at this
        simp at this
    · simp only [M.bind_apply, hw, M.pure_apply]

theorem firstMember_unique {r : Reg} {p sel name q q'} (h : FirstMember r p sel name q)
    (g : FirstMember r p sel name q') : q = q' := by
  obtain ⟨es, i, e, h1, h2, h3, h4, h5, h6⟩ := h
  obtain ⟨es', i', e', g1, g2, g3, g4, g5, g6⟩ := g
  rw [h1] at g1
  cases g1
  rcases Nat.lt_trichotomy i i' with hl | hl | hl
  · exact absurd h5 (g6 i e hl h3 h4)
  · subst hl; rw [h2, g2]
  · exact absurd g5 (h6 i' e' hl g3 g4)

theorem messageField_pred (name : Str) (kd : Kind) : (match kd with
    | .normalField n _ _ _ _ => n == name
    | .oneof n => n == name
    | .mapField n _ _ _ => n == name
    | _ => false) = ((fieldSel kd).isSome && kd.declName == some name) := by
  cases kd <;> simp [fieldSel, Kind.declName]

theorem enumValue_pred (name : Str) (kd : Kind) : (match kd with
    | .enumField n _ => n == name
    | _ => false) = ((valueSel kd).isSome && kd.declName == some name) := by
  cases kd <;> simp [valueSel, Kind.declName]

theorem fieldSel_ok : SelOK fieldSel := by intro kd k h; cases kd <;> simp [fieldSel] at h <;> subst h <;> rfl
theorem valueSel_ok : SelOK valueSel := by intro kd k h; cases kd <;> simp [valueSel] at h <;> subst h <;> rfl

theorem messageField_exact {o r} (hi : Inv o r) {m : Ptr} (hm : Rooted r m) (name : Str) :
    (∃ q a r', FirstMember r m fieldSel name q ∧ Message.field m name r = (.ok (some (.wrapped a .messageField q)), r')) ∨
    ((∀ q, ¬ FirstMember r m fieldSel name q) ∧ Message.field m name r = (.ok none, r)) :=
  firstKid_exact hi hm fieldSel_ok (by intro kd k h; cases kd <;> simp [fieldSel] at h <;> exact h.symm)
    (messageField_pred name)

theorem enumValue_exact {o r} (hi : Inv o r) {m : Ptr} (hm : Rooted r m) (name : Str) :
    (∃ q a r', FirstMember r m valueSel name q ∧ Enum.value m name r = (.ok (some (.wrapped a .enumValue q)), r')) ∨
    ((∀ q, ¬ FirstMember r m valueSel name q) ∧ Enum.value m name r = (.ok none, r)) :=
  firstKid_exact hi hm valueSel_ok (by intro kd k h; cases kd <;> simp [valueSel] at h <;> exact h.symm)
    (enumValue_pred name)

/-! ### Type names -/

theorem scalarClass_int {t : Str} : scalarClass t = .int ↔ t ∈ intTypes := by
  unfold scalarClass intTypes
  constructor
  · intro h
    repeat' split at h
    all_goals try cases h
    next h => simpa using h
  · intro h
    simp only [List.mem_cons, List.not_mem_nil, or_false] at h
    rcases h with rfl | rfl | rfl | rfl | rfl | rfl <;> decide

theorem scalarClass_uint {t : Str} : scalarClass t = .uint ↔ t ∈ Dialect.accepted.uintTypes := by
  unfold scalarClass Dialect.accepted
  constructor
  · intro h
    repeat' split at h
    all_goals try cases h
    next h => simpa using h
  · intro h
    simp only [List.mem_cons, List.not_mem_nil, or_false] at h
    rcases h with rfl | rfl | rfl | rfl <;> decide

theorem scalarClass_float {t : Str} : scalarClass t = .float ↔ t ∈ floatTypes := by
  unfold scalarClass floatTypes
  constructor
  · intro h
    repeat' split at h
    all_goals try cases h
    next h => simpa using h
  · intro h
    simp only [List.mem_cons, List.not_mem_nil, or_false] at h
    rcases h with rfl | rfl <;> decide

theorem scalarClass_bool {t : Str} : scalarClass t = .bool ↔ t = b!"bool" := by
  unfold scalarClass
  constructor
  · intro h
    repeat' split at h
    all_goals try cases h
    assumption
  · rintro rfl; decide

theorem scalarClass_string {t : Str} : scalarClass t = .string ↔ t = b!"string" := by
  unfold scalarClass
  constructor
  · intro h
    repeat' split at h
    all_goals try cases h
    assumption
  · rintro rfl; decide

theorem scalarClass_bytes {t : Str} : scalarClass t = .bytes ↔ t = b!"bytes" := by
  unfold scalarClass
  constructor
  · intro h
    repeat' split at h
    all_goals try cases h
    assumption
  · rintro rfl; decide

/-- Names that are neither keywords nor misspelled keywords are looked up. -/
theorem scalarClass_named {t : Str} (h : ¬ IsKeyword t) (h1 : t ≠ b!"uin32") (h2 : t ≠ b!"uin64") :
    scalarClass t = .named := by
  have key : ∀ b : Builtin, t ≠ b.toStr := fun b e => h ⟨b, e⟩
  unfold scalarClass
  rw [if_neg (show t ≠ b!"bool" from key .bool), if_neg, if_neg, if_neg,
    if_neg (show t ≠ b!"string" from key .string), if_neg (show t ≠ b!"bytes" from key .bytes)]
  · rintro (e | e)
    · exact key .float e
    · exact key .double e
  · rintro (e | e | e | e)
    · exact h1 e
    · exact key .fixed32 e
    · exact h2 e
    · exact key .fixed64 e
  · rintro (e | e | e | e | e | e)
    · exact key .int32 e
    · exact key .sint32 e
    · exact key .sfixed32 e
    · exact key .int64 e
    · exact key .sint64 e
    · exact key .sfixed64 e

theorem named_not_misspelled {t : Str} (h : scalarClass t = .named) : t ≠ b!"uin32" ∧ t ≠ b!"uin64" := by
  constructor <;> (rintro rfl; revert h; decide)

theorem parseBool_iff {s b} : parseBool s = some b ↔ Dialect.accepted.bool s b := by
  unfold parseBool Dialect.accepted
  simp only [List.mem_cons, List.not_mem_nil, or_false]
  constructor
  · intro h
    split at h
    · next hs => cases h; exact .inl ⟨hs, rfl⟩
    · split at h
      · next hs => cases h; exact .inr ⟨hs, rfl⟩
      · cases h
  · rintro (⟨h, rfl⟩ | ⟨h, rfl⟩)
    · rw [if_pos h]
    · rw [if_neg (by rcases h with rfl | rfl | rfl | rfl | rfl | rfl <;> decide), if_pos h]

/-! ### Reading literals -/

/-- What is known about the names of a registry whose files are all loaded. -/
structure Named (r : Reg) : Prop where
  sound : Sound r
  scope : ∀ p s, Declared r s p → (∀ n v, r.kind p ≠ some (.enumField n v)) → r.scope (.at p) = s

theorem Named.cacheExt {r r' : Reg} (h : Named r) (hx : CacheExt r r') : Named r' := by
  refine ⟨h.sound.cacheExt hx, ?_⟩
  intro p s hd hk
  rw [hx.scope_eq]
  apply h.scope
  · unfold Declared at hd ⊢; rw [hx.heap] at hd; exact hd
  · intro n v; rw [← hx.kind_eq]; exact hk n v

/-- The members of a message that has a name have names. -/
theorem declared_member {r : Reg} {m : Ptr} {s name : Str} (hd : Declared r s m) {n e}
    (hk : r.kind m = some (.message n e)) {q} (hf : FirstMember r m fieldSel name q) : ∃ s', Declared r s' q := by
  obtain ⟨f, h1, h2⟩ := hd
  obtain ⟨es, i, x, g1, g2, g3, g4, g5, _⟩ := hf
  rcases m with ⟨fi, path⟩
  simp only at h1 h2 g2
  cases path with
  | nil => cases h2
  | cons j rest =>
    simp only [Reg.kind, Reg.elem, h1, Option.bind_some, Option.map_eq_some_iff] at hk
    obtain ⟨y, hy, hyk⟩ := hk
    unfold ProtoFile.fqn at h2
    simp only at h2
    cases hs : f.scopeAt rest with
    | none => rw [hs] at h2; simp at h2
    | some sc =>
      rw [hs, hy] at h2
      simp only [Option.bind_some, hyk] at h2
      cases e with
      | true => simp [Kind.declName] at h2
      | false =>
        have hsc : f.scopeAt (j :: rest) = some (sc ++ dot :: n) := by
          unfold ProtoFile.scopeAt
          rw [hs, hy]
          simp only [hyk, Kind.memberScope]
        have hx : f.elemAt (i :: j :: rest) = some x := by
          have hc : f.childrenAt (j :: rest) = some es := by
            simp only [Reg.children, h1, Option.bind_some] at g1
            exact g1
          simp only [ProtoFile.elemAt, hc, Option.bind_some, g3]
        refine ⟨sc ++ dot :: n ++ dot :: name, f, by rw [g2]; exact h1, ?_⟩
        rw [g2]
        simp only
        unfold ProtoFile.fqn
        simp only
        rw [hsc, hx]
        simp only [Option.bind_some, g5]

/-- The type lookup for a field that is read as an enum or message. -/
theorem fieldType_lookup {r0 : Reg} (hN : Named r0) {o r} (hi : Inv o r) (hx : CacheExt r0 r) {f : Ptr} {typ s : Str}
    {rep : Bool} (hf : FieldAt r0 f typ rep) (hd : Declared r0 s f) {t r1} (h : getTypeByName f typ r = (.ok t, r1)) :
    (∃ b : Builtin, typ = b.toStr) ∨ rep = true ∨ t = none ∨
      ∃ q a k, rep = false ∧ ¬ IsKeyword typ ∧ Refers r0 s typ q ∧ t = some (.wrapped a k q) := by
  obtain ⟨n, x, y, hk⟩ := hf
  cases rep with
  | true => exact .inr (.inl rfl)
  | false =>
    rw [getTypeByName_plain (by simp [Reg.isRepeatedField, hx.kind_eq, hk])] at h
    have hsc : r.scope (.at f) = s := by
      rw [hx.scope_eq]
      exact hN.scope f s hd (by rw [hk]; intro n v e; cases e)
    have := lookupType_denotes hi h
    rw [hsc] at this
    rcases this with ⟨b, h1, _⟩ | ⟨h1, q, a, k, h2, h3⟩ | ⟨_, _, h3⟩
    · exact .inl ⟨b, h1⟩
    · exact .inr (.inr (.inr ⟨q, a, k, rfl, h1, hx.refers.mp h2, h3⟩))
    · exact .inr (.inr (.inl h3))

theorem tri_inv {α} {o r} {m : M α} {Q} (h : Tri o r m Q) {res r1} (e : m r = (res, r1)) : ∃ o', Inv o' r1 := by
  obtain ⟨o', _, h2, _⟩ := h
  rw [e] at h2
  exact ⟨o', h2⟩

theorem ro_ext {α} {m : M α} (h : RO m) {r res r1} (e : m r = (res, r1)) : CacheExt r r1 := by
  have := h.ext r
  rw [e] at this
  exact this

theorem wrapped_kind {r : Reg} {q : Ptr} {k : WKind} (h : r.wrapTarget (.at q) = some (k, q)) :
    (k = .enum → ∃ n, r.kind q = some (.enum n)) ∧ (k = .message → ∃ n e, r.kind q = some (.message n e)) := by
  rcases q with ⟨i, path⟩
  cases path with
  | nil =>
    simp only [Reg.wrapTarget] at h
    split at h
    · cases h; exact ⟨fun h => (by cases h), fun h => (by cases h)⟩
    · cases h
  | cons j rest =>
    simp only [Reg.wrapTarget, Option.map_eq_some_iff, Option.bind_eq_some_iff] at h
    obtain ⟨k', ⟨kd, h1, h2⟩, h3⟩ := h
    cases h3
    constructor
    · rintro rfl
      cases kd <;> simp [wrapKind] at h2
      exact ⟨_, h1⟩
    · rintro rfl
      cases kd <;> simp [wrapKind] at h2
      exact ⟨_, _, h1⟩

mutual
theorem build_sound (F : FloatOps) {r0 : Reg} (hN : Named r0) : (lit : Literal) → ∀ op f ig o r v r' s,
    Inv o r → CacheExt r0 r → Declared r0 s f → buildFromLiteral F op f ig lit r = (.ok v, r') →
    (ig = true → ValueOf .accepted F r0 op f lit v) ∧ (ig = false → FieldValue .accepted F r0 op f lit v)
  | .mk pos source array orderedMap => by
    intro op f ig o r v r' s hi hx hd h
    unfold buildFromLiteral at h
    simp only [M.bind_apply, M.get_apply] at h
    rw [hx.kind_eq] at h
    rcases hk : r0.kind f with _ | kd
    · rw [hk] at h; cases h
    rw [hk] at h
    cases kd <;> simp only [M.panic_apply, Prod.mk.injEq, reduceCtorEq, false_and] at h
    case normalField n typ sq rep opt =>
    have hfa : FieldAt r0 f typ rep := ⟨_, _, _, hk⟩
    split at h
    · next hri =>
      simp only [Bool.and_eq_true, Bool.not_eq_true'] at hri
      obtain ⟨rfl, rfl⟩ := hri
      simp only [M.bind_apply] at h
      rcases hb : buildArray F f array r with ⟨res, r1⟩
      rw [hb] at h
      cases res with
      | ok vs =>
        simp only [M.pure_apply, Prod.mk.injEq, Res.ok.injEq] at h
        rw [← h.1]
        refine ⟨fun e => (by cases e), fun _ => ?_⟩
        exact .many hfa trivial (buildArray_sound F hN array _ _ _ _ _ _ hi hx hd hb)
      | panic e => cases h
      | timeout => cases h
    · next hri =>
      have one : ValueOf .accepted F r0 op f (.mk pos source array orderedMap) v := by
        cases hs : scalarClass typ <;> rw [hs] at h <;> simp only at h
        case bool =>
          cases hb : parseBool source <;> rw [hb] at h <;> cases h
          cases scalarClass_bool.mp hs
          exact .bool hfa (parseBool_iff.mp hb)
        case int =>
          cases hb : atoi source <;> rw [hb] at h <;> cases h
          exact .int hfa (scalarClass_int.mp hs) (atoi_iff.mp hb)
        case uint =>
          cases hb : parseUint source <;> rw [hb] at h <;> cases h
          exact .uint hfa (scalarClass_uint.mp hs) (parseUint_iff.mp hb)
        case float =>
          cases hb : F.parse source <;> rw [hb] at h <;> cases h
          exact .float hfa (scalarClass_float.mp hs) hb
        case string => cases h; cases scalarClass_string.mp hs; exact .string hfa
        case bytes => cases h; cases scalarClass_bytes.mp hs; exact .bytes hfa
        case named =>
          simp only [M.bind_apply] at h
          rcases hb : getTypeByName f typ r with ⟨res, r1⟩
          rw [hb] at h
          cases res with
          | panic e => cases h
          | timeout => cases h
          | ok t =>
            have hx1 : CacheExt r0 r1 := hx.trans (ro_ext (RO.getTypeByName f typ) hb)
            obtain ⟨o1, _, hi1, hq1⟩ := getTypeByName_tri hi f typ
            rw [hb] at hi1 hq1
            have hq2 := hq1 t rfl
            have look := fieldType_lookup hN hi hx hfa hd hb
            simp only at h
            rcases t with _ | t
            · cases h
            cases t with
            | wrapped a k mp =>
             cases k <;> simp only [M.panic_apply, Prod.mk.injEq, reduceCtorEq, false_and] at h
             case enum =>
              have hg : GoodW o1 r1 a .enum mp := (hq2.1 _ rfl).2
              obtain ⟨nm, hkd⟩ := (wrapped_kind hg.target).1 rfl
              rcases look with ⟨b, rfl⟩ | hrep | hno | ⟨q, a', k, hrep, hkw, href, ht⟩
              · exfalso
                cases rep with
                | false =>
                  rw [getTypeByName_plain (by simp [Reg.isRepeatedField, hx.kind_eq, hk]),
                    lookupType_builtin ((builtin_iff _ _).mpr rfl)] at hb
                  cases hb
                | true =>
                  rw [getTypeByName_repeated (by simp [Reg.isRepeatedField, hx.kind_eq, hk]),
                    lookupType_builtin ((builtin_iff _ _).mpr rfl)] at hb
                  cases hb
              · exfalso
                subst hrep
                rw [getTypeByName_repeated (by simp [Reg.isRepeatedField, hx.kind_eq, hk])] at hb
                rcases hl : lookupType f typ r with ⟨res, r2⟩
                rw [hl] at hb
                cases res <;> cases hb
              · cases hno
              · cases ht
                simp only [M.bind_apply] at h
                rcases enumValue_exact hi1 hg.rooted source with ⟨vp, a2, r2, hfm, hv⟩ | ⟨_, hv⟩
                · rw [hv] at h
                  cases h
                  exact .enum hfa ⟨hkw, (named_not_misspelled hs).1, (named_not_misspelled hs).2, hrep⟩ hd href
                    (by rw [← hx1.kind_eq]; exact hkd) (hx1.firstMember.mp hfm)
                · rw [hv] at h; cases h
             case message =>
              have hg : GoodW o1 r1 a .message mp := (hq2.1 _ rfl).2
              obtain ⟨nm, ex, hkd⟩ := (wrapped_kind hg.target).2 rfl
              rcases look with ⟨b, rfl⟩ | hrep | hno | ⟨q, a', k, hrep, hkw, href, ht⟩
              · exfalso
                cases rep with
                | false =>
                  rw [getTypeByName_plain (by simp [Reg.isRepeatedField, hx.kind_eq, hk]),
                    lookupType_builtin ((builtin_iff _ _).mpr rfl)] at hb
                  cases hb
                | true =>
                  rw [getTypeByName_repeated (by simp [Reg.isRepeatedField, hx.kind_eq, hk]),
                    lookupType_builtin ((builtin_iff _ _).mpr rfl)] at hb
                  cases hb
              · exfalso
                subst hrep
                rw [getTypeByName_repeated (by simp [Reg.isRepeatedField, hx.kind_eq, hk])] at hb
                rcases hl : lookupType f typ r with ⟨res, r2⟩
                rw [hl] at hb
                cases res <;> cases hb
              · cases hno
              · cases ht
                simp only [M.bind_apply] at h
                rcases hv : buildItems F mp orderedMap r1 with ⟨res, r2⟩
                rw [hv] at h
                cases res with
                | panic e => cases h
                | timeout => cases h
                | ok items =>
                  simp only [M.pure_apply, Prod.mk.injEq, Res.ok.injEq] at h
                  rw [← h.1]
                  have hkd0 : r0.kind mp = some (.message nm ex) := by rw [← hx1.kind_eq]; exact hkd
                  obtain ⟨c, _, hreg⟩ := refers_resolve href
                  exact .message hfa ⟨hkw, (named_not_misspelled hs).1, (named_not_misspelled hs).2, hrep⟩ hd href hkd0
                    (buildItems_sound F hN orderedMap _ _ _ _ _ _ _ _ hi1 hx1 hg.rooted (hN.sound.names _ _ hreg) hkd0 hv)
            | _ => cases h
      constructor
      · intro _; exact one
      · rintro rfl
        cases rep with
        | true => exact absurd rfl hri
        | false => exact .one hfa one
theorem buildArray_sound (F : FloatOps) {r0 : Reg} (hN : Named r0) : (ls : List Literal) → ∀ f o r vs r' s,
    Inv o r → CacheExt r0 r → Declared r0 s f → buildArray F f ls r = (.ok vs, r') → ElemsOf .accepted F r0 f ls vs
  | [] => by
    intro f o r vs r' s _ _ _ h
    unfold buildArray at h
    cases h
    exact .nil
  | l :: ls => by
    intro f o r vs r' s hi hx hd h
    unfold buildArray at h
    simp only [M.bind_apply] at h
    rcases hb : buildFromLiteral F none f true l r with ⟨res, r1⟩
    rw [hb] at h
    cases res with
    | panic e => cases h
    | timeout => cases h
    | ok v =>
      simp only at h
      rcases hb2 : buildArray F f ls r1 with ⟨res, r2⟩
      rw [hb2] at h
      cases res with
      | panic e => cases h
      | timeout => cases h
      | ok vs' =>
        cases h
        obtain ⟨o1, hi1⟩ := tri_inv (buildFromLiteral_tri F none f true l hi trivial) hb
        have hx1 := hx.trans (ro_ext (RO.buildFromLiteral F none f true l) hb)
        exact .cons ((build_sound F hN l _ _ _ _ _ _ _ _ hi hx hd hb).1 rfl)
          (buildArray_sound F hN ls _ _ _ _ _ _ hi1 hx1 hd hb2)
theorem buildItems_sound (F : FloatOps) {r0 : Reg} (hN : Named r0) : (ls : List (Str × Literal)) → ∀ m o r vs r' s n e,
    Inv o r → CacheExt r0 r → Rooted r m → Declared r0 s m → r0.kind m = some (.message n e) →
    buildItems F m ls r = (.ok vs, r') → ItemsOf .accepted F r0 m ls vs
  | [] => by
    intro m o r vs r' s n e _ _ _ _ _ h
    unfold buildItems at h
    cases h
    exact .nil
  | (name, lit) :: ls => by
    intro m o r vs r' s n e hi hx hm hd hk h
    unfold buildItems at h
    simp only [M.bind_apply] at h
    rcases hb : buildItem F m (name, lit) r with ⟨res, r1⟩
    rw [hb] at h
    cases res with
    | panic e => cases h
    | timeout => cases h
    | ok v =>
      simp only at h
      rcases hb2 : buildItems F m ls r1 with ⟨res, r2⟩
      rw [hb2] at h
      cases res with
      | panic e => cases h
      | timeout => cases h
      | ok vs' =>
        cases h
        obtain ⟨o1, hext, hi1, _⟩ := buildItem_tri F m (name, lit) hi hm
        rw [hb] at hext hi1
        have hx1 : CacheExt r0 r1 := hx.trans (ro_ext (RO.buildItem F m (name, lit)) hb)
        have rest := buildItems_sound F hN ls _ _ _ _ _ _ _ _ hi1 hx1 (hext.rooted hm) hd hk hb2
        unfold buildItem at hb
        simp only [M.bind_apply] at hb
        rcases messageField_exact hi hm name with ⟨q, a, r3, hfm, hv⟩ | ⟨_, hv⟩
        · rw [hv] at hb
          obtain ⟨o3, hi3⟩ := tri_inv (firstKid_tri hi hm) hv
          have hx3 : CacheExt r0 r3 := hx.trans (ro_ext (RO.firstKid _ _ _) hv)
          simp only [M.bind_apply, M.get_apply] at hb
          rcases hkf : r3.kind q with _ | kd
          · rw [hkf] at hb; cases hb
          rw [hkf] at hb
          cases kd <;> simp only [M.panic_apply, Prod.mk.injEq, reduceCtorEq, false_and] at hb
          simp only [M.bind_apply] at hb
          rcases hb3 : buildFromLiteral F none q false lit r3 with ⟨res, r4⟩
          rw [hb3] at hb
          cases res with
          | panic e => cases hb
          | timeout => cases hb
          | ok v' =>
            cases hb
            have hfm0 := hx.firstMember.mp hfm
            obtain ⟨s', hd'⟩ := declared_member hd hk hfm0
            exact .cons hfm0 ((build_sound F hN lit _ _ _ _ _ _ _ _ hi3 hx3 hd' hb3).2 rfl) rest
        · rw [hv] at hb; cases hb
end


theorem fieldAt_unique {r : Reg} {f t rep t' rep'} (h : FieldAt r f t rep) (g : FieldAt r f t' rep') :
    t = t' ∧ rep = rep' := by
  obtain ⟨_, _, _, h⟩ := h
  obtain ⟨_, _, _, g⟩ := g
  rw [h] at g
  cases g
  exact ⟨rfl, rfl⟩

theorem fieldValue_kind {D F r op f l v} (h : FieldValue D F r op f l v) :
    ∃ n t s rep y, r.kind f = some (.normalField n t s rep y) := by
  cases h with
  | one hf _ => obtain ⟨n, s, y, hk⟩ := hf; exact ⟨_, _, _, _, _, hk⟩
  | many hf _ _ => obtain ⟨n, s, y, hk⟩ := hf; exact ⟨_, _, _, _, _, hk⟩
  | single hf _ _ => obtain ⟨n, s, y, hk⟩ := hf; exact ⟨_, _, _, _, _, hk⟩

/-- Without the repeated label the flag makes no difference. -/
theorem build_flag {F : FloatOps} {op f lit r typ} (h : FieldAt r f typ false) :
    buildFromLiteral F op f false lit r = buildFromLiteral F op f true lit r := by
  obtain ⟨n, s, o, hk⟩ := h
  rcases lit with ⟨pos, source, array, om⟩
  unfold buildFromLiteral
  simp only [M.bind_apply, M.get_apply, hk, Bool.not_false, Bool.not_true, Bool.and_false, Bool.false_and]

/-- The type lookup for a field that refers to an enum or message. -/
theorem fieldType_ok {r0 : Reg} (hN : Named r0) {o r} (hi : Inv o r) (hx : CacheExt r0 r) {f q : Ptr} {typ s : Str}
    (hf : FieldAt r0 f typ false) (hd : Declared r0 s f) (hkw : ¬ IsKeyword typ) (href : Refers r0 s typ q) :
    (∀ n, r0.kind q = some (.enum n) → ∃ a r1, getTypeByName f typ r = (.ok (some (.wrapped a .enum q)), r1)) ∧
    (∀ n e, r0.kind q = some (.message n e) → ∃ a r1, getTypeByName f typ r = (.ok (some (.wrapped a .message q)), r1)) := by
  obtain ⟨n, x, y, hk⟩ := hf
  rw [getTypeByName_plain (by simp [Reg.isRepeatedField, hx.kind_eq, hk])]
  have hsc : r.scope (.at f) = s := by
    rw [hx.scope_eq]
    exact hN.scope f s hd (by rw [hk]; intro n v e; cases e)
  have href' : Refers r (r.scope (.at f)) typ q := by rw [hsc]; exact hx.refers.mpr href
  obtain ⟨kd, k, h1, h2, h3, _⟩ := lookupType_refers hi ((not_keyword_iff _).mp hkw) href'
  rw [hx.kind_eq] at h1
  constructor
  · intro n hn
    rw [hn] at h1
    cases h1
    cases h2
    exact h3 rfl
  · intro n e hn
    rw [hn] at h1
    cases h1
    cases h2
    exact h3 rfl

/-- Everything the first dialect allows has the same meaning in the second one. -/
structure Dialect.Le (D D' : Dialect) : Prop where
  bool : ∀ s b, D.bool s b → D'.bool s b
  int : ∀ t s v, D.int t s v → D'.int t s v
  uintTypes : ∀ t ∈ D.uintTypes, t ∈ D'.uintTypes
  uint : ∀ t s n, D.uint t s n → D'.uint t s n
  named : ∀ t rep, D.named t rep → D'.named t rep
  array : ∀ l, D.array l → D'.array l
  single : ∀ l, D.single l → D'.single l

mutual
theorem ValueOf.mono {D D' F r} (hl : Dialect.Le D D') {op f l v} : ValueOf D F r op f l v → ValueOf D' F r op f l v
  | .bool h1 h2 => .bool h1 (hl.bool _ _ h2)
  | .int h1 h2 h3 => .int h1 h2 (hl.int _ _ _ h3)
  | .uint h1 h2 h3 => .uint h1 (hl.uintTypes _ h2) (hl.uint _ _ _ h3)
  | .float h1 h2 h3 => .float h1 h2 h3
  | .string h1 => .string h1
  | .bytes h1 => .bytes h1
  | .enum h1 h2 h3 h4 h5 h6 => .enum h1 (hl.named _ _ h2) h3 h4 h5 h6
  | .message h1 h2 h3 h4 h5 h6 => .message h1 (hl.named _ _ h2) h3 h4 h5 (h6.mono hl)
theorem FieldValue.mono {D D' F r} (hl : Dialect.Le D D') {op f l v} :
    FieldValue D F r op f l v → FieldValue D' F r op f l v
  | .one h1 h2 => .one h1 (h2.mono hl)
  | .many h1 h2 h3 => .many h1 (hl.array _ h2) (h3.mono hl)
  | .single h1 h2 h3 => .single h1 (hl.single _ h2) (h3.mono hl)
theorem ElemsOf.mono {D D' F r} (hl : Dialect.Le D D') {f l v} : ElemsOf D F r f l v → ElemsOf D' F r f l v
  | .nil => .nil
  | .cons h1 h2 => .cons (h1.mono hl) (h2.mono hl)
theorem ItemsOf.mono {D D' F r} (hl : Dialect.Le D D') {f l v} : ItemsOf D F r f l v → ItemsOf D' F r f l v
  | .nil => .nil
  | .cons h1 h2 h3 => .cons h1 (h2.mono hl) (h3.mono hl)
end

theorem supported_accepted : Dialect.Le .supported .accepted where
  bool := by
    rintro s b (⟨rfl, rfl⟩ | ⟨rfl, rfl⟩)
    · exact .inl ⟨by decide, rfl⟩
    · exact .inr ⟨by decide, rfl⟩
  int := fun t s v h => ⟨signed_mono (fun _ _ => decimal_numeral) h.1, h.2.1⟩
  uintTypes := by
    intro t h
    simp only [Dialect.supported, Dialect.accepted, List.mem_cons, List.not_mem_nil, or_false] at h ⊢
    rcases h with rfl | rfl <;> simp
  uint := fun t s n h => ⟨decimal_numeral h.1, h.2.1⟩
  named := fun _ _ h => h
  array := fun _ _ => trivial
  single := fun _ h => h

theorem supported_protobuf : Dialect.Le .supported .protobuf where
  bool := fun _ _ h => h
  int := fun t s v h => ⟨signed_mono (fun _ _ => .decimal) h.1, h.2⟩
  uintTypes := by
    intro t h
    simp only [Dialect.supported, Dialect.protobuf, List.mem_cons, List.not_mem_nil, or_false] at h ⊢
    rcases h with rfl | rfl <;> simp
  uint := fun t s n h => ⟨.decimal h.1, h.2⟩
  named := fun _ _ h => h.1
  array := fun _ h => h
  single := fun _ h => h.elim

mutual
theorem build_complete (F : FloatOps) {D : Dialect} (hl : D.Le .accepted) {r0 : Reg} (hN : Named r0) : (lit : Literal) → ∀ op f v o r,
    Inv o r → CacheExt r0 r → ValueOf D F r0 op f lit v →
    ∃ v' r', buildFromLiteral F op f true lit r = (.ok v', r') ∧ ValueOf D F r0 op f lit v'
  | .mk pos source array orderedMap => by
    intro op f v o r hi hx h
    unfold buildFromLiteral
    simp only [M.bind_apply, M.get_apply, hx.kind_eq]
    cases h with
    | bool hf hb =>
      obtain ⟨n, s, y, hk⟩ := id hf
      have hb' := parseBool_iff.mpr (hl.bool _ _ hb)
      simp only [Literal.source] at hb'
      simp only [hk, Bool.not_true, Bool.and_false, Bool.false_eq_true, if_false, scalarClass_bool.mpr rfl, hb']
      exact ⟨_, _, rfl, .bool hf hb⟩
    | int hf ht hb =>
      obtain ⟨n, s, y, hk⟩ := id hf
      have hb' := atoi_iff.mpr (hl.int _ _ _ hb)
      simp only [Literal.source] at hb'
      simp only [hk, Bool.not_true, Bool.and_false, Bool.false_eq_true, if_false, scalarClass_int.mpr ht, hb']
      exact ⟨_, _, rfl, .int hf ht hb⟩
    | uint hf ht hb =>
      obtain ⟨n, s, y, hk⟩ := id hf
      have hb' := parseUint_iff.mpr (hl.uint _ _ _ hb)
      simp only [Literal.source] at hb'
      simp only [hk, Bool.not_true, Bool.and_false, Bool.false_eq_true, if_false, scalarClass_uint.mpr (hl.uintTypes _ ht), hb']
      exact ⟨_, _, rfl, .uint hf ht hb⟩
    | float hf ht hb =>
      obtain ⟨n, s, y, hk⟩ := id hf
      have hb' := hb
      simp only [Literal.source] at hb'
      simp only [hk, Bool.not_true, Bool.and_false, Bool.false_eq_true, if_false, scalarClass_float.mpr ht, hb']
      exact ⟨_, _, rfl, .float hf ht hb⟩
    | string hf =>
      obtain ⟨n, s, y, hk⟩ := id hf
      simp only [hk, Bool.not_true, Bool.and_false, Bool.false_eq_true, if_false, scalarClass_string.mpr rfl]
      exact ⟨_, _, rfl, .string hf⟩
    | bytes hf =>
      obtain ⟨n, s, y, hk⟩ := id hf
      simp only [hk, Bool.not_true, Bool.and_false, Bool.false_eq_true, if_false, scalarClass_bytes.mpr rfl]
      exact ⟨_, _, rfl, .bytes hf⟩
    | enum hf hnm hd href hke hfm =>
      obtain ⟨hkw, hm1, hm2, rfl⟩ := hl.named _ _ hnm
      obtain ⟨a, r1, hg⟩ := (fieldType_ok hN hi hx hf hd hkw href).1 _ hke
      have hx1 : CacheExt r0 r1 := hx.trans (ro_ext (RO.getTypeByName _ _) hg)
      obtain ⟨o1, _, hi1, hq1⟩ := getTypeByName_tri hi f _
      rw [hg] at hi1 hq1
      have hgw := ((hq1 _ rfl).1 _ rfl).2
      obtain ⟨n, s, y, hk⟩ := id hf
      simp only [hk, Bool.not_true, Bool.and_false, Bool.false_eq_true, if_false, scalarClass_named hkw hm1 hm2,
        M.bind_apply, hg]
      rcases enumValue_exact hi1 (GoodW.rooted hgw) source with ⟨vp, a2, r2, hfm2, hv⟩ | ⟨hno, _⟩
      · rw [hv]; exact ⟨_, _, rfl, .enum hf hnm hd href hke (hx1.firstMember.mp hfm2)⟩
      · exact absurd (hx1.firstMember.mpr hfm) (hno _)
    | message hf hnm hd href hke his =>
      obtain ⟨hkw, hm1, hm2, rfl⟩ := hl.named _ _ hnm
      obtain ⟨a, r1, hg⟩ := (fieldType_ok hN hi hx hf hd hkw href).2 _ _ hke
      have hx1 : CacheExt r0 r1 := hx.trans (ro_ext (RO.getTypeByName _ _) hg)
      obtain ⟨o1, _, hi1, hq1⟩ := getTypeByName_tri hi f _
      rw [hg] at hi1 hq1
      have hgw := ((hq1 _ rfl).1 _ rfl).2
      obtain ⟨n, s, y, hk⟩ := id hf
      obtain ⟨vs, r2, hv, his'⟩ := buildItems_complete F hl hN orderedMap _ _ _ _ hi1 hx1 (GoodW.rooted hgw) his
      simp only [hk, Bool.not_true, Bool.and_false, Bool.false_eq_true, if_false, scalarClass_named hkw hm1 hm2,
        M.bind_apply, hg, hv]
      exact ⟨_, _, rfl, .message hf hnm hd href hke his'⟩
theorem buildField_complete (F : FloatOps) {D : Dialect} (hl : D.Le .accepted) {r0 : Reg} (hN : Named r0) : (lit : Literal) → ∀ op f v o r,
    Inv o r → CacheExt r0 r → FieldValue D F r0 op f lit v →
    ∃ v' r', buildFromLiteral F op f false lit r = (.ok v', r') ∧ FieldValue D F r0 op f lit v'
  | .mk pos source array orderedMap => by
    intro op f v o r hi hx h
    cases h with
    | one hf hv =>
      rw [build_flag (hx.fieldAt.mpr hf)]
      obtain ⟨v', r1, h1, h2⟩ := build_complete F hl hN (.mk pos source array orderedMap) _ _ _ _ _ hi hx hv
      exact ⟨v', r1, h1, .one hf h2⟩
    | many hf har hes =>
      obtain ⟨n, s, y, hk⟩ := id hf
      obtain ⟨vs, r1, hv, hes'⟩ := buildArray_complete F hl hN array _ _ _ _ hi hx hes
      unfold buildFromLiteral
      simp only [M.bind_apply, M.get_apply, hx.kind_eq, hk, Bool.not_false, Bool.and_true, if_true, hv]
      exact ⟨_, _, rfl, .many hf har hes'⟩
    | single _ hs => exact (hl.single _ hs).elim
theorem buildArray_complete (F : FloatOps) {D : Dialect} (hl : D.Le .accepted) {r0 : Reg} (hN : Named r0) : (ls : List Literal) → ∀ f vs o r,
    Inv o r → CacheExt r0 r → ElemsOf D F r0 f ls vs → ∃ vs' r', buildArray F f ls r = (.ok vs', r') ∧ ElemsOf D F r0 f ls vs'
  | [] => by
    intro f vs o r _ _ _
    unfold buildArray
    exact ⟨_, _, rfl, .nil⟩
  | l :: ls => by
    intro f vs o r hi hx h
    cases h with
    | cons hv hvs =>
      obtain ⟨v', r1, hb, hv'⟩ := build_complete F hl hN l _ _ _ _ _ hi hx hv
      obtain ⟨o1, hi1⟩ := tri_inv (buildFromLiteral_tri F none f true l hi trivial) hb
      have hx1 := hx.trans (ro_ext (RO.buildFromLiteral F none f true l) hb)
      obtain ⟨vs', r2, hb2, hvs'⟩ := buildArray_complete F hl hN ls _ _ _ _ hi1 hx1 hvs
      unfold buildArray
      simp only [M.bind_apply, hb, hb2]
      exact ⟨_, _, rfl, .cons hv' hvs'⟩
theorem buildItems_complete (F : FloatOps) {D : Dialect} (hl : D.Le .accepted) {r0 : Reg} (hN : Named r0) : (ls : List (Str × Literal)) → ∀ m vs o r,
    Inv o r → CacheExt r0 r → Rooted r m → ItemsOf D F r0 m ls vs →
    ∃ vs' r', buildItems F m ls r = (.ok vs', r') ∧ ItemsOf D F r0 m ls vs'
  | [] => by
    intro m vs o r _ _ _ _
    unfold buildItems
    exact ⟨_, _, rfl, .nil⟩
  | (name, lit) :: ls => by
    intro m vs o r hi hx hm h
    cases h with
    | @cons _ _ _ _ ff _ _ hfm hv hvs =>
      have hb : ∃ v' r1, buildItem F m (name, lit) r = (.ok (name, v'), r1) ∧ FieldValue D F r0 none ff lit v' := by
        unfold buildItem
        simp only [M.bind_apply]
        rcases messageField_exact hi hm name with ⟨q, a, r3, hfm', hv'⟩ | ⟨hno, _⟩
        · cases firstMember_unique hfm (hx.firstMember.mp hfm')
          rw [hv']
          obtain ⟨o3, hi3⟩ := tri_inv (firstKid_tri hi hm) hv'
          have hx3 : CacheExt r0 r3 := hx.trans (ro_ext (RO.firstKid _ _ _) hv')
          obtain ⟨v', r4, hb, hv2⟩ := buildField_complete F hl hN lit _ _ _ _ _ hi3 hx3 hv
          obtain ⟨n, t, s, rep, y, hk⟩ := fieldValue_kind hv
          simp only [M.bind_apply, M.get_apply, hx3.kind_eq, hk, hb]
          exact ⟨_, _, rfl, hv2⟩
        · exact absurd (hx.firstMember.mpr hfm) (hno _)
      obtain ⟨v', r1, hb, hv'⟩ := hb
      obtain ⟨o1, hext, hi1, _⟩ := buildItem_tri F m (name, lit) hi hm
      rw [hb] at hext hi1
      have hx1 : CacheExt r0 r1 := hx.trans (ro_ext (RO.buildItem F m (name, lit)) hb)
      obtain ⟨vs', r2, hb2, hvs'⟩ := buildItems_complete F hl hN ls _ _ _ _ hi1 hx1 (hext.rooted hm) hvs
      unfold buildItems
      simp only [M.bind_apply, hb, hb2]
      exact ⟨_, _, rfl, .cons hfm hv' hvs'⟩
end

end Protoast
