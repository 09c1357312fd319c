import Verif.Props.Protoc
import Verif.Props.Exact
import Verif.Spec.Hidden
/-
  C115: exactly when the library and protoc disagree about a type reference of a valid program.
-/
namespace Protoast.Props
open Protoast

/-- What a reference means for the library, in terms of the scopes around the declaration that has it. -/
theorem refers_inside {c p kd D n t x} (hc : CleanReachable WFPlain c) (hu : UniqueNames c.reg)
    (hclash : NoPackageClash c.reg) (hk : c.reg.kind p = some kd) (hkr : Kind.refers kd = true)
    (hname : kd.declName = some n) (hd : Declared c.reg (D ++ dot :: n) p) (hdt : hasDotPrefix t = false) :
    Refers c.reg (c.reg.scope (.at p)) t x ↔ ∃ s', Encloses s' D ∧ Declared c.reg (s' ++ dot :: t) x ∧
      ∀ s'', Encloses s'' D → s'.length < s''.length → ∀ y, ¬ Declared c.reg (s'' ++ dot :: t) y := by
  have hc' := clean_mono (fun _ _ h => h.1) hc
  have hplain : ∀ (i : Nat) (f : ProtoFile), c.reg.heap[i]? = some f → plainAll f.elems = true :=
    fun i f hf => (reachable_heapSat (clean_reachable hc) i f hf).2
  have hdn : dot ∉ n := by
    obtain ⟨f, hf, _⟩ := hd
    unfold Reg.kind Reg.elem at hk
    rw [hf] at hk
    simp only [Option.bind_some, Option.map_eq_some_iff] at hk
    obtain ⟨e, he, hek⟩ := hk
    exact plain_name (hplain _ _ hf) he (by rw [hek]; exact hname)
  have hnagg : ¬ Aggregate c.reg (D ++ dot :: n) := by
    rintro (h | h | ⟨p', m, h1, h2⟩)
    · simp at h
    · exact hclash _ _ hd h
    · have := hu _ _ _ h1 hd
      subst this
      rw [hk] at h2
      cases kd <;> simp_all [Kind.refers]
  have hin : ∀ s, Encloses s (D ++ dot :: n) → s = D ++ dot :: n ∨ Encloses s D := by
    rintro s (h | ⟨z, hz⟩)
    · exact .inl h
    · right
      rcases cut_scoped hdn hz with h | ⟨w, hw⟩
      · exact .inl h
      · exact .inr ⟨w, hw⟩
  have hout : ∀ s, Encloses s D → Encloses s (D ++ dot :: n) := by
    rintro s (rfl | ⟨z, hz⟩)
    · exact .inr ⟨n, rfl⟩
    · exact .inr ⟨z ++ dot :: n, by rw [hz]; simp⟩
  rw [C61_type_from_source hc' hu hd (by
    intro s v h; rw [hk] at h; cases h; cases hkr) hdt]
  constructor
  · rintro ⟨s', h1, h2, h3⟩
    rcases hin s' h1 with rfl | h1'
    · exact absurd (declared_aggregate hplain h2) hnagg
    · exact ⟨s', h1', h2, fun s'' h4 h5 y => h3 s'' (hout _ h4) h5 y⟩
  · rintro ⟨s', h1, h2, h3⟩
    refine ⟨s', hout _ h1, h2, fun s'' h4 h5 y hy => ?_⟩
    rcases hin s'' h4 with rfl | h4'
    · exact hnagg (declared_aggregate hplain hy)
    · exact h3 s'' h4' h5 y hy

/-- If anything of the name is declared around, there is a closest one. -/
theorem closest {r : Reg} {D t : Str} : ∀ k s, D.length - s.length ≤ k → Encloses s D → (∃ y, Declared r (s ++ dot :: t) y) →
    ∃ s' x, s.length ≤ s'.length ∧ Encloses s' D ∧ Declared r (s' ++ dot :: t) x ∧
      ∀ s'', Encloses s'' D → s'.length < s''.length → ∀ y, ¬ Declared r (s'' ++ dot :: t) y := by
  intro k
  induction k with
  | zero =>
    rintro s hk hs ⟨y, hy⟩
    refine ⟨s, y, Nat.le_refl _, hs, hy, fun s'' h1 h2 => ?_⟩
    have := encloses_length h1
    omega
  | succ k ih =>
    rintro s hk hs ⟨y, hy⟩
    by_cases h : ∃ s'', Encloses s'' D ∧ s.length < s''.length ∧ ∃ y, Declared r (s'' ++ dot :: t) y
    · obtain ⟨s'', h1, h2, h3⟩ := h
      obtain ⟨s', x, h4, h5⟩ := ih s'' (by omega) h1 h3
      exact ⟨s', x, by omega, h5⟩
    · exact ⟨s, y, Nat.le_refl _, hs, hy, fun s'' h1 h2 y' h3 => h ⟨s'', h1, h2, y', h3⟩⟩

/-- In sight, the reference denotes for the library what protoc says. -/
theorem insight_refers {c p kd D n t q} (hc : CleanReachable WFPlain c) (hu : UniqueNames c.reg)
    (hclash : NoPackageClash c.reg) (hk : c.reg.kind p = some kd) (hkr : Kind.refers kd = true)
    (hname : kd.declName = some n) (hd : Declared c.reg (D ++ dot :: n) p) (hq : ProtocType c.reg D t q)
    (hsee : InSight c.reg D t) : Refers c.reg (c.reg.scope (.at p)) t q := by
  by_cases hdot : dot ∈ t
  · exact protoc_refers hc hu hclash hk hkr hname hd hq (fun h => absurd hdot h)
  · have hdt : hasDotPrefix t = false := by
      cases t with
      | nil => rfl
      | cons b bs =>
        cases h : hasDotPrefix (b :: bs) with
        | false => rfl
        | true =>
          simp only [hasDotPrefix, beq_iff_eq] at h
          exact absurd (by rw [h]; exact List.mem_cons_self) hdot
    rw [refers_inside hc hu hclash hk hkr hname hd hdt]
    unfold ProtocType at hq
    rw [if_neg (by simp [hdt])] at hq
    obtain ⟨s', h1, h2, h3, h4⟩ := hq
    refine ⟨s', h1, h2, fun s'' h5 h6 y hy => ?_⟩
    obtain ⟨s, x, h7, h8, h9, h10⟩ := closest _ s'' (Nat.le_refl _) h5 ⟨y, hy⟩
    have := h4 s h8 (by omega)
    rw [if_neg hdot] at this
    exact hsee x ⟨hdot, this x h9, s, h8, h9, h10⟩

/-- What hides a reference is what the library finds. -/
theorem hidden_refers {c p kd D n t x} (hc : CleanReachable WFPlain c) (hu : UniqueNames c.reg)
    (hclash : NoPackageClash c.reg) (hk : c.reg.kind p = some kd) (hkr : Kind.refers kd = true)
    (hname : kd.declName = some n) (hd : Declared c.reg (D ++ dot :: n) p) (hx : HiddenBy c.reg D t x) :
    Refers c.reg (c.reg.scope (.at p)) t x := by
  obtain ⟨hdot, _, h⟩ := hx
  refine (refers_inside hc hu hclash hk hkr hname hd ?_).mpr h
  cases t with
  | nil => rfl
  | cons b bs =>
    cases h : hasDotPrefix (b :: bs) with
    | false => rfl
    | true =>
      simp only [hasDotPrefix, beq_iff_eq] at h
      exact absurd (by rw [h]; exact List.mem_cons_self) hdot

/-- A declaration with a name that is neither message nor enum: an enum constant, or not a type for the library. -/
theorem hidden_kind {r : Reg} {x : Ptr} {nm : Str} {kd : Kind} (hn : ¬ DeclaresType r x) (hd : Declared r nm x)
    (hk : r.kind x = some kd) : (DeclaresConstant r x ∧ kd.isType = true ∧ wrapKind kd = some .enumValue) ∨
      (¬ DeclaresConstant r x ∧ kd.isType = false) := by
  have hdecl : kd.declName.isSome = true := by
    obtain ⟨_, _, kd', _, h1, h2⟩ := declared_split hd
    rw [hk] at h1; cases h1; simp [h2]
  cases kd with
  | message m ext =>
    cases ext with
    | false => exact absurd ⟨m, .inl hk⟩ hn
    | true => simp [Kind.declName] at hdecl
  | enum m => exact absurd ⟨m, .inr hk⟩ hn
  | enumField m v => exact .inl ⟨⟨m, v, hk⟩, rfl, rfl⟩
  | _ => exact .inr ⟨(by rintro ⟨_, _, h⟩; rw [hk] at h; cases h), rfl⟩

/-- The handle for the type of a field: of the node, or of the repeated type over it. -/
def TypeIs (rep : Bool) (n : Node) (t : Option Node) : Prop :=
  if rep then ∃ a, t = some (.repeated a (some n)) else t = some n

theorem field_type_refers {c a p n t s rep opt x} (hc : CleanReachable WFPlain c)
    (hk : c.reg.kind p = some (.normalField n t s rep opt)) (hf : c.reg.ftcache a = none) (hkw : ¬ IsKeyword t)
    (href : Refers c.reg (c.reg.scope (.at p)) t x) : ∃ kd k, c.reg.kind x = some kd ∧ wrapKind kd = some k ∧
      (kd.isType = true → ∃ a' ty r', MessageField.type a p c.reg = (.ok ty, r') ∧ TypeIs rep (.wrapped a' k x) ty) ∧
      (kd.isType = false → ∃ r', MessageField.type a p c.reg = (.panic .notAType, r')) := by
  obtain ⟨o, hi, _⟩ := reachable_inv (clean_reachable hc)
  obtain ⟨kd, k, h1, h2, h3, h4⟩ := lookupType_refers hi ((not_keyword_iff _).mp hkw) href
  refine ⟨kd, k, h1, h2, fun ht => ?_, fun ht => ?_⟩
  · obtain ⟨a', r', h5⟩ := h3 ht
    cases rep with
    | false =>
      exact ⟨a', _, _, by rw [field_type_eq hk hf, h5], rfl⟩
    | true =>
      have hg := getTypeByName_repeated (r := c.reg) (p := p) (name := t) (by simp [Reg.isRepeatedField, hk])
      rw [h5] at hg
      refine ⟨a', some (.repeated r'.next (some (.wrapped a' k x))), { r' with next := r'.next + 1, ftcache := upd r'.ftcache a (
        some (.repeated r'.next (some (.wrapped a' k x)))) }, ?_, r'.next, rfl⟩
      unfold MessageField.type fieldTypeBody
      simp [hk, hf, hg]
  · obtain ⟨r', h5⟩ := h4 ht
    cases rep with
    | false => exact ⟨_, by rw [field_type_eq hk hf, h5]⟩
    | true =>
      have hg := getTypeByName_repeated (r := c.reg) (p := p) (name := t) (by simp [Reg.isRepeatedField, hk])
      rw [h5] at hg
      refine ⟨{ r' with ftcache := upd r'.ftcache a none }, ?_⟩
      unfold MessageField.type fieldTypeBody
      simp [hk, hf, hg]

/-- C115 for fields: over files that protoc would accept, let protoc read the type name of a field as the type declared
    at `q`. The first `Type` call on the field returns the node of `q` (as the element of a repeated type iff the field is
    repeated) if nothing hides it. If `x` hides it, then it returns the node of `x`, if that is an enum constant, and
    panics otherwise. -/
theorem C115_field {c a p n t s rep opt D q} (hc : CleanReachable WFPlain c) (hu : UniqueNames c.reg)
    (hclash : NoPackageClash c.reg) (_hm : Node.wrapped a .messageField p ∈ c.pool)
    (hk : c.reg.kind p = some (.normalField n t s rep opt)) (hf : c.reg.ftcache a = none)
    (hkw : ¬ IsKeyword t) (hd : Declared c.reg (D ++ dot :: n) p) (hq : ProtocType c.reg D t q) :
    (InSight c.reg D t → ∃ a' k ty r', MessageField.type a p c.reg = (.ok ty, r') ∧ TypeIs rep (.wrapped a' k q) ty ∧
      (k = .message ∨ k = .enum)) ∧
    (∀ x, HiddenBy c.reg D t x → x ≠ q ∧
      (DeclaresConstant c.reg x → ∃ a' ty r', MessageField.type a p c.reg = (.ok ty, r') ∧
        TypeIs rep (.wrapped a' .enumValue x) ty) ∧
      (¬ DeclaresConstant c.reg x → ∃ r', MessageField.type a p c.reg = (.panic .notAType, r'))) := by
  refine ⟨fun hsee => ?_, fun x hx => ⟨?_, ?_⟩⟩
  · obtain ⟨kd, k, h1, h2, h3, _⟩ := field_type_refers hc hk hf hkw (insight_refers hc hu hclash hk rfl rfl hd hq hsee)
    obtain ⟨m, hm | hm⟩ := protocType_declares hq
    · rw [h1] at hm; cases hm; simp [wrapKind] at h2
      obtain ⟨a', ty, r', h5, h6⟩ := h3 rfl
      exact ⟨a', k, ty, r', h5, h6, .inl h2.symm⟩
    · rw [h1] at hm; cases hm; simp [wrapKind] at h2
      obtain ⟨a', ty, r', h5, h6⟩ := h3 rfl
      exact ⟨a', k, ty, r', h5, h6, .inr h2.symm⟩
  · rintro rfl; exact hx.2.1 (protocType_declares hq)
  · obtain ⟨kd, k, h1, h2, h3, h4⟩ := field_type_refers hc hk hf hkw (hidden_refers hc hu hclash hk rfl rfl hd hx)
    obtain ⟨_, hnt, _, _, hdx, _⟩ := hx
    rcases hidden_kind hnt hdx h1 with ⟨g1, g2, g3⟩ | ⟨g1, g2⟩
    · rw [g3] at h2; cases h2
      exact ⟨fun _ => h3 g2, fun h => absurd g1 h⟩
    · exact ⟨fun h => absurd h g1, fun _ => h4 g2⟩

/-- C115 for the branches of a oneof, at any call. -/
theorem C115_branch {c p n t s D q} (hc : CleanReachable WFPlain c) (hu : UniqueNames c.reg)
    (hclash : NoPackageClash c.reg) (hk : c.reg.kind p = some (.oneofField n t s))
    (hkw : ¬ IsKeyword t) (hd : Declared c.reg (D ++ dot :: n) p) (hq : ProtocType c.reg D t q) :
    (InSight c.reg D t → ∃ a k r', OneOfBranch.type p c.reg = (.ok (some (.wrapped a k q)), r') ∧
      (k = .message ∨ k = .enum)) ∧
    (∀ x, HiddenBy c.reg D t x → x ≠ q ∧
      (DeclaresConstant c.reg x → ∃ a r', OneOfBranch.type p c.reg = (.ok (some (.wrapped a .enumValue x)), r')) ∧
      (¬ DeclaresConstant c.reg x → ∃ r', OneOfBranch.type p c.reg = (.panic .notAType, r'))) := by
  obtain ⟨o, hi, _⟩ := reachable_inv (clean_reachable hc)
  rw [branch_type_eq hk]
  refine ⟨fun hsee => ?_, fun x hx => ⟨?_, ?_⟩⟩
  · obtain ⟨kd, k, h1, h2, h3, _⟩ := lookupType_refers hi ((not_keyword_iff _).mp hkw)
      (insight_refers hc hu hclash hk rfl rfl hd hq hsee)
    obtain ⟨m, hm | hm⟩ := protocType_declares hq
    · rw [h1] at hm; cases hm; simp [wrapKind] at h2
      obtain ⟨a', r', h5⟩ := h3 rfl
      exact ⟨a', k, r', h5, .inl h2.symm⟩
    · rw [h1] at hm; cases hm; simp [wrapKind] at h2
      obtain ⟨a', r', h5⟩ := h3 rfl
      exact ⟨a', k, r', h5, .inr h2.symm⟩
  · rintro rfl; exact hx.2.1 (protocType_declares hq)
  · obtain ⟨kd, k, h1, h2, h3, h4⟩ := lookupType_refers hi ((not_keyword_iff _).mp hkw)
      (hidden_refers hc hu hclash hk rfl rfl hd hx)
    obtain ⟨_, hnt, _, _, hdx, _⟩ := hx
    rcases hidden_kind hnt hdx h1 with ⟨g1, g2, g3⟩ | ⟨g1, g2⟩
    · rw [g3] at h2; cases h2
      exact ⟨fun _ => h3 g2, fun h => absurd g1 h⟩
    · exact ⟨fun h => absurd h g1, fun _ => h4 g2⟩

/-- A reference denotes one declaration. -/
theorem refers_one {r : Reg} {s t : Str} {x y : Ptr} (hx : Refers r s t x) (hy : Refers r s t y) : x = y := by
  obtain ⟨c, h1, h2⟩ := refers_resolve hx
  obtain ⟨d, h3, h4⟩ := refers_resolve hy
  rw [h1] at h3; cases h3
  rw [h2] at h4; cases h4; rfl

/-- C115 for the methods of a service: `Input` (and `Output`) returns the node of the message that protoc reads if
    nothing hides it, and panics if something does. -/
theorem C115_method {c p n req ret sreq sret D} (hc : CleanReachable WFPlain c) (hu : UniqueNames c.reg)
    (hclash : NoPackageClash c.reg) (hk : c.reg.kind p = some (.rpc n req ret sreq sret))
    (hd : Declared c.reg (D ++ dot :: n) p) :
    (∀ q m, ¬ IsKeyword req → ProtocType c.reg D req q → c.reg.kind q = some (.message m false) →
      (InSight c.reg D req → ∃ a r', Method.input p c.reg = (.ok (sreq, .wrapped a .message q), r')) ∧
      (¬ InSight c.reg D req → ∃ e r', Method.input p c.reg = (.panic e, r'))) ∧
    (∀ q m, ¬ IsKeyword ret → ProtocType c.reg D ret q → c.reg.kind q = some (.message m false) →
      (InSight c.reg D ret → ∃ a r', Method.output p c.reg = (.ok (sret, .wrapped a .message q), r')) ∧
      (¬ InSight c.reg D ret → ∃ e r', Method.output p c.reg = (.panic e, r'))) := by
  have hno : ∀ {t}, ¬ InSight c.reg D t → ¬ ∃ q, DenotesMessage c.reg p t q := by
    rintro t h ⟨q, hkw, href, m, ext, hm⟩
    apply h
    intro x hx
    have href' := hidden_refers hc hu hclash hk rfl rfl hd hx
    cases refers_one href href'
    obtain ⟨_, hnt, s', _, hdx, _⟩ := hx
    rcases hidden_kind hnt hdx hm with ⟨_, _, h⟩ | ⟨_, h⟩ <;> simp [wrapKind, Kind.isType] at h
  refine ⟨fun q m hkw hq hm => ⟨fun hsee => ?_, fun h => ?_⟩, fun q m hkw hq hm => ⟨fun hsee => ?_, fun h => ?_⟩⟩
  · exact (C41_input (clean_reachable hc) hk).1 q ⟨hkw, insight_refers hc hu hclash hk rfl rfl hd hq hsee, m, false, hm⟩
  · exact (C41_input (clean_reachable hc) hk).2 (hno h)
  · exact (C41_output (clean_reachable hc) hk).1 q ⟨hkw, insight_refers hc hu hclash hk rfl rfl hd hq hsee, m, false, hm⟩
  · exact (C41_output (clean_reachable hc) hk).2 (hno h)

/-- C115 for maps: let protoc read the value type as the type declared at `q`. `Value` returns the node of `q` iff the
    name is written without leading dot and is the full name of `q`. Otherwise it returns the node of another type, namely
    one that has the name as its full name, or it panics if there is none. -/
theorem C115_map {c p n kt t s D q} (hc : CleanReachable WFPlain c) (hu : UniqueNames c.reg)
    (hk : c.reg.kind p = some (.mapField n kt t s)) (hkw : ¬ IsKeyword t) (hq : ProtocType c.reg D t q) :
    ((∃ a k r', Map.value p c.reg = (.ok (.wrapped a k q), r')) ↔ hasDotPrefix t = false ∧ Declared c.reg (dot :: t) q) ∧
    (¬ (hasDotPrefix t = false ∧ Declared c.reg (dot :: t) q) →
      (∃ x a k r', x ≠ q ∧ DeclaresType c.reg x ∧ hasDotPrefix t = false ∧ Declared c.reg (dot :: t) x ∧
        Map.value p c.reg = (.ok (.wrapped a k x), r')) ∨
      ((hasDotPrefix t = true ∨ ∀ x, Declared c.reg (dot :: t) x → ¬ DeclaresType c.reg x) ∧
        Map.value p c.reg = (.panic .badMapValue, c.reg))) := by
  have hc' := clean_mono (fun _ _ h => h.1) hc
  obtain ⟨_, h2, h3⟩ := C68_map_value hc' hu hk
  have hty := protocType_declares hq
  refine ⟨⟨fun ⟨a, k, r', h⟩ => ?_, fun ⟨g1, g2⟩ => h2 q hkw ⟨g1, g2, hty⟩⟩, fun hn => ?_⟩
  · by_cases hx : ∃ x, TopLevelType c.reg t x
    · obtain ⟨x, hx⟩ := hx
      obtain ⟨a', k', r'', h5⟩ := h2 x hkw hx
      rw [h] at h5
      cases h5
      exact ⟨hx.1, hx.2.1⟩
    · rw [h3 hkw (fun q h => hx ⟨q, h⟩)] at h; cases h
  · by_cases hx : ∃ x, TopLevelType c.reg t x
    · obtain ⟨x, hx⟩ := hx
      obtain ⟨a', k', r'', h5⟩ := h2 x hkw hx
      exact .inl ⟨x, a', k', r'', by rintro rfl; exact hn ⟨hx.1, hx.2.1⟩, hx.2.2, hx.1, hx.2.1, h5⟩
    · refine .inr ⟨?_, h3 hkw (fun q h => hx ⟨q, h⟩)⟩
      cases hdt : hasDotPrefix t with
      | true => exact .inl rfl
      | false => exact .inr fun x h1 h2 => hx ⟨x, hdt, h1, h2⟩

/-! ### The hypotheses are met -/

/-- Valid for protoc. Three fields of a message: the type `X` of the first is hidden by a constant of the enum next to it;
    the second hides its own type; the third is in sight. And a map whose value type is not written in full. -/
def fileH : List Elem :=
  let f := b!"h.proto"
  [Ex.el f 1 (.packageK b!"h"), Ex.el f 2 (.message b!"X" false), Ex.el f 3 (.message b!"T" false),
   Ex.el f 4 (.message b!"U" false),
   Ex.el f 5 (.message b!"M" false)
     [Ex.el f 6 (.enum b!"E") [Ex.el f 7 (.enumField b!"X" 0)], Ex.fld f 8 b!"a" b!"X" 1, Ex.fld f 9 b!"T" b!"T" 2,
      Ex.fld f 10 b!"u" b!"U" 3 true, Ex.el f 11 (.mapField b!"m" b!"string" b!"U" 4)]]

def WH : World := Ex.worldOf [(descriptorPath, Ex.descriptor), (b!"h.proto", fileH)]
def rH0 : Reg := (newRegistry WH 5).2
def opsH : List Op :=
  [.proto WH 5 b!"h.proto", .query 0 (.named .fileMessage b!"M"), .query 1 (.iter .messageFields 0),
   .query 1 (.iter .messageFields 1), .query 1 (.iter .messageFields 2)]
def cH : Client := Client.exec ⟨rH0, []⟩ opsH

theorem WH_sat : WH.Sat WFPlain := by
  apply Ex.worldOf_sat
  intro x hx
  refine ⟨Ex.wfb_spec ?_, ?_⟩ <;>
  · simp only [List.mem_cons, List.not_mem_nil, or_false] at hx
    rcases hx with rfl | rfl <;> decide +kernel

theorem cH_clean : CleanReachable WFPlain cH := by
  refine ⟨WH, 5, rH0, opsH, WH_sat, Ex.ok_of_okOk (by decide +kernel), ?_, Ex.loadsB_spec (by decide +kernel), rfl⟩
  intro op hop
  simp only [opsH, List.mem_cons, List.not_mem_nil, or_false] at hop
  rcases hop with rfl | rfl | rfl | rfl | rfl <;> first | exact WH_sat | trivial

theorem cH_unique : UniqueNames cH.reg := Ex.uniqueB_spec (by decide +kernel)
theorem cH_clash : NoPackageClash cH.reg := noClashB_spec (by decide +kernel)

theorem cH_declared {i : Nat} {path : List Nat} {name : Str}
    (h : (cH.reg.heap[i]?).bind (fun f => f.fqn path) = some name) : Declared cH.reg name ⟨i, path⟩ :=
  Option.bind_eq_some_iff.mp h

/-- Whatever is called `t` in the scopes around `M` can be read off the list of names. -/
theorem cH_around {t : Str} {l : List (Str × Ptr)}
    (hl : ((Ex.fqnsFrom 0 cH.reg.heap).filter fun x => (dot :: t).isSuffixOf x.1) = l) {s' : Str} {x : Ptr}
    (h : Declared cH.reg (s' ++ dot :: t) x) : (s' ++ dot :: t, x) ∈ l := by
  rw [← hl, List.mem_filter]
  refine ⟨declared_fqns h, ?_⟩
  rw [List.isSuffixOf_iff_suffix]
  exact ⟨s', rfl⟩

/-- protoc reads the three names as the three messages; the constant hides `X`, the field hides `T`, nothing hides `U`. -/
theorem cH_protoc : ProtocType cH.reg b!".h.M" b!"X" ⟨1, [1]⟩ ∧ ProtocType cH.reg b!".h.M" b!"T" ⟨1, [2]⟩ ∧
    ProtocType cH.reg b!".h.M" b!"U" ⟨1, [3]⟩ ∧ HiddenBy cH.reg b!".h.M" b!"X" ⟨1, [0, 0, 4]⟩ ∧
    HiddenBy cH.reg b!".h.M" b!"T" ⟨1, [2, 4]⟩ ∧ InSight cH.reg b!".h.M" b!"U" := by
  have hX : ∀ {s' x}, Declared cH.reg (s' ++ dot :: b!"X") x → _ := fun h =>
    cH_around (t := b!"X") (l := [(b!".h.X", ⟨1, [1]⟩), (b!".h.M.X", ⟨1, [0, 0, 4]⟩)]) (by decide +kernel) h
  have hT : ∀ {s' x}, Declared cH.reg (s' ++ dot :: b!"T") x → _ := fun h =>
    cH_around (t := b!"T") (l := [(b!".h.T", ⟨1, [2]⟩), (b!".h.M.T", ⟨1, [2, 4]⟩)]) (by decide +kernel) h
  have hU : ∀ {s' x}, Declared cH.reg (s' ++ dot :: b!"U") x → _ := fun h =>
    cH_around (t := b!"U") (l := [(b!".h.U", ⟨1, [3]⟩)]) (by decide +kernel) h
  have hin : ∀ s'' : Str, Encloses s'' b!".h.M" → ¬ (b!".h.M").length < s''.length := fun s'' h1 h2 => by
    have := encloses_length h1
    omega
  have hno : ∀ {x kd}, cH.reg.kind x = some kd → (∀ n, kd ≠ .message n false) → (∀ n, kd ≠ .enum n) →
      ¬ DeclaresType cH.reg x := by
    rintro x kd h h1 h2 ⟨n, h3 | h3⟩
    · rw [h] at h3; cases h3; exact h1 _ rfl
    · rw [h] at h3; cases h3; exact h2 _ rfl
  have hk1 : cH.reg.kind ⟨1, [0, 0, 4]⟩ = some (.enumField b!"X" 0) := by rfl
  have hk2 : cH.reg.kind ⟨1, [2, 4]⟩ = some (.normalField b!"T" b!"T" 2 false false) := by rfl
  refine ⟨?_, ?_, ?_, ?_, ?_, ?_⟩
  · unfold ProtocType
    rw [if_neg (by decide)]
    refine ⟨b!".h", .inr ⟨b!"M", by decide⟩, cH_declared (by decide +kernel), ⟨b!"X", .inl (by rfl)⟩, ?_⟩
    intro s'' _ hlen
    rw [if_neg (by decide)]
    intro q' hq'
    have := hX hq'
    simp only [List.mem_cons, List.not_mem_nil, or_false, Prod.mk.injEq] at this
    rcases this with ⟨h, _⟩ | ⟨_, rfl⟩
    · have := congrArg List.length h
      simp at this hlen
      omega
    · exact hno hk1 (by simp) (by simp)
  · unfold ProtocType
    rw [if_neg (by decide)]
    refine ⟨b!".h", .inr ⟨b!"M", by decide⟩, cH_declared (by decide +kernel), ⟨b!"T", .inl (by rfl)⟩, ?_⟩
    intro s'' _ hlen
    rw [if_neg (by decide)]
    intro q' hq'
    have := hT hq'
    simp only [List.mem_cons, List.not_mem_nil, or_false, Prod.mk.injEq] at this
    rcases this with ⟨h, _⟩ | ⟨_, rfl⟩
    · have := congrArg List.length h
      simp at this hlen
      omega
    · exact hno hk2 (by simp) (by simp)
  · unfold ProtocType
    rw [if_neg (by decide)]
    refine ⟨b!".h", .inr ⟨b!"M", by decide⟩, cH_declared (by decide +kernel), ⟨b!"U", .inl (by rfl)⟩, ?_⟩
    intro s'' _ hlen
    rw [if_neg (by decide)]
    intro q' hq'
    have := hU hq'
    simp only [List.mem_cons, List.not_mem_nil, or_false, Prod.mk.injEq] at this
    have := congrArg List.length this.1
    simp at this hlen
    omega
  · exact ⟨by decide, hno hk1 (by simp) (by simp), b!".h.M", .inl rfl, cH_declared (by decide +kernel),
      fun s'' h1 h2 => absurd h2 (hin s'' h1)⟩
  · exact ⟨by decide, hno hk2 (by simp) (by simp), b!".h.M", .inl rfl, cH_declared (by decide +kernel),
      fun s'' h1 h2 => absurd h2 (hin s'' h1)⟩
  · rintro x ⟨_, hnt, s', _, hdx, _⟩
    have := hU hdx
    simp only [List.mem_cons, List.not_mem_nil, or_false, Prod.mk.injEq] at this
    rw [this.2] at hnt
    exact hnt ⟨b!"U", .inl (by rfl)⟩

/-- The first field has the constant as its type, the second panics, the third has the message that protoc reads; the
    value type of the map, which protoc reads as the same message, panics. -/
example : ∃ a1 a2 a3, Node.wrapped a1 .messageField ⟨1, [1, 4]⟩ ∈ cH.pool ∧ Node.wrapped a2 .messageField ⟨1, [2, 4]⟩ ∈ cH.pool ∧
    Node.wrapped a3 .messageField ⟨1, [3, 4]⟩ ∈ cH.pool ∧
    (∃ a r', MessageField.type a1 ⟨1, [1, 4]⟩ cH.reg = (.ok (some (.wrapped a .enumValue ⟨1, [0, 0, 4]⟩)), r')) ∧
    (∃ r', MessageField.type a2 ⟨1, [2, 4]⟩ cH.reg = (.panic .notAType, r')) ∧
    (∃ a b k r', MessageField.type a3 ⟨1, [3, 4]⟩ cH.reg = (.ok (some (.repeated b (some (.wrapped a k ⟨1, [3]⟩)))), r')) ∧
    Map.value ⟨1, [4, 4]⟩ cH.reg = (.panic .badMapValue, cH.reg) := by
  obtain ⟨p1, p2, p3, h1, h2, h3⟩ := cH_protoc
  have hA1 : Ex.hasA cH 2 2 .messageField ⟨1, [1, 4]⟩ = true := by decide +kernel
  have hA2 : Ex.hasA cH 3 3 .messageField ⟨1, [2, 4]⟩ = true := by decide +kernel
  have hA3 : Ex.hasA cH 4 4 .messageField ⟨1, [3, 4]⟩ = true := by decide +kernel
  have m1 := Ex.hasA_spec hA1
  have m2 := Ex.hasA_spec hA2
  have m3 := Ex.hasA_spec hA3
  have kX := (not_keyword_iff b!"X").mpr (by decide)
  have kT := (not_keyword_iff b!"T").mpr (by decide)
  have kU := (not_keyword_iff b!"U").mpr (by decide)
  have hf : ∀ {a}, (cH.reg.ftcache a).isNone = true → cH.reg.ftcache a = none := fun h => Option.isNone_iff_eq_none.mp h
  have hk1 : cH.reg.kind ⟨1, [1, 4]⟩ = some (.normalField b!"a" b!"X" 1 false false) := by rfl
  have hk2 : cH.reg.kind ⟨1, [2, 4]⟩ = some (.normalField b!"T" b!"T" 2 false false) := by rfl
  have hk3 : cH.reg.kind ⟨1, [3, 4]⟩ = some (.normalField b!"u" b!"U" 3 true false) := by rfl
  have hk4 : cH.reg.kind ⟨1, [4, 4]⟩ = some (.mapField b!"m" b!"string" b!"U" 4) := by rfl
  have hx : cH.reg.kind ⟨1, [0, 0, 4]⟩ = some (.enumField b!"X" 0) := by rfl
  refine ⟨2, 3, 4, m1, m2, m3, ?_, ?_, ?_, ?_⟩
  · obtain ⟨a, ty, r', e, ht⟩ := ((C115_field cH_clean cH_unique cH_clash m1 hk1 (hf (by decide +kernel)) kX
      (cH_declared (by decide +kernel)) p1).2 _ h1).2.1 ⟨_, _, hx⟩
    exact ⟨a, r', by rw [e]; simp only [TypeIs, Bool.false_eq_true, if_false] at ht; rw [ht]⟩
  · exact ((C115_field cH_clean cH_unique cH_clash m2 hk2 (hf (by decide +kernel)) kT
      (cH_declared (by decide +kernel)) p2).2 _ h2).2.2 (by rintro ⟨n, v, h⟩; rw [hk2] at h; cases h)
  · obtain ⟨a, k, ty, r', e, ht, _⟩ := (C115_field cH_clean cH_unique cH_clash m3 hk3 (hf (by decide +kernel)) kU
      (cH_declared (by decide +kernel)) p3).1 h3
    simp only [TypeIs, if_true] at ht
    obtain ⟨b, rfl⟩ := ht
    exact ⟨a, b, k, r', e⟩
  · have hn : ¬ ∃ x, Declared cH.reg (dot :: b!"U") x := by
      rintro ⟨x, h⟩
      have := declared_fqns h
      have h2 : ∀ y ∈ Ex.fqnsFrom 0 cH.reg.heap, y.1 ≠ dot :: b!"U" := by decide +kernel
      exact h2 _ this rfl
    rcases (C115_map cH_clean cH_unique hk4 kU p3).2 (fun h => hn ⟨_, h.2⟩) with ⟨x, _, _, _, _, _, _, h, _⟩ | ⟨_, h⟩
    · exact absurd ⟨x, h⟩ hn
    · exact h

end Protoast.Props
