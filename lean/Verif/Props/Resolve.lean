import Verif.Proof.Types
import Verif.Proof.Types2
import Verif.Spec.Protoc
import Verif.Examples
/-
  C01-C05: name resolution.
-/
namespace Protoast.Props
open Protoast

/-! ### C01 -/

/-- C01, success: a relative name resolves to `c` exactly when `c` is the candidate of the innermost
    enclosing scope that has one registered. -/
theorem C01_resolves_innermost (defined : Str → Bool) (scope name c : Str)
    (hn : hasDotPrefix name = false) :
    resolveNameRaw defined scope name = (c, true) ↔ Innermost defined (dotted scope) name c :=
  resolve_true_iff hn c

/-- C01, failure: the lookup fails exactly when no enclosing scope has a candidate. -/
theorem C01_fails_iff (defined : Str → Bool) (scope name : Str) (hn : hasDotPrefix name = false) :
    (resolveNameRaw defined scope name).2 = false ↔
      ∀ s', Encloses s' (dotted scope) → defined (s' ++ dot :: name) = false :=
  resolve_false_iff hn

/-- C01 at the API: `OneOfBranch.Type` of a branch handle, in every history, is the node of the
    declaration the declared type name denotes by innermost-first search from the branch; the call panics
    iff that declaration is not a type and returns nil iff there is none. -/
theorem C01_branch_type {P c a p n t s} (hr : Reachable P c)
    (_hm : Node.wrapped a .oneofBranch p ∈ c.pool) (hk : c.reg.kind p = some (.oneofField n t s))
    (hkw : ¬ IsKeyword t) (hd : hasDotPrefix t = false) :
    (∀ x, Innermost c.reg.defined (dotted (c.reg.scope (.at p))) t x →
      ∃ q kd, c.reg.registry x = some q ∧ c.reg.kind q = some kd ∧
        (kd.isType = true → ∃ a' k r', OneOfBranch.type p c.reg = (.ok (some (.wrapped a' k q)), r') ∧
          k.standsFor kd = true) ∧
        (kd.isType = false → ∃ r', OneOfBranch.type p c.reg = (.panic .notAType, r'))) ∧
    ((∀ s', Encloses s' (dotted (c.reg.scope (.at p))) → c.reg.defined (s' ++ dot :: t) = false) →
      OneOfBranch.type p c.reg = (.ok none, c.reg)) := by
  obtain ⟨o, hi, -⟩ := reachable_inv hr
  have hb := (not_keyword_iff _).mp hkw
  rw [branch_type_eq hk]
  constructor
  · intro x hx
    have hdef : c.reg.defined x = true := by obtain ⟨_, _, _, h, _⟩ := hx; exact h
    obtain ⟨q, hq⟩ := Option.isSome_iff_exists.mp hdef
    have href : Refers c.reg (c.reg.scope (.at p)) t q := by
      unfold Refers; simp only [hd]; exact ⟨x, hx, hq⟩
    obtain ⟨kd, k, h1, h2, h3, h4⟩ := lookupType_refers hi hb href
    exact ⟨q, kd, hq, h1, fun h => let ⟨a', r', e⟩ := h3 h; ⟨a', k, r', e, standsFor_of_wrapKind h2⟩, h4⟩
  · intro h
    refine lookupType_unresolved hb ?_
    unfold Unresolved
    simp only [hd]
    intro s' hs
    simpa [Reg.defined] using h s' hs

/-- C01 at the API for ordinary (not repeated) fields, first call of `Type` on the handle. -/
theorem C01_field_type {P c a p n t s op} (hr : Reachable P c)
    (_hm : Node.wrapped a .messageField p ∈ c.pool)
    (hk : c.reg.kind p = some (.normalField n t s false op)) (hf : c.reg.ftcache a = none)
    (hkw : ¬ IsKeyword t) (hd : hasDotPrefix t = false) :
    (∀ x, Innermost c.reg.defined (dotted (c.reg.scope (.at p))) t x →
      ∃ q kd, c.reg.registry x = some q ∧ c.reg.kind q = some kd ∧
        (kd.isType = true → ∃ a' k r', MessageField.type a p c.reg = (.ok (some (.wrapped a' k q)), r') ∧
          k.standsFor kd = true) ∧
        (kd.isType = false → ∃ r', MessageField.type a p c.reg = (.panic .notAType, r'))) ∧
    ((∀ s', Encloses s' (dotted (c.reg.scope (.at p))) → c.reg.defined (s' ++ dot :: t) = false) →
      ∃ r', MessageField.type a p c.reg = (.ok none, r')) := by
  obtain ⟨o, hi, -⟩ := reachable_inv hr
  have hb := (not_keyword_iff _).mp hkw
  rw [field_type_eq hk hf]
  constructor
  · intro x hx
    have hdef : c.reg.defined x = true := by obtain ⟨_, _, _, h, _⟩ := hx; exact h
    obtain ⟨q, hq⟩ := Option.isSome_iff_exists.mp hdef
    have href : Refers c.reg (c.reg.scope (.at p)) t q := by
      unfold Refers; simp only [hd]; exact ⟨x, hx, hq⟩
    obtain ⟨kd, k, h1, h2, h3, h4⟩ := lookupType_refers hi hb href
    refine ⟨q, kd, hq, h1, ?_, ?_⟩
    · intro h
      obtain ⟨a', r', e⟩ := h3 h
      exact ⟨a', k, _, by rw [e], standsFor_of_wrapKind h2⟩
    · intro h
      obtain ⟨r', e⟩ := h4 h
      exact ⟨_, by rw [e]⟩
  · intro h
    rw [lookupType_unresolved hb]
    · exact ⟨_, rfl⟩
    · unfold Unresolved
      simp only [hd]
      intro s' hs
      simpa [Reg.defined] using h s' hs

/-- The hypotheses are met: the branch `left` of type `N` in the example, found in the scope of M. -/
example : ∃ a, Node.wrapped a .oneofBranch ⟨1, [0, 3, 4]⟩ ∈ Ex.c2.pool ∧
    Ex.c2.reg.kind ⟨1, [0, 3, 4]⟩ = some (.oneofField b!"left" b!"N" 4) ∧
    Innermost Ex.c2.reg.defined (dotted (Ex.c2.reg.scope (.at ⟨1, [0, 3, 4]⟩))) b!"N" b!".p.q.M.N" := by
  obtain ⟨a, ha⟩ := Ex.hasW_spec (c := Ex.c2) (i := 12) (k := .oneofBranch) (p := ⟨1, [0, 3, 4]⟩)
    (by decide +kernel)
  refine ⟨a, ha, by rfl, ?_⟩
  rw [← C01_resolves_innermost _ _ _ _ (by rfl)]
  decide +kernel

/-- Innermost-first on a concrete scope: both `.a.T` and `.a.b.T` exist, the inner one wins. -/
example : resolveNameRaw (fun s => s = b!".a.T" ∨ s = b!".a.b.T") b!".a.b.c" b!"T" = (b!".a.b.T", true) := by
  decide +kernel

/-! ### C02 -/

/-- C02: an absolute name resolves iff it is registered, to itself, in every scope. -/
theorem C02_absolute_verbatim (defined : Str → Bool) (scope name : Str) (hn : hasDotPrefix name = true) :
    resolveNameRaw defined scope name = (name, defined name) := resolve_abs hn

/-- C02 at the API: the type of a branch declared with an absolute name is the declaration registered
    under exactly that name; the scope plays no role. -/
theorem C02_branch_type {P c a p n t s} (hr : Reachable P c)
    (_hm : Node.wrapped a .oneofBranch p ∈ c.pool) (hk : c.reg.kind p = some (.oneofField n t s))
    (hkw : ¬ IsKeyword t) (hd : hasDotPrefix t = true) :
    (c.reg.registry t = none → OneOfBranch.type p c.reg = (.ok none, c.reg)) ∧
    (∀ q, c.reg.registry t = some q → ∃ kd, c.reg.kind q = some kd ∧
      (kd.isType = true → ∃ a' k r', OneOfBranch.type p c.reg = (.ok (some (.wrapped a' k q)), r')) ∧
      (kd.isType = false → ∃ r', OneOfBranch.type p c.reg = (.panic .notAType, r'))) := by
  obtain ⟨o, hi, -⟩ := reachable_inv hr
  have hb := (not_keyword_iff _).mp hkw
  rw [branch_type_eq hk]
  constructor
  · intro h
    refine lookupType_unresolved hb ?_
    unfold Unresolved; simp only [hd]; exact h
  · intro q hq
    have href : Refers c.reg (c.reg.scope (.at p)) t q := by
      unfold Refers; simp only [hd]; exact hq
    obtain ⟨kd, k, h1, _, h3, h4⟩ := lookupType_refers hi hb href
    exact ⟨kd, h1, fun h => let ⟨a', r', e⟩ := h3 h; ⟨a', k, r', e⟩, h4⟩

example : resolveNameRaw (fun s => s = b!".x.T" ∨ s = b!".a.x.T") b!".a" b!".x.T" = (b!".x.T", true) := by
  decide +kernel

/-! ### C03 -/

/-- C03: the leading dot of the scope does not matter. -/
theorem C03_scope_dot_irrelevant (defined : Str → Bool) (scope name : Str)
    (hs : hasDotPrefix scope = false) (hne : scope ≠ []) :
    resolveNameRaw defined scope name = resolveNameRaw defined (dot :: scope) name := by
  cases hn : hasDotPrefix name with
  | true => rw [resolve_abs hn, resolve_abs hn]
  | false =>
    rw [resolveNameRaw_rel _ _ _ hn, resolveNameRaw_rel _ _ _ hn]
    cases scope with
    | nil => exact absurd rfl hne
    | cons c cs =>
      have : c ≠ dot := by simpa [hasDotPrefix] using hs
      have : dotted (c :: cs) = dotted (dot :: c :: cs) := by simp [dotted, this]
      rw [this]

/-- C03 at the API: the options of a file, resolved from its undotted package name `pk`, are bound exactly
    as from the scope `.pk` that the declarations of the package live in. -/
theorem C03_file_options (cls opt : Ptr) (pk : Str) (hs : hasDotPrefix pk = false) (hne : pk ≠ []) :
    newOption pk cls opt = newOption (dot :: pk) cls opt := by
  unfold newOption
  funext r
  simp only [M.bind_apply, M.get_apply]
  cases r.kind opt with
  | none => rfl
  | some k =>
    cases k <;> simp only
    rw [C03_scope_dot_irrelevant _ _ _ hs hne]

example : hasDotPrefix b!"a.b" = false ∧ b!"a.b" ≠ [] ∧
    resolveNameRaw (fun s => s = b!".a.T") b!"a.b" b!"T" = (b!".a.T", true) := by decide +kernel

/-! ### C04 -/

/-- C04: for a field `f` declared in scope `D`, every reference that protoc accepts is resolved by the
    library to the same name. `isAggregate` may be any predicate that holds at least for the names that
    have members; the field itself is not an aggregate. The last hypothesis is the proviso of the property:
    no non-type of the same name in a closer scope. -/
theorem C04_agrees_with_protoc (defined isAggregate isType : Str → Bool)
    (hclosed : ∀ x y, defined (x ++ dot :: y) = true → isAggregate x = true)
    (D f name c : Str) (hD : D = [] ∨ hasDotPrefix D = true) (hf : dot ∉ f)
    (hfield : isAggregate (D ++ dot :: f) = false) (hn : hasDotPrefix name = false)
    (hp : ProtocAccepts defined isAggregate isType D name c)
    (hproviso : ∀ s'', Encloses s'' D → c.length < (s'' ++ dot :: name).length →
      defined (s'' ++ dot :: name) = true → isType (s'' ++ dot :: name) = true) :
    resolveNameRaw defined (D ++ dot :: f) name = (c, true) := by
  have hdd : dotted (D ++ dot :: f) = D ++ dot :: f := by
    rcases hD with rfl | hD
    · simp [dotted]
    · cases D with
      | nil => simp [hasDotPrefix] at hD
      | cons x xs =>
        have : x = dot := by simpa [hasDotPrefix] using hD
        simp [dotted, this]
  rw [C01_resolves_innermost _ _ _ _ hn, hdd]
  obtain ⟨s', hs', rfl, hdef, hty, hcl⟩ := hp
  have hout : ∀ s, Encloses s (D ++ dot :: f) → s = D ++ dot :: f ∨ Encloses s D := by
    intro s hs
    rcases hs with h | ⟨t, ht⟩
    · exact .inl h
    · right
      rcases List.append_eq_append_iff.mp ht with ⟨u, hu, hu'⟩ | ⟨u, hu, hu'⟩
      · cases u with
        | nil => left; simpa using hu
        | cons x xs =>
          simp only [List.cons_append, List.cons.injEq] at hu'
          exfalso; apply hf
          rw [hu'.2]; simp
      · cases u with
        | nil => left; simpa using hu.symm
        | cons x xs =>
          simp only [List.cons_append, List.cons.injEq] at hu'
          exact .inr ⟨xs, by rw [hu, ← hu'.1]⟩
  refine ⟨s', ?_, rfl, hdef, ?_⟩
  · rcases hs' with rfl | ⟨t, rfl⟩
    · exact .inr ⟨f, rfl⟩
    · exact .inr ⟨t ++ dot :: f, by simp⟩
  · intro s'' hs'' hlen
    rcases hout s'' hs'' with rfl | hin
    · cases hx : defined (D ++ dot :: f ++ dot :: name) with
      | false => rfl
      | true => rw [hclosed _ _ hx] at hfield; cases hfield
    · have := hcl s'' hin hlen
      cases hx : defined (s'' ++ dot :: name) with
      | false => rfl
      | true =>
        split at this
        · next hdot =>
          have hsplit : ∃ rest, name = firstPart name ++ dot :: rest := by
            unfold firstPart
            clear hx this hn hdef hty hcl hproviso hlen
            induction name with
            | nil => cases hdot
            | cons x xs ih =>
              by_cases hxd : x = dot
              · subst hxd; exact ⟨xs, by simp⟩
              · have : dot ∈ xs := by
                  rcases List.mem_cons.mp hdot with h | h
                  · exact absurd h.symm hxd
                  · exact h
                obtain ⟨rest, hr⟩ := ih this
                refine ⟨rest, ?_⟩
                rw [List.takeWhile_cons]
                simp only [bne_iff_ne, ne_eq, hxd, not_false_eq_true, if_true, List.cons_append]
                rw [← hr]
          obtain ⟨rest, hr⟩ := hsplit
          have h2 : defined ((s'' ++ dot :: firstPart name) ++ dot :: rest) = true := by
            rw [show (s'' ++ dot :: firstPart name) ++ dot :: rest = s'' ++ dot :: name by
              rw [List.append_assoc, List.cons_append, ← hr]]
            exact hx
          rw [hclosed _ _ h2] at this; cases this
        · have h1 := this hx
          have h2 := hproviso s'' hin (by simp; omega) hx
          rw [h2] at h1; cases h1

/-- The hypotheses of C04 are met by a concrete schema: `.p.M.f` refers to `N.D` where both `.p.N.D` and
    `.N.D` exist. -/
example :
    let names := [b!".p.M", b!".p.M.f", b!".p.N", b!".p.N.D", b!".N", b!".N.D"]
    let aggs := [b!"", b!".p", b!".p.M", b!".p.N", b!".N"]
    let tys := [b!".p.M", b!".p.N", b!".p.N.D", b!".N", b!".N.D"]
    (∀ x y, names.contains (x ++ dot :: y) = true → aggs.contains x = true) ∧
    ProtocAccepts names.contains aggs.contains tys.contains b!".p.M" b!"N.D" b!".p.N.D" := by
  intro names aggs tys
  constructor
  · intro x y h
    simp only [List.contains_eq_mem, decide_eq_true_eq] at h ⊢
    have key : ∀ n ∈ names, ∀ i < n.length, n[i]? = some dot → n.take i ∈ aggs := by decide +kernel
    have := key _ h x.length (by simp) (by simp)
    simpa using this
  · refine ⟨b!".p", .inr ⟨b!"M", rfl⟩, rfl, by decide +kernel, by decide +kernel, ?_⟩
    intro s'' h hl
    rcases h with rfl | ⟨t, ht⟩
    · decide +kernel
    · have hlen := congrArg List.length ht
      simp only [List.length_append, List.length_cons, List.length_nil] at hl hlen
      have h3 : s''.length = 3 := by omega
      have := congrArg (·[3]?) ht
      simp [← h3] at this
      simp [h3] at this
      exact absurd this (by decide)

/-! ### C05 -/

/-- The full statement of C05: whenever an enclosing scope declares a message or enum under the name a
    (not repeated) field refers to, the first `Type` call on the field returns a type. -/
def C05_statement : Prop :=
  ∀ (c : Client) (a : Nat) (p : Ptr) (n t : Str) (s : Int) (op : Bool), Reachable AnyTree c →
    Node.wrapped a .messageField p ∈ c.pool → c.reg.kind p = some (.normalField n t s false op) →
    c.reg.ftcache a = none → ¬ IsKeyword t → hasDotPrefix t = false →
    (∃ s' q, Encloses s' (dotted (c.reg.scope (.at p))) ∧ c.reg.registry (s' ++ dot :: t) = some q ∧
      ((∃ m, c.reg.kind q = some (.message m false)) ∨ ∃ m, c.reg.kind q = some (.enum m))) →
    ∃ ty r', MessageField.type a p c.reg = (.ok (some ty), r')

/-- `message T {}  message M { T T = 1; }`, legal protobuf. -/
def shadowFile : List Elem :=
  let f := b!"s.proto"
  [Ex.el f 1 (.packageK b!"p"), Ex.el f 2 (.message b!"T" false),
   Ex.el f 3 (.message b!"M" false) [Ex.fld f 4 b!"T" b!"T" 1]]

def shadowClient : Client :=
  Client.exec ⟨Ex.r0, []⟩
    [.proto (Ex.worldOf [(b!"s.proto", shadowFile)]) 1 b!"s.proto",
     .query 0 (.named .fileMessage b!"M"), .query 1 (.iter .messageFields 0)]

/-- C05 is false: the field shadows its own type and `Type` panics. -/
theorem C05_false : ¬ C05_statement := by
  intro h
  obtain ⟨ty, r', e⟩ := h shadowClient 2 ⟨1, [0, 2]⟩ b!"T" b!"T" 1 false (Ex.reach_any _)
    (Ex.hasA_spec (i := 2) (by decide +kernel)) (by rfl)
    (by rw [← Option.isNone_iff_eq_none]; decide +kernel) ((not_keyword_iff _).mpr (by decide +kernel)) (by decide +kernel)
    ⟨b!".p", ⟨1, [1]⟩, .inr ⟨b!"M.T", by decide +kernel⟩, by decide +kernel, .inl ⟨b!"T", by rfl⟩⟩
  have : Ex.isOk (MessageField.type 2 ⟨1, [0, 2]⟩ shadowClient.reg).1 = false := by decide +kernel
  rw [e] at this
  cases this

/-- The part of C05 that holds: when the closest declaration of the referenced name is a message, enum or
    enum value (the proviso), `Type` returns the node of that declaration. Missing: the case where a field,
    oneof, map field, method or service of the same name is closer (false, see `C05_false`). -/
theorem C05_partial {P c a p n t s op q kd} (hr : Reachable P c)
    (_hm : Node.wrapped a .messageField p ∈ c.pool)
    (hk : c.reg.kind p = some (.normalField n t s false op)) (hf : c.reg.ftcache a = none)
    (hkw : ¬ IsKeyword t) (hq : Refers c.reg (c.reg.scope (.at p)) t q)
    (hkd : c.reg.kind q = some kd) (ht : kd.isType = true) :
    ∃ a' k r', MessageField.type a p c.reg = (.ok (some (.wrapped a' k q)), r') ∧ k.standsFor kd = true := by
  obtain ⟨o, hi, -⟩ := reachable_inv hr
  have hb := (not_keyword_iff _).mp hkw
  obtain ⟨kd', k, h1, h2, h3, h4⟩ := lookupType_refers hi hb hq
  rw [hkd] at h1
  cases h1
  obtain ⟨a', r', e⟩ := h3 ht
  rw [field_type_eq hk hf, e]
  exact ⟨a', k, _, rfl, standsFor_of_wrapKind h2⟩

/-- Field `t` of the example refers to the message T of the other file. -/
example : Refers Ex.c2.reg (Ex.c2.reg.scope (.at ⟨1, [0, 4]⟩)) b!"T" ⟨2, [3]⟩ := by
  exact resolve_refers (c := b!".p.T") (by decide +kernel) (by decide +kernel)

end Protoast.Props
