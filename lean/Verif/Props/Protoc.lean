import Verif.Props.Names2
import Verif.Props.Types
import Verif.Proof.HeapSat
import Verif.Spec.Program
/-
  C66: on valid programs the library and protoc agree about types, from the source files to the API.
-/
namespace Protoast.Props
open Protoast

theorem sat_mono {P Q : Str → List Elem → Prop} (h : ∀ a b, P a b → Q a b) {W : World} (hW : W.Sat P) : W.Sat Q :=
  fun a b c e => h _ _ (hW a b c e)

theorem clean_mono {P Q : Str → List Elem → Prop} (h : ∀ a b, P a b → Q a b) {c} (hc : CleanReachable P c) :
    CleanReachable Q c := by
  obtain ⟨W, fuel, r, ops, h1, h2, h3, h4, h5⟩ := hc
  refine ⟨W, fuel, r, ops, sat_mono h h1, h2, ?_, h4, h5⟩
  intro op ho
  have := h3 op ho
  cases op with
  | proto W _ _ => exact sat_mono h this
  | byName _ => trivial
  | query _ _ => trivial

theorem plain_at {f : ProtoFile} (h : plainAll f.elems = true) : ∀ path cs, f.childrenAt path = some cs →
    plainAll cs = true := by
  have mem : ∀ {es : List Elem}, plainAll es = true → ∀ e ∈ es, e.plain = true := by
    intro es
    induction es with
    | nil => intro _ e he; cases he
    | cons x xs ih =>
      intro h e he
      simp only [plainAll, Bool.and_eq_true] at h
      rcases List.mem_cons.mp he with rfl | he
      · exact h.1
      · exact ih h.2 e he
  intro path
  induction path with
  | nil => intro cs hc; cases hc; exact h
  | cons i rest ih =>
    intro cs hc
    simp only [ProtoFile.childrenAt, Option.map_eq_some_iff, Option.bind_eq_some_iff] at hc
    obtain ⟨e, ⟨es, h1, h2⟩, rfl⟩ := hc
    have := mem (ih es h1) e (List.mem_of_getElem? h2)
    rcases e with ⟨_, _, k, cs⟩
    simp only [Elem.plain, Bool.and_eq_true] at this
    exact this.2

theorem plain_name {f : ProtoFile} (h : plainAll f.elems = true) {path e n} (he : f.elemAt path = some e)
    (hn : e.kind.declName = some n) : dot ∉ n := by
  cases path with
  | nil => cases he
  | cons i rest =>
    simp only [ProtoFile.elemAt, Option.bind_eq_some_iff] at he
    obtain ⟨es, h1, h2⟩ := he
    have h3 := plain_at h rest es h1
    have h4 : ∀ {es : List Elem}, plainAll es = true → ∀ e ∈ es, e.plain = true := by
      intro es
      induction es with
      | nil => intro _ e he; cases he
      | cons x xs ih =>
        intro h e he
        simp only [plainAll, Bool.and_eq_true] at h
        rcases List.mem_cons.mp he with rfl | he
        · exact h.1
        · exact ih h.2 e he
    have := h4 h3 e (List.mem_of_getElem? h2)
    rcases e with ⟨_, _, k, cs⟩
    simp only [Elem.kind_mk] at hn
    simp only [Elem.plain, hn, Bool.and_eq_true, List.all_eq_true, bne_iff_ne, ne_eq] at this
    intro hd
    exact this.1 dot hd rfl

/-- Cutting a scoped name at a dot cuts at the scope or inside it. -/
theorem cut_scoped {s n x y : Str} (hn : dot ∉ n) (h : s ++ dot :: n = x ++ dot :: y) :
    x = s ∨ ∃ z, s = x ++ dot :: z := by
  rcases List.append_eq_append_iff.mp h with ⟨u, hu, hu'⟩ | ⟨u, hu, hu'⟩
  · cases u with
    | nil => left; simpa using hu
    | cons a as =>
      simp only [List.cons_append, List.cons.injEq] at hu'
      exfalso; apply hn; rw [hu'.2]; simp
  · cases u with
    | nil => left; simpa using hu.symm
    | cons a as =>
      simp only [List.cons_append, List.cons.injEq] at hu'
      right; exact ⟨as, by rw [hu, ← hu'.1]⟩

/-- The scopes of a file: everything around one has members. -/
theorem scopeAt_aggregate {r : Reg} {i : Nat} {f : ProtoFile} (hf : r.heap[i]? = some f)
    (hp : plainAll f.elems = true) : ∀ path s, f.scopeAt path = some s → ∀ x, Encloses x s → Aggregate r x := by
  intro path
  induction path with
  | nil =>
    intro s hs x hx
    simp only [ProtoFile.scopeAt, Option.some.injEq] at hs
    subst hs
    by_cases h0 : packageDot f.elems = []
    · rw [h0] at hx
      rcases hx with hx | ⟨t, ht⟩
      · exact .inl hx
      · have := congrArg List.length ht
        simp at this
    · exact .inr (.inl ⟨i, f, hf, h0, hx⟩)
  | cons j rest ih =>
    intro s hs x hx
    simp only [ProtoFile.scopeAt] at hs
    cases hrest : f.scopeAt rest with
    | none => rw [hrest] at hs; cases hs
    | some s0 =>
      cases hel : f.elemAt (j :: rest) with
      | none => rw [hrest, hel] at hs; cases hs
      | some e =>
        rw [hrest, hel] at hs
        simp only at hs
        have hkind : r.kind ⟨i, j :: rest⟩ = some e.kind := by simp [Reg.kind, Reg.elem, hf, hel]
        have hopen : ∀ n, e.kind.declName = some n → s = s0 ++ dot :: n →
            (r.kind ⟨i, j :: rest⟩ = some (.message n false) ∨ r.kind ⟨i, j :: rest⟩ = some (.service n)) →
            Aggregate r x := by
          intro n hn hsn hk
          subst hsn
          have hdecl : Declared r (s0 ++ dot :: n) ⟨i, j :: rest⟩ := by
            refine ⟨f, hf, ?_⟩
            simp [ProtoFile.fqn, hrest, hel, hn]
          have hdn := plain_name hp hel hn
          rcases hx with rfl | ⟨t, ht⟩
          · refine .inr (.inr ⟨_, n, hdecl, ?_⟩)
            rcases hk with hk | hk
            · exact .inl hk
            · exact .inr (.inr hk)
          · rcases cut_scoped hdn ht with rfl | ⟨z, hz⟩
            · exact ih _ hrest _ (.inl rfl)
            · exact ih _ hrest _ (.inr ⟨z, hz⟩)
        rcases e with ⟨pos, cm, k, cs⟩
        simp only [Elem.kind_mk] at hs hkind hopen
        cases k with
        | message n ext =>
          cases ext with
          | false =>
            simp only [Kind.memberScope, Option.some.injEq] at hs
            exact hopen n rfl hs.symm (.inl hkind)
          | true =>
            simp only [Kind.memberScope, Option.some.injEq] at hs
            subst hs
            exact ih _ hrest x hx
        | service n =>
          simp only [Kind.memberScope, Option.some.injEq] at hs
          exact hopen n rfl hs.symm (.inr hkind)
        | enum n =>
          simp only [Kind.memberScope, Option.some.injEq] at hs
          subst hs
          exact ih _ hrest x hx
        | oneof n =>
          simp only [Kind.memberScope, Option.some.injEq] at hs
          subst hs
          exact ih _ hrest x hx
        | _ => simp [Kind.memberScope] at hs

/-- What contains a declaration has members. -/
theorem declared_aggregate {r : Reg} (hp : ∀ (i : Nat) (f : ProtoFile), r.heap[i]? = some f → plainAll f.elems = true)
    {x y : Str} {p : Ptr} (h : Declared r (x ++ dot :: y) p) : Aggregate r x := by
  obtain ⟨f, hf, hq⟩ := h
  rcases p with ⟨i, path⟩
  cases path with
  | nil => simp [ProtoFile.fqn] at hq
  | cons j rest =>
    simp only [ProtoFile.fqn] at hq
    cases hrest : f.scopeAt rest with
    | none => rw [hrest] at hq; cases hq
    | some s0 =>
      cases hel : f.elemAt (j :: rest) with
      | none => rw [hrest, hel] at hq; cases hq
      | some e =>
        rw [hrest, hel] at hq
        cases hn : e.kind.declName with
        | none => simp [hn] at hq
        | some n =>
          simp only [hn, Option.bind_some, Option.some.injEq] at hq
          have hdn := plain_name (hp _ _ hf) hel hn
          rcases cut_scoped hdn hq with rfl | ⟨z, hz⟩
          · exact scopeAt_aggregate hf (hp _ _ hf) rest _ hrest _ (.inl rfl)
          · exact scopeAt_aggregate hf (hp _ _ hf) rest _ hrest _ (.inr ⟨z, hz⟩)

theorem firstPart_split {name : Str} (hdot : dot ∈ name) : ∃ rest, name = firstPart name ++ dot :: rest := by
  unfold firstPart
  induction name with
  | nil => cases hdot
  | cons x xs ih =>
    by_cases hxd : x = dot
    · subst hxd; exact ⟨xs, by simp⟩
    · have : dot ∈ xs := by
        rcases List.mem_cons.mp hdot with h | h
        · exact absurd h.symm hxd
        · exact h
      obtain ⟨rest, hr⟩ := ih this
      refine ⟨rest, ?_⟩
      rw [List.takeWhile_cons]
      simp only [bne_iff_ne, ne_eq, hxd, not_false_eq_true, if_true, List.cons_append]
      rw [← hr]

/-- The kinds of declarations that have a type reference. -/
def Kind.refers : Kind → Bool
  | .normalField _ _ _ _ _ => true
  | .mapField _ _ _ _ => true
  | .oneofField _ _ _ => true
  | .rpc _ _ _ _ _ => true
  | _ => false

/-- The reference denotes for the library what protoc says. -/
theorem protoc_refers {c p kd D n t q} (hc : CleanReachable WFPlain c) (hu : UniqueNames c.reg)
    (hclash : NoPackageClash c.reg) (hk : c.reg.kind p = some kd) (hkr : Kind.refers kd = true)
    (hname : kd.declName = some n) (hd : Declared c.reg (D ++ dot :: n) p) (hq : ProtocType c.reg D t q)
    (honly : dot ∉ t → OnlyTypes c.reg D t) : Refers c.reg (c.reg.scope (.at p)) t q := by
  have hc' := clean_mono (fun _ _ h => h.1) hc
  have hplain : ∀ (i : Nat) (f : ProtoFile), c.reg.heap[i]? = some f → plainAll f.elems = true :=
    fun i f hf => (reachable_heapSat (clean_reachable hc) i f hf).2
  have hsound := reachable_sound (clean_reachable hc')
  have hcomp := clean_complete hc'
  cases hdt : hasDotPrefix t with
  | true =>
    unfold ProtocType at hq
    rw [if_pos hdt] at hq
    unfold Refers
    rw [if_pos hdt]
    obtain ⟨f, hf, hq'⟩ := hq.1
    obtain ⟨q', hq2⟩ := Option.isSome_iff_exists.mp ((hcomp _ f (Nat.zero_le _) hf).names _ _ hq')
    rw [hq2, hu t _ _ (hsound.names _ _ hq2) ⟨f, hf, hq'⟩]
  | false =>
    have hdn : dot ∉ n := by
      obtain ⟨f, hf, _⟩ := hd
      unfold Reg.kind Reg.elem at hk
      rw [hf] at hk
      simp only [Option.bind_some, Option.map_eq_some_iff] at hk
      obtain ⟨e, he, hek⟩ := hk
      exact plain_name (hplain _ _ hf) he (by rw [hek]; exact hname)
    have hnagg : ¬ Aggregate c.reg (D ++ dot :: n) := by
      rintro (h | h | ⟨p', m, h1, h2⟩)
      · simp at h
      · exact hclash _ _ hd h
      · have := hu _ _ _ h1 hd
        subst this
        rw [hk] at h2
        cases kd <;> simp_all [Kind.refers]
    rw [C61_type_from_source hc' hu hd (by
      intro s v h; rw [hk] at h; cases h; cases hkr) hdt]
    unfold ProtocType at hq
    rw [if_neg (by simp [hdt])] at hq
    obtain ⟨s', h1, h2, h3, h4⟩ := hq
    refine ⟨s', ?_, h2, ?_⟩
    · rcases h1 with rfl | ⟨z, hz⟩
      · exact .inr ⟨n, rfl⟩
      · exact .inr ⟨z ++ dot :: n, by rw [hz]; simp⟩
    · intro s'' h5 h6 q' hq'
      rcases h5 with rfl | ⟨z, hz⟩
      · exact hnagg (declared_aggregate hplain hq')
      · have h5' : Encloses s'' D := by
          rcases cut_scoped hdn hz with h | ⟨w, hw⟩
          · exact .inl h
          · exact .inr ⟨w, hw⟩
        have := h4 s'' h5' h6
        split at this
        · next hdot =>
          obtain ⟨rest, hrest⟩ := firstPart_split hdot
          apply this
          refine declared_aggregate (y := rest) (p := q') hplain ?_
          rw [List.append_assoc, List.cons_append, ← hrest]
          exact hq'
        · next hdot => exact this q' hq' (honly hdot s'' h5' q' hq')

theorem declaresType_isType {r : Reg} {q : Ptr} (h : DeclaresType r q) :
    ∃ kd, r.kind q = some kd ∧ kd.isType = true := by
  obtain ⟨n, h | h⟩ := h
  · exact ⟨_, h, rfl⟩
  · exact ⟨_, h, rfl⟩

theorem protocType_declares {r : Reg} {D t q} (h : ProtocType r D t q) : DeclaresType r q := by
  unfold ProtocType at h
  split at h
  · exact h.2
  · obtain ⟨_, _, _, h, _⟩ := h; exact h

/-- C66 for fields: in a registry whose loads did not panic, over files that protoc would accept (distinct full names,
    no package named like a declaration), the first `Type` call on a field whose type name protoc reads as the type
    declared at `q` returns the node of `q`, as the element of a repeated type iff the field is repeated. The proviso
    `honly` is about names of one component only. -/
theorem C66_field {c a p n t s rep opt D q} (hc : CleanReachable WFPlain c) (hu : UniqueNames c.reg)
    (hclash : NoPackageClash c.reg) (_hm : Node.wrapped a .messageField p ∈ c.pool)
    (hk : c.reg.kind p = some (.normalField n t s rep opt)) (hf : c.reg.ftcache a = none)
    (hkw : ¬ IsKeyword t) (hd : Declared c.reg (D ++ dot :: n) p) (hq : ProtocType c.reg D t q)
    (honly : dot ∉ t → OnlyTypes c.reg D t) :
    ∃ a' k r', (k = .message ∨ k = .enum) ∧ (if rep then ∃ a'',
        MessageField.type a p c.reg = (.ok (some (.repeated a'' (some (.wrapped a' k q)))), r')
      else MessageField.type a p c.reg = (.ok (some (.wrapped a' k q)), r')) := by
  have href := protoc_refers hc hu hclash hk rfl rfl hd hq honly
  obtain ⟨o, hi, _⟩ := reachable_inv (clean_reachable hc)
  obtain ⟨kd, k, h1, h2, h3, _⟩ := lookupType_refers hi ((not_keyword_iff _).mp hkw) href
  have hkk : (k = .message ∨ k = .enum) ∧ kd.isType = true := by
    obtain ⟨m, hm | hm⟩ := protocType_declares hq
    · rw [h1] at hm; cases hm; simp [wrapKind] at h2; exact ⟨.inl h2.symm, rfl⟩
    · rw [h1] at hm; cases hm; simp [wrapKind] at h2; exact ⟨.inr h2.symm, rfl⟩
  obtain ⟨a', r', h5⟩ := h3 hkk.2
  cases rep with
  | false =>
    refine ⟨a', k, { r' with ftcache := upd r'.ftcache a (some (.wrapped a' k q)) }, hkk.1, ?_⟩
    rw [if_neg (by simp), field_type_eq hk hf, h5]
  | true =>
    have hg := getTypeByName_repeated (r := c.reg) (p := p) (name := t) (by simp [Reg.isRepeatedField, hk])
    rw [h5] at hg
    refine ⟨a', k, { r' with next := r'.next + 1, ftcache := upd r'.ftcache a (
      some (.repeated r'.next (some (.wrapped a' k q)))) }, hkk.1, ?_⟩
    rw [if_pos rfl]
    refine ⟨r'.next, ?_⟩
    unfold MessageField.type fieldTypeBody
    simp [hk, hf, hg]

/-- C66 for the branches of a oneof, at any call. -/
theorem C66_branch {c p n t s D q} (hc : CleanReachable WFPlain c) (hu : UniqueNames c.reg)
    (hclash : NoPackageClash c.reg) (hk : c.reg.kind p = some (.oneofField n t s))
    (hkw : ¬ IsKeyword t) (hd : Declared c.reg (D ++ dot :: n) p) (hq : ProtocType c.reg D t q)
    (honly : dot ∉ t → OnlyTypes c.reg D t) :
    ∃ a k r', (k = .message ∨ k = .enum) ∧ OneOfBranch.type p c.reg = (.ok (some (.wrapped a k q)), r') := by
  have href := protoc_refers hc hu hclash hk rfl rfl hd hq honly
  obtain ⟨o, hi, _⟩ := reachable_inv (clean_reachable hc)
  obtain ⟨kd, k, h1, h2, h3, _⟩ := lookupType_refers hi ((not_keyword_iff _).mp hkw) href
  have hkk : (k = .message ∨ k = .enum) ∧ kd.isType = true := by
    obtain ⟨m, hm | hm⟩ := protocType_declares hq
    · rw [h1] at hm; cases hm; simp [wrapKind] at h2; exact ⟨.inl h2.symm, rfl⟩
    · rw [h1] at hm; cases hm; simp [wrapKind] at h2; exact ⟨.inr h2.symm, rfl⟩
  obtain ⟨a', r', h5⟩ := h3 hkk.2
  exact ⟨a', k, r', hkk.1, by rw [branch_type_eq hk, h5]⟩

/-- C66 for the methods of a service: when protoc reads the request and the response type as the messages at `q1` and
    `q2`, `Input` and `Output` return their nodes. -/
theorem C66_method {c p n req ret sreq sret D q1 q2 n1 n2} (hc : CleanReachable WFPlain c) (hu : UniqueNames c.reg)
    (hclash : NoPackageClash c.reg) (hk : c.reg.kind p = some (.rpc n req ret sreq sret))
    (hkw1 : ¬ IsKeyword req) (hkw2 : ¬ IsKeyword ret) (hd : Declared c.reg (D ++ dot :: n) p)
    (hq1 : ProtocType c.reg D req q1) (hq2 : ProtocType c.reg D ret q2)
    (hm1 : c.reg.kind q1 = some (.message n1 false)) (hm2 : c.reg.kind q2 = some (.message n2 false))
    (ho1 : dot ∉ req → OnlyTypes c.reg D req) (ho2 : dot ∉ ret → OnlyTypes c.reg D ret) :
    (∃ a r', Method.input p c.reg = (.ok (sreq, .wrapped a .message q1), r')) ∧
    (∃ a r', Method.output p c.reg = (.ok (sret, .wrapped a .message q2), r')) :=
  ⟨(C41_input (clean_reachable hc) hk).1 q1
    ⟨hkw1, protoc_refers hc hu hclash hk rfl rfl hd hq1 ho1, n1, false, hm1⟩,
   (C41_output (clean_reachable hc) hk).1 q2
    ⟨hkw2, protoc_refers hc hu hclash hk rfl rfl hd hq2 ho2, n2, false, hm2⟩⟩

/-! ### The hypotheses are met -/

/-- A checker for `NoPackageClash`. -/
def noClashB (r : Reg) : Bool :=
  (Ex.fqnsFrom 0 r.heap).all fun x => r.heap.all fun f =>
    decide (packageDot f.elems = []) ||
      (decide (x.1 ≠ packageDot f.elems) && !((x.1 ++ [dot]).isPrefixOf (packageDot f.elems)))

theorem declared_fqns {r : Reg} {x : Str} {p : Ptr} (h : Declared r x p) : (x, p) ∈ Ex.fqnsFrom 0 r.heap := by
  obtain ⟨f, hf, hq⟩ := h
  have := Ex.fqnsFrom_complete _ 0 _ _ _ _ hf hq
  rwa [Nat.zero_add] at this

theorem noClashB_spec {r : Reg} (h : noClashB r = true) : NoPackageClash r := by
  rintro x p hx ⟨i, f, hf, hne, he⟩
  unfold noClashB at h
  rw [List.all_eq_true] at h
  have := h _ (declared_fqns hx)
  rw [List.all_eq_true] at this
  have := this f (List.mem_of_getElem? hf)
  simp only [hne, decide_false, Bool.false_or, Bool.and_eq_true, decide_eq_true_eq, Bool.not_eq_true',
    ← Bool.not_eq_true, List.isPrefixOf_iff_prefix] at this
  rcases he with he | ⟨t, ht⟩
  · exact this.1 he
  · exact this.2 ⟨t, by rw [ht]; simp⟩

theorem ex_plain : Ex.W.Sat WFPlain := by
  apply Ex.worldOf_sat
  intro x hx
  refine ⟨Ex.wfb_spec ?_, ?_⟩ <;>
  · simp only [List.mem_cons, List.not_mem_nil, or_false] at hx
    rcases hx with rfl | rfl | rfl <;> decide +kernel

theorem ex_plain_clean : CleanReachable WFPlain Ex.c2 := by
  refine ⟨Ex.W, 5, Ex.r0, Ex.ops2, ex_plain, Ex.W_ok, ?_, Ex.loadsB_spec (by decide +kernel), rfl⟩
  intro op hop
  simp only [Ex.ops2, List.mem_cons, List.not_mem_nil, or_false] at hop
  rcases hop with rfl | rfl | rfl | rfl | rfl | rfl | rfl | rfl | rfl | rfl | rfl | rfl | rfl | rfl <;>
    first | exact ex_plain | trivial

/-- The field `t` of `.p.q.M`, of type `T`, declared as `.p.T` in the other file. -/
theorem ex_protocType : ProtocType Ex.c2.reg b!".p.q.M" b!"T" ⟨2, [3]⟩ ∧ OnlyTypes Ex.c2.reg b!".p.q.M" b!"T" := by
  have hall : ∀ x ∈ Ex.fqnsFrom 0 Ex.c2.reg.heap, b!".T" <:+ x.1 → x = (b!".p.T", ⟨2, [3]⟩) := by decide +kernel
  have hT : DeclaresType Ex.c2.reg ⟨2, [3]⟩ := ⟨b!"T", .inl rfl⟩
  have hone : ∀ s' q, Declared Ex.c2.reg (s' ++ dot :: b!"T") q → s' = b!".p" ∧ q = ⟨2, [3]⟩ := by
    intro s' q h
    have := hall _ (declared_fqns h) ⟨s', rfl⟩
    simp only [Prod.mk.injEq] at this
    refine ⟨?_, this.2⟩
    exact List.append_cancel_right (bs := b!".T") (show s' ++ b!".T" = b!".p" ++ b!".T" from this.1)
  refine ⟨?_, ?_⟩
  · unfold ProtocType
    rw [if_neg (by decide)]
    refine ⟨b!".p", .inr ⟨b!"q.M", by decide⟩, ?_, hT, ?_⟩
    · have : (Ex.c2.reg.heap[2]?).bind (fun f => f.fqn [3]) = some b!".p.T" := by decide +kernel
      rw [Option.bind_eq_some_iff] at this
      exact this
    · intro s'' _ hlen
      rw [if_neg (by decide)]
      intro q' hq'
      rw [(hone _ _ hq').1] at hlen
      exact absurd hlen (Nat.lt_irrefl _)
  · intro s' _ q hq
    rw [(hone _ _ hq).2]
    exact hT

example : ∃ a a' k r', Node.wrapped a .messageField ⟨1, [0, 4]⟩ ∈ Ex.c2.pool ∧
    MessageField.type a ⟨1, [0, 4]⟩ Ex.c2.reg = (.ok (some (.wrapped a' k ⟨2, [3]⟩)), r') := by
  have hA : Ex.hasA Ex.c2 2 2 .messageField ⟨1, [0, 4]⟩ = true := by decide +kernel
  have hm := Ex.hasA_spec hA
  have hd : Declared Ex.c2.reg (b!".p.q.M" ++ dot :: b!"t") ⟨1, [0, 4]⟩ := by
    have : (Ex.c2.reg.heap[1]?).bind (fun f => f.fqn [0, 4]) = some b!".p.q.M.t" := by decide +kernel
    rw [Option.bind_eq_some_iff] at this
    exact this
  obtain ⟨a', k, r', _, h⟩ := C66_field ex_plain_clean Ex.c2_unique (noClashB_spec (by decide +kernel)) hm rfl
    (by decide +kernel) ((not_keyword_iff _).mpr (by decide)) hd ex_protocType.1 (fun _ => ex_protocType.2)
  exact ⟨2, a', k, r', hm, h⟩

end Protoast.Props
