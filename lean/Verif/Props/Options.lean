import Verif.Proof.Options2
import Verif.Props.Types
/-
  C45–C48, C60: enumeration, binding, lookup and identity of options.
-/
namespace Protoast.Props
open Protoast

/-! ### C45 -/

/-- C45 as promised: for every optionable node, whatever its kind. -/
def C45_statement : Prop :=
  ∀ c, CleanReachable WFFile c → ∀ n ∈ c.pool, ∀ p className s cls, optionClassOf c.reg n = some (p, className) →
    OptionScope c.reg n s → ClassAt c.reg className cls → OptionsExact c.reg n p s cls

/-- `Options` enumerates in the scope recorded for the node. -/
theorem options_scope {c n p className s} (hc : CleanReachable WFFile c) (hn : n ∈ c.pool)
    (ho : optionClassOf c.reg n = some (p, className)) (hs : OptionScope c.reg n s) :
    ∃ s', options n c.reg = seqOptions s' className p c.reg ∧
      (∀ name, optionNamed n name c.reg = namedOption name s' className p c.reg ∨
        ∃ a q, n = .wrapped a .messageField q ∧ ∃ x b d g i, c.reg.kind q = some (.normalField x b d g i)) ∧
      ((∀ a q, n ≠ .wrapped a .enumValue q) → dotted s' = dotted s) ∧ (dotted s' = dotted s ∨ s' = []) := by
  have hr := clean_reachable hc
  obtain ⟨o, hi, hg⟩ := reachable_inv hr
  have hso := reachable_sound hr
  -- the ordinary case: the scope is the fully qualified name
  have ord : ∀ q, (∃ q', n.decl = some q' ∧ Declared c.reg s q') → n.decl = some q →
      (∀ s v, c.reg.kind q ≠ some (.enumField s v)) → c.reg.scope (.at q) = s := by
    rintro q ⟨q', h1, h2⟩ h3 h4
    rw [h3] at h1
    cases h1
    exact scope_declared hc h2 h4
  cases n with
  | wrapped a k q =>
    cases k <;> simp only [optionClassOf, reduceCtorEq] at ho
    case file =>
      cases ho
      obtain ⟨es, h1, rfl⟩ := hs
      have hw : hasDotPrefix (firstPackage es) = false := by
        unfold Reg.children at h1
        rw [Option.bind_eq_some_iff] at h1
        obtain ⟨f, hf, h2⟩ := h1
        have hp : p.path = [] := by
          rcases p with ⟨fi, path⟩
          have ht := (hg _ hn).target
          cases path with
          | nil => rfl
          | cons j rest =>
            simp only [Reg.wrapTarget] at ht
            rw [Option.map_eq_some_iff] at ht
            obtain ⟨k, hk, ht⟩ := ht
            rw [Option.bind_eq_some_iff] at hk
            obtain ⟨e, _, hk⟩ := hk
            cases ht
            exact absurd rfl (wrapKind_ne_file hk)
        rw [hp] at h2
        simp only [ProtoFile.childrenAt, Option.some.injEq] at h2
        subst h2
        exact wf_package (hso.wf _ _ hf)
      refine ⟨firstPackage es, ?_, fun name => .inl ?_, fun _ => (dotted_packageDot hw).symm,
        .inl (dotted_packageDot hw).symm⟩
      · simp only [options, M.bind_apply, M.get_apply, h1, Option.getD_some]; rfl
      · simp only [optionNamed, M.bind_apply, M.get_apply, h1, Option.getD_some]; rfl
    case message =>
      cases ho
      have := ord p hs rfl (good_not_enumField (hg _ hn) (.inl rfl))
      exact ⟨c.reg.scope (.at p), rfl, fun name => .inl rfl, fun _ => by rw [this], .inl (by rw [this])⟩
    case messageField =>
      obtain ⟨kd, h1, h2⟩ := handle_kind hr hn (by decide)
      have := ord q hs rfl (by rintro x v hx; rw [h1] at hx; cases hx; cases h2)
      cases kd <;> cases h2 <;> rw [h1] at ho <;> cases ho
      all_goals
        refine ⟨c.reg.scope (.at p), ?_, fun name => ?_, fun _ => by rw [this], .inl (by rw [this])⟩
        · simp only [options, M.bind_apply, M.get_apply, h1]; rfl
      · exact .inr ⟨a, p, rfl, _, _, _, _, _, h1⟩
      all_goals
        left
        simp only [optionNamed, M.bind_apply, M.get_apply, h1]; rfl
    case enum =>
      cases ho
      have := ord p hs rfl (good_not_enumField (hg _ hn) (.inr rfl))
      exact ⟨c.reg.scope (.at p), rfl, fun name => .inl rfl, fun _ => by rw [this], .inl (by rw [this])⟩
    case enumValue =>
      cases ho
      refine ⟨c.reg.scope (.at p), rfl, fun name => .inl rfl, fun h => absurd rfl (h a p), ?_⟩
      obtain ⟨q', h1, f, hf, h2⟩ := hs
      cases h1
      cases hsc : c.reg.scopes (.at p) with
      | none => right; simp [Reg.scope, hsc]
      | some s' =>
        left
        have hne : p.path ≠ [] := by intro h0; rw [h0] at h2; cases h2
        obtain ⟨f', hf', h2'⟩ := hso.scopes p s' hsc hne
        rw [hf] at hf'
        cases hf'
        rw [h2] at h2'
        cases h2'
        simp [Reg.scope, hsc]
    case service =>
      cases ho
      obtain ⟨kd, h1, h2⟩ := handle_kind hr hn (by decide)
      have := ord p hs rfl (by rintro x v hx; rw [h1] at hx; cases hx; cases h2)
      exact ⟨c.reg.scope (.at p), rfl, fun name => .inl rfl, fun _ => by rw [this], .inl (by rw [this])⟩
    case method =>
      cases ho
      obtain ⟨kd, h1, h2⟩ := handle_kind hr hn (by decide)
      have := ord p hs rfl (by rintro x v hx; rw [h1] at hx; cases hx; cases h2)
      exact ⟨c.reg.scope (.at p), rfl, fun name => .inl rfl, fun _ => by rw [this], .inl (by rw [this])⟩
  | oneof a q =>
    cases ho
    have hk : ∃ nm, c.reg.kind p = some (.oneof nm) := (hg _ hn).2.1
    obtain ⟨nm, hk⟩ := hk
    have := ord p hs rfl (by rintro x v hx; rw [hk] at hx; cases hx)
    exact ⟨c.reg.scope (.at p), rfl, fun name => .inl rfl, fun _ => by rw [this], .inl (by rw [this])⟩
  | option a q x y => cases ho
  | map a q => cases ho
  | repeated a t => cases ho
  | builtin b => cases ho
  | value v => cases ho
  | mapItem k v => cases ho

theorem exact_of_scope {r : Reg} {n : Node} {p cls : Ptr} {s' className : Str}
    (he : options n r = seqOptions s' className p r) (hcl : ClassAt r className cls) :
    OptionsExact r n p s' cls := by
  have e : collectOptions n r = (do let seq ← seqOptions s' className p; seq.collect) r := by
    unfold collectOptions
    simp only [M.bind_apply, he]
  unfold OptionsExact
  rw [e]
  exact seqOptions_exact hcl

theorem exact_iff {r : Reg} {n : Node} {p cls : Ptr} {s s' : Str}
    (h : ∀ x ∈ optionsOf r p, ∀ f, Binds r s' cls x.2 f ↔ Binds r s cls x.2 f) (g : OptionsExact r n p s' cls) :
    OptionsExact r n p s cls := by
  have mono : ∀ (l : List (Ptr × Str)) (ns : List Node), (∀ x ∈ l, ∀ f, Binds r s' cls x.2 f ↔ Binds r s cls x.2 f) →
      Matching (OptionFor r s' cls) l ns → Matching (OptionFor r s cls) l ns := by
    intro l ns hl hm
    induction hm with
    | nil => exact .nil
    | cons h1 _ ih =>
      obtain ⟨a, f, e, hb⟩ := h1
      exact .cons ⟨a, f, e, (hl _ (by simp) f).mp hb⟩ (ih fun y hy => hl y (by simp [hy]))
  refine ⟨fun ns r' hc => mono _ _ h (g.1 ns r' hc), fun hb => g.2 fun x hx => ?_⟩
  obtain ⟨f, hf⟩ := hb x hx
  exact ⟨f, (h x hx f).mpr hf⟩

/-- C45 for all nodes but enum values: `Options` yields one option node per option statement, in order, each bound
    to the field the protobuf rules give, and it succeeds as soon as every name is bound at all. -/
theorem C45_partial {c n p className s cls} (hc : CleanReachable WFFile c) (hn : n ∈ c.pool)
    (ho : optionClassOf c.reg n = some (p, className)) (hs : OptionScope c.reg n s)
    (hcl : ClassAt c.reg className cls) (hne : ∀ a q, n ≠ .wrapped a .enumValue q) :
    OptionsExact c.reg n p s cls := by
  obtain ⟨s', h1, _, h2, _⟩ := options_scope hc hn ho hs
  have hd := h2 hne
  exact exact_iff (fun x _ f => ⟨Binds.scope_congr hd, Binds.scope_congr hd.symm⟩) (exact_of_scope h1 hcl)

/-- C45 for all nodes, enum values included, when no scope but the outermost one declares the names the options
    are written with (so also when they are all absolute). -/
theorem C45_outermost_partial {c n p className s cls} (hc : CleanReachable WFFile c) (hn : n ∈ c.pool)
    (ho : optionClassOf c.reg n = some (p, className)) (hs : OptionScope c.reg n s)
    (hcl : ClassAt c.reg className cls) (hout : ∀ x ∈ optionsOf c.reg p, OutermostOnly c.reg s (optionRef x.2)) :
    OptionsExact c.reg n p s cls := by
  obtain ⟨s', h1, _, _, hd | rfl⟩ := options_scope hc hn ho hs
  · exact exact_iff (fun x _ f => ⟨Binds.scope_congr hd, Binds.scope_congr hd.symm⟩) (exact_of_scope h1 hcl)
  · exact exact_iff (fun x hx f => (outermost_binds (hout x hx)).symm) (exact_of_scope h1 hcl)

/-- Options of a declaration are bound to at most one field. -/
theorem C45_binding_unique {r : Reg} {s cls w f f'} (h : Binds r s cls w f) (g : Binds r s cls w f') : f = f' :=
  h.unique g

/-! ### A world where the promises fail -/

/-- `v.proto`, package `v`, with extensions of the option messages declared in the same package and used by their
    relative names, and a field called like a predefined option. -/
def WV : World := Ex.worldOf [(descriptorPath, Ex.descriptor), (b!"v.proto",
  let f := b!"v.proto"
  [Ex.el f 1 (.packageK b!"v"), Ex.el f 2 (.importK descriptorPath),
   Ex.el f 3 (.message b!"google.protobuf.EnumValueOptions" true) [Ex.fld f 4 b!"note" b!"string" 50001],
   Ex.el f 5 (.message b!"google.protobuf.MessageOptions" true) [Ex.fld f 6 b!"tag" b!"string" 50002],
   Ex.el f 7 (.message b!"google.protobuf.MethodOptions" true) [Ex.fld f 8 b!"rule" b!"string" 50003],
   Ex.el f 9 (.enum b!"E") [Ex.el f 10 (.enumField b!"A" 0) [Ex.el f 10 (.option b!"(note)" (Ex.lit f b!"x"))]],
   Ex.el f 11 (.message b!"M" false)
     [Ex.el f 12 (.option b!"(tag)" (Ex.lit f b!"y")),
      Ex.fld f 13 b!"deprecated" b!"string" 1 false [Ex.el f 13 (.option b!"deprecated" (Ex.lit f b!"true"))],
      Ex.el f 14 (.option b!"(.v.tag)" (Ex.lit f b!"z"))],
   Ex.el f 15 (.service b!"S")
     [Ex.el f 16 (.rpc b!"Do" b!"M" b!"M" false false) [Ex.el f 17 (.option b!"(rule)" (Ex.lit f b!"z"))]]])]

/-- Pool: 0 file, 1 E, 2 A, 3 M, 4 its field, 5 S, 6 Do, 7 and 8 the options of M, 9 that of the field. -/
def opsV : List Op :=
  [.proto WV 5 b!"v.proto", .query 0 (.named .fileEnum b!"E"), .query 1 (.named .enumValue b!"A"),
   .query 0 (.named .fileMessage b!"M"), .query 3 (.iter .messageFields 0), .query 0 (.named .fileService b!"S"),
   .query 5 (.named .serviceMethod b!"Do"), .query 3 (.iter .options 0), .query 3 (.iter .options 1),
   .query 4 (.iter .options 0)]
def cV : Client := Client.exec ⟨(newRegistry WV 5).2, []⟩ opsV

theorem cV_clean : CleanReachable WFFile cV := by
  have hW : WV.Sat WFFile := by
    apply Ex.worldOf_sat
    intro x hx
    apply Ex.wfb_spec
    simp only [List.mem_cons, List.not_mem_nil, or_false] at hx
    rcases hx with rfl | rfl <;> decide +kernel
  refine ⟨WV, 5, _, opsV, hW, Ex.ok_of_okOk (by decide +kernel), ?_, Ex.loadsB_spec (by decide +kernel), rfl⟩
  apply Ex.opsW_sat
  intro op hop W' f p e
  subst e
  simp only [opsV, List.mem_cons, Op.proto.injEq, reduceCtorEq, List.not_mem_nil, or_false] at hop
  rw [hop.1]
  exact hW

theorem declared_intro {r : Reg} {s : Str} {p : Ptr}
    (h : ((r.heap[p.file]?).bind fun f => f.fqn p.path) = some s) : Declared r s p := by
  rw [Option.bind_eq_some_iff] at h
  exact h

/-- C45 is false: the options of enum values are interpreted in the outermost scope, so a relative reference to an
    extension of the own package is not found and the call panics. -/
theorem C45_false : ¬ C45_statement := by
  intro h
  obtain ⟨a, hm⟩ := Ex.hasW_spec (c := cV) (i := 2) (k := .enumValue) (p := ⟨1, [0, 5]⟩) (by decide +kernel)
  have hcl : ClassAt cV.reg b!".google.protobuf.EnumValueOptions" ⟨0, [7]⟩ := ⟨by decide +kernel, _, _, rfl⟩
  have := (h cV cV_clean _ hm ⟨1, [0, 5]⟩ _ b!".v.A" ⟨0, [7]⟩ rfl
    ⟨_, rfl, declared_intro (by decide +kernel)⟩ hcl).2 (by
      intro x hx
      have hx' : x = (⟨1, [0, 0, 5]⟩, b!"(note)") := by
        have e : optionsOf cV.reg ⟨1, [0, 5]⟩ = [(⟨1, [0, 0, 5]⟩, b!"(note)")] := by decide +kernel
        rw [e] at hx
        simpa using hx
      subst hx'
      exact ⟨⟨1, [0, 2]⟩, .inl ⟨resolve_refers (c := b!".v.note") (by decide +kernel) (by decide +kernel),
        _, _, _, _, _, rfl⟩⟩)
  obtain ⟨ns, r', e⟩ := this
  have hp : Ex.isOk (collectOptions (.wrapped a .enumValue ⟨1, [0, 5]⟩) cV.reg).1 = false := by
    show Ex.isOk (collectOptions (.wrapped 0 .enumValue ⟨1, [0, 5]⟩) cV.reg).1 = false
    decide +kernel
  rw [e] at hp
  cases hp

/-! ### C46 -/

/-- C46 as promised: an option written like a field of the descriptor message is bound to that field. -/
def C46_statement : Prop :=
  ∀ c, CleanReachable WFFile c → ∀ n ∈ c.pool, ∀ p className cls, optionClassOf c.reg n = some (p, className) →
    ClassAt c.reg className cls → ∀ w f, FieldNamed c.reg cls w f → ∀ ns r', collectOptions n c.reg = (.ok ns, r') →
    ∀ a q g lit, Node.option a q cls g ∈ ns → c.reg.kind q = some (.option w lit) → g = f

theorem matching_mem {α β} {R : α → β → Prop} {as : List α} {bs : List β} (h : Matching R as bs) :
    ∀ b ∈ bs, ∃ a ∈ as, R a b := by
  induction h with
  | nil => intro b hb; cases hb
  | cons h1 _ ih =>
    intro b hb
    rcases List.mem_cons.mp hb with rfl | hb
    · exact ⟨_, by simp, h1⟩
    · obtain ⟨a, ha, hr⟩ := ih b hb
      exact ⟨a, by simp [ha], hr⟩

theorem optionsOf_kind {r : Reg} {p : Ptr} {x : Ptr × Str} (hx : x ∈ optionsOf r p) :
    ∃ lit, r.kind x.1 = some (.option x.2 lit) := by
  rw [optionsOf_kids, List.mem_filterMap] at hx
  obtain ⟨y, hy, ho⟩ := hx
  have he := kids_elem r p y hy
  unfold optionOf at ho
  split at ho
  · next w l hk =>
    cases ho
    exact ⟨l, by simp [Reg.kind, he, hk]⟩
  · cases ho

/-- C46 when nothing visible from the node has the name: then the option is bound to the field of the descriptor
    message. -/
theorem C46_partial {c n p className s cls} (hc : CleanReachable WFFile c) (hn : n ∈ c.pool)
    (ho : optionClassOf c.reg n = some (p, className)) (hs : OptionScope c.reg n s)
    (hcl : ClassAt c.reg className cls) {w f} (hf : FieldNamed c.reg cls w f)
    (hu : Unresolved c.reg s (optionRef w)) {ns r'} (he : collectOptions n c.reg = (.ok ns, r'))
    {a q g lit} (hm : Node.option a q cls g ∈ ns) (hk : c.reg.kind q = some (.option w lit)) : g = f := by
  obtain ⟨s', h1, _, _, hd⟩ := options_scope hc hn ho hs
  have hu' : Unresolved c.reg s' (optionRef w) := by
    rcases hd with hd | rfl
    · unfold Unresolved at *; rw [hd]; exact hu
    · unfold Unresolved at *
      split at hu
      · next hd => rw [if_pos hd]; exact hu
      · next hd =>
        rw [if_neg hd]
        intro s'' hs''
        have : s'' = [] := by
          rcases hs'' with h | ⟨t, h⟩
          · exact h
          · exact absurd h.symm (by simp [dotted])
        subst this
        exact hu [] (encloses_nil_of_dotted (isDotted_dotted s))
  obtain ⟨x, hx, a', f', e, hb⟩ := matching_mem ((exact_of_scope h1 hcl).1 ns r' he) _ hm
  cases e
  obtain ⟨lit', hk'⟩ := optionsOf_kind hx
  rw [hk] at hk'
  cases hk'
  exact hb.unique (.inr ⟨hu', hf⟩)

/-- The field of the first option of an enumeration. -/
def firstField : Res (List Node) → Option Ptr
  | .ok (.option _ _ _ f :: _) => some f
  | _ => none

/-- C46 is false: `[deprecated = true]` on a message that has a field called `deprecated` is bound to that field. -/
theorem C46_false : ¬ C46_statement := by
  intro h
  obtain ⟨a, hm⟩ := Ex.hasW_spec (c := cV) (i := 4) (k := .messageField) (p := ⟨1, [1, 6]⟩) (by decide +kernel)
  have hcl : ClassAt cV.reg b!".google.protobuf.FieldOptions" ⟨0, [4]⟩ := ⟨by decide +kernel, _, _, rfl⟩
  have hf : FieldNamed cV.reg ⟨0, [4]⟩ b!"deprecated" ⟨0, [0, 4]⟩ :=
    builtin_named.mp (by decide +kernel)
  rcases hr : collectOptions (.wrapped a .messageField ⟨1, [1, 6]⟩) cV.reg with ⟨res, r'⟩
  have key : firstField (collectOptions (.wrapped a .messageField ⟨1, [1, 6]⟩) cV.reg).1 = some ⟨1, [1, 6]⟩ := by
    show firstField (collectOptions (.wrapped 0 .messageField ⟨1, [1, 6]⟩) cV.reg).1 = some ⟨1, [1, 6]⟩
    decide +kernel
  rw [hr] at key
  unfold firstField at key
  split at key
  · next b q cls g rest he =>
    cases key
    have he : res = .ok (.option b q cls ⟨1, [1, 6]⟩ :: rest) := he
    subst he
    obtain ⟨x, hx, a', f', e, hb⟩ := matching_mem ((C45_partial cV_clean hm rfl (s := b!".v.M.deprecated")
      ⟨_, rfl, declared_intro (by decide +kernel)⟩ hcl (by intro _ _ h; cases h)).1 _ _ hr) _ (List.mem_cons_self)
    cases e
    have hx' : x = (⟨1, [0, 1, 6]⟩, b!"deprecated") := by
      have e : optionsOf cV.reg ⟨1, [1, 6]⟩ = [(⟨1, [0, 1, 6]⟩, b!"deprecated")] := by decide +kernel
      rw [e] at hx
      simpa using hx
    subst hx'
    have := h cV cV_clean _ hm _ _ _ rfl hcl _ _ hf _ _ hr _ _ _ _ (List.mem_cons_self) rfl
    exact absurd this (by decide)
  · cases key

/-- Non-vacuity of C45_partial and C46_partial: the two options of the message M of the example, and the
    predefined option of the field `n` of `p.q.M`. -/
example : ∃ a r' ns, Node.wrapped a .message ⟨1, [6]⟩ ∈ cV.pool ∧
    collectOptions (.wrapped a .message ⟨1, [6]⟩) cV.reg = (.ok ns, r') ∧ ns.length = 2 ∧
    Matching (OptionFor cV.reg b!".v.M" ⟨0, [3]⟩) [(⟨1, [0, 6]⟩, b!"(tag)"), (⟨1, [2, 6]⟩, b!"(.v.tag)")] ns := by
  obtain ⟨a, hm⟩ := Ex.hasW_spec (c := cV) (i := 3) (k := .message) (p := ⟨1, [6]⟩) (by decide +kernel)
  have hcl : ClassAt cV.reg b!".google.protobuf.MessageOptions" ⟨0, [3]⟩ := ⟨by decide +kernel, _, _, rfl⟩
  have hx := C45_partial cV_clean hm rfl (s := b!".v.M") ⟨_, rfl, declared_intro (by decide +kernel)⟩ hcl
    (by intro _ _ h; cases h)
  have e : optionsOf cV.reg ⟨1, [6]⟩ = [(⟨1, [0, 6]⟩, b!"(tag)"), (⟨1, [2, 6]⟩, b!"(.v.tag)")] := by decide +kernel
  unfold OptionsExact at hx
  rw [e] at hx
  obtain ⟨ns, r', h⟩ := hx.2 (by
    intro x hx
    refine ⟨⟨1, [0, 3]⟩, .inl ⟨?_, _, _, _, _, _, rfl⟩⟩
    simp only [List.mem_cons, List.not_mem_nil, or_false] at hx
    rcases hx with rfl | rfl
    · exact resolve_refers (c := b!".v.tag") (by decide +kernel) (by decide +kernel)
    · exact resolve_refers (c := b!".v.tag") (by decide +kernel) (by decide +kernel))
  have hM := hx.1 ns r' h
  refine ⟨a, r', ns, hm, h, ?_, hM⟩
  cases hM with | cons _ h2 => cases h2 with | cons _ h3 => cases h3; rfl

example : ∃ a r' ns b, Node.wrapped a .messageField ⟨1, [1, 4]⟩ ∈ Ex.c2.pool ∧
    collectOptions (.wrapped a .messageField ⟨1, [1, 4]⟩) Ex.c2.reg = (.ok ns, r') ∧
    Node.option b ⟨1, [0, 1, 4]⟩ ⟨0, [4]⟩ ⟨0, [0, 4]⟩ ∈ ns ∧
    FieldNamed Ex.c2.reg ⟨0, [4]⟩ b!"deprecated" ⟨0, [0, 4]⟩ ∧
    Unresolved Ex.c2.reg b!".p.q.M.n" (optionRef b!"deprecated") := by
  obtain ⟨a, hm⟩ := Ex.hasW_spec (c := Ex.c2) (i := 3) (k := .messageField) (p := ⟨1, [1, 4]⟩) (by decide +kernel)
  have hcl : ClassAt Ex.c2.reg b!".google.protobuf.FieldOptions" ⟨0, [4]⟩ := ⟨by decide +kernel, _, _, rfl⟩
  have hu : Unresolved Ex.c2.reg b!".p.q.M.n" (optionRef b!"deprecated") :=
    unresolved_iff.mpr (by decide +kernel)
  have hf : FieldNamed Ex.c2.reg ⟨0, [4]⟩ b!"deprecated" ⟨0, [0, 4]⟩ := builtin_named.mp (by decide +kernel)
  have hx := C45_partial Ex.c2_clean hm rfl (s := b!".p.q.M.n") ⟨_, rfl, declared_intro (by decide +kernel)⟩ hcl
    (by intro _ _ h; cases h)
  have e : optionsOf Ex.c2.reg ⟨1, [1, 4]⟩ = [(⟨1, [0, 1, 4]⟩, b!"deprecated")] := by decide +kernel
  unfold OptionsExact at hx
  rw [e] at hx
  obtain ⟨ns, r', h⟩ := hx.2 (by
    intro x hx
    simp only [List.mem_cons, List.not_mem_nil, or_false] at hx
    subst hx
    exact ⟨_, .inr ⟨hu, hf⟩⟩)
  have hM := hx.1 ns r' h
  cases hM with | cons h1 h2 =>
  obtain ⟨b, f, rfl, hb⟩ := h1
  have : f = ⟨0, [0, 4]⟩ := hb.unique (.inr ⟨hu, hf⟩)
  subst this
  exact ⟨a, r', _, b, hm, h, by simp, hf, hu⟩

/-! ### C47 -/

/-- C47 as promised in the README. -/
def C47_statement : Prop :=
  ∀ c, CleanReachable WFFile c → ∀ n ∈ c.pool, ∀ p className cls, optionClassOf c.reg n = some (p, className) →
    ClassAt c.reg className cls → ∀ os r', collectOptions n c.reg = (.ok os, r') → ∀ name,
    ∃ res r2, optionNamed n name c.reg = (.ok res, r2) ∧ FirstNamed c.reg os name res

/-- What a lookup found. -/
def foundNone : Res (Option Node) → Bool
  | .ok none => true
  | _ => false

/-- C47 is false: the name is compared with the spelling in the source, parentheses included, so the fully
    qualified name finds nothing. -/
theorem C47_false : ¬ C47_statement := by
  intro h
  obtain ⟨a, hm⟩ := Ex.hasW_spec (c := cV) (i := 3) (k := .message) (p := ⟨1, [6]⟩) (by decide +kernel)
  have hcl : ClassAt cV.reg b!".google.protobuf.MessageOptions" ⟨0, [3]⟩ := ⟨by decide +kernel, _, _, rfl⟩
  rcases hr : collectOptions (.wrapped a .message ⟨1, [6]⟩) cV.reg with ⟨res, r'⟩
  have key : firstField (collectOptions (.wrapped a .message ⟨1, [6]⟩) cV.reg).1 = some ⟨1, [0, 3]⟩ := by
    show firstField (collectOptions (.wrapped 0 .message ⟨1, [6]⟩) cV.reg).1 = some ⟨1, [0, 3]⟩
    decide +kernel
  rw [hr] at key
  unfold firstField at key
  split at key
  · next b q cls g rest he =>
    cases key
    have he : res = .ok (.option b q cls ⟨1, [0, 3]⟩ :: rest) := he
    subst he
    obtain ⟨res, r2, h1, h2⟩ := h cV cV_clean _ hm _ _ _ rfl hcl _ _ hr b!".v.tag"
    have hp : foundNone (optionNamed (.wrapped a .message ⟨1, [6]⟩) b!".v.tag" cV.reg).1 = true := by
      show foundNone (optionNamed (.wrapped 0 .message ⟨1, [6]⟩) b!".v.tag" cV.reg).1 = true
      decide +kernel
    rw [h1] at hp
    unfold foundNone at hp
    split at hp
    · next he =>
      cases he
      rcases h2 with ⟨_, h2⟩ | ⟨_, _, _, _, _, _, h2, _⟩
      · exact h2 _ (List.mem_cons_self) _ _ rfl (declared_intro (by decide +kernel))
      · cases h2
    · cases hp
  · cases key

/-- For a normal field `OptionNamed` always panics. -/
theorem C47_normal_field_panics {r : Reg} {a p x b d g i} (hk : r.kind p = some (.normalField x b d g i))
    (name : Str) : optionNamed (.wrapped a .messageField p) name r = (.panic .unsupportedNode, r) := by
  simp only [optionNamed, M.bind_apply, M.get_apply, hk, M.panic_apply]

/-- The predicate of the loop in `namedOption`. -/
def isOptionCalled (name : Str) (k : Kind) : Bool :=
  match k with
  | .option n _ => n == name
  | _ => false

theorem find_option {r : Reg} {p : Ptr} (name : Str) :
    (r.kids p).find? (fun x => isOptionCalled name x.2.kind) =
      (r.kids p).find? (fun x => optionOf x == some (x.1, name)) := by
  apply find_congr
  rintro ⟨q, e⟩ _
  unfold optionOf isOptionCalled
  simp only
  cases hk : e.kind
  case option w l =>
    simp only
    rw [Bool.eq_iff_iff, beq_iff_eq, beq_iff_eq]
    simp
  all_goals rfl

theorem namedOption_eq {r : Reg} {name s className : Str} {cls p : Ptr} (hcl : ClassAt r className cls) :
    namedOption name s className p r =
      match (r.kids p).find? (fun x => optionOf x == some (x.1, name)) with
      | some (q, _) => (do let o ← newOption s cls q; (pure (some o) : M (Option Node))) r
      | none => (.ok none, r) := by
  have e : namedOption name s className p r =
      (match (r.kids p).find? (fun (x : Ptr × Elem) => isOptionCalled name x.2.kind) with
        | some (q, _) => do let o ← newOption s cls q; (pure (some o) : M (Option Node))
        | none => pure none) r := by
    unfold namedOption
    simp only [M.bind_apply, optionClass_ok hcl, M.get_apply]
    rfl
  rw [e, find_option]
  cases (r.kids p).find? (fun x => optionOf x == some (x.1, name)) <;> rfl

theorem first_option {name : Str} : ∀ (l : List (Ptr × Elem)) (pre post : List (Ptr × Str)) (x : Ptr × Str),
    l.filterMap optionOf = pre ++ x :: post → x.2 = name → (∀ y ∈ pre, y.2 ≠ name) →
    ∃ e, l.find? (fun x => optionOf x == some (x.1, name)) = some (x.1, e) ∧ (x.1, e) ∈ l ∧
      optionOf (x.1, e) = some (x.1, name) := by
  intro l
  induction l with
  | nil => intro pre post x h; simp at h
  | cons y l ih =>
    intro pre post x h hx hpre
    rw [List.filterMap_cons] at h
    rw [List.find?_cons]
    cases ho : optionOf y with
    | none =>
      rw [ho] at h
      obtain ⟨e, h1, h2, h3⟩ := ih pre post x h hx hpre
      simp only [Option.none_beq_some]
      exact ⟨e, h1, List.mem_cons_of_mem _ h2, h3⟩
    | some z =>
      rw [ho] at h
      have hz : z.1 = y.1 := by
        unfold optionOf at ho
        split at ho
        · cases ho; rfl
        · cases ho
      cases pre with
      | nil =>
        simp only [List.nil_append, List.cons.injEq] at h
        obtain ⟨rfl, _⟩ := h
        have : (z : Ptr × Str) = (y.1, name) := by
          rcases z with ⟨z1, z2⟩
          simp only at hz hx
          rw [hz, hx]
        rw [this] at ho ⊢
        refine ⟨y.2, ?_, by simp, ho⟩
        simp
      | cons u pre =>
        simp only [List.cons_append, List.cons.injEq] at h
        obtain ⟨rfl, h⟩ := h
        have hne : (z == (y.1, name)) = false := by
          rw [beq_eq_false_iff_ne]
          rintro rfl
          exact hpre (y.1, name) (by simp) rfl
        have hne' : (some z == some (y.1, name)) = false := by
          rw [beq_eq_false_iff_ne]
          rw [beq_eq_false_iff_ne] at hne
          intro h; cases h; exact hne rfl
        rw [hne']
        obtain ⟨e, h1, h2, h3⟩ := ih pre post x h hx fun y hy => hpre y (by simp [hy])
        exact ⟨e, h1, List.mem_cons_of_mem _ h2, h3⟩

/-- C47 for the spelling of the source and all nodes but normal fields and enum values: `OptionNamed` returns the
    first option statement written exactly like `name`, bound by the protobuf rules, and nil if there is none. -/
theorem C47_partial {c n p className s cls} (hc : CleanReachable WFFile c) (hn : n ∈ c.pool)
    (ho : optionClassOf c.reg n = some (p, className)) (hs : OptionScope c.reg n s)
    (hcl : ClassAt c.reg className cls) (hne : ∀ a q, n ≠ .wrapped a .enumValue q)
    (hnf : ∀ x b d g i, c.reg.kind p ≠ some (.normalField x b d g i)) (name : Str) :
    ((∀ x ∈ optionsOf c.reg p, x.2 ≠ name) → optionNamed n name c.reg = (.ok none, c.reg)) ∧
    (∀ pre x post f, optionsOf c.reg p = pre ++ x :: post → x.2 = name → (∀ y ∈ pre, y.2 ≠ name) →
      Binds c.reg s cls name f → ∃ a r', optionNamed n name c.reg = (.ok (some (.option a x.1 cls f)), r')) := by
  obtain ⟨s', _, h2, hd, _⟩ := options_scope hc hn ho hs
  have hd := hd hne
  have he : optionNamed n name c.reg = namedOption name s' className p c.reg := by
    rcases h2 name with h | ⟨a, q, rfl, x, b, d, g, i, hk⟩
    · exact h
    · simp only [optionClassOf, hk] at ho
      cases ho
      exact absurd hk (hnf _ _ _ _ _)
  rw [he, namedOption_eq hcl]
  constructor
  · intro h
    have : (c.reg.kids p).find? (fun x => optionOf x == some (x.1, name)) = none := by
      rw [List.find?_eq_none]
      intro x hx ho
      rw [beq_iff_eq] at ho
      exact h (x.1, name) (by rw [optionsOf_kids, List.mem_filterMap]; exact ⟨x, hx, ho⟩) rfl
    rw [this]
  · intro pre x post f hp hx hpre hb
    rw [optionsOf_kids] at hp
    obtain ⟨e, h1, h2, h3⟩ := first_option _ pre post x hp hx hpre
    rw [h1]
    have hel := kids_elem _ _ _ h2
    simp only at hel
    have hk : ∃ l, c.reg.kind x.1 = some (.option name l) := by
      unfold optionOf at h3
      split at h3
      · next w l hw => cases h3; exact ⟨l, by simp only [Reg.kind, hel, Option.map_some, hw]⟩
      · cases h3
    obtain ⟨l, hk⟩ := hk
    simp only [M.bind_apply, newOption_binds hk (hb.scope_congr hd.symm), M.pure_apply]
    exact ⟨_, _, rfl⟩

/-- Non-vacuity of C47_partial: the second option of M is found by its spelling. -/
example : ∃ a b r', Node.wrapped a .message ⟨1, [6]⟩ ∈ cV.pool ∧
    optionNamed (.wrapped a .message ⟨1, [6]⟩) b!"(.v.tag)" cV.reg =
      (.ok (some (.option b ⟨1, [2, 6]⟩ ⟨0, [3]⟩ ⟨1, [0, 3]⟩)), r') := by
  obtain ⟨a, hm⟩ := Ex.hasW_spec (c := cV) (i := 3) (k := .message) (p := ⟨1, [6]⟩) (by decide +kernel)
  have hcl : ClassAt cV.reg b!".google.protobuf.MessageOptions" ⟨0, [3]⟩ := ⟨by decide +kernel, _, _, rfl⟩
  have e : optionsOf cV.reg ⟨1, [6]⟩ = [(⟨1, [0, 6]⟩, b!"(tag)")] ++ (⟨1, [2, 6]⟩, b!"(.v.tag)") :: [] := by
    decide +kernel
  obtain ⟨b, r', h⟩ := (C47_partial cV_clean hm rfl (s := b!".v.M") ⟨_, rfl, declared_intro (by decide +kernel)⟩ hcl
    (by intro _ _ h; cases h) (by intro _ _ _ _ _ h; cases h) b!"(.v.tag)").2 _ _ _ ⟨1, [0, 3]⟩ e rfl (by
      intro y hy
      simp only [List.mem_singleton] at hy
      subst hy
      decide)
    (.inl ⟨resolve_refers (c := b!".v.tag") (by decide +kernel) (by decide +kernel), _, _, _, _, _, rfl⟩)
  exact ⟨a, b, r', hm, h⟩

/-! ### C48 -/

/-- `slices.Collect` of the other ways to the options of a node: `Everything` and `Method.Options`. -/
def otherRoute : Node → Option (M (List Node))
  | .wrapped _ .method p => some (Method.options p).collect
  | n => (everythingOf n).map fun x => do let ns ← x.1.collect; pure (ns.filterMap id)

/-- The nodes of the object at `p` other than options have node types. -/
def Supported (r : Reg) (p : Ptr) : Prop :=
  ∀ e ∈ (r.children p).getD [], e.kind.hasNode = true ∨ ∃ w l, e.kind = .option w l

/-- C48 as promised. -/
def C48_statement : Prop :=
  ∀ c, CleanReachable WFFile c → ∀ n ∈ c.pool, ∀ p className cls, optionClassOf c.reg n = some (p, className) →
    ClassAt c.reg className cls → Supported c.reg p → ∀ ms r', collectOptions n c.reg = (.ok ms, r') →
    ∀ other, otherRoute n = some other → ∃ ns r2, other c.reg = (.ok ns, r2) ∧ SameOptions ns ms

/-- C48 is false: `Everything` and `Method.Options` interpret the names in the outermost scope and panic where
    `Options` finds the extension. -/
theorem C48_false : ¬ C48_statement := by
  intro h
  obtain ⟨a, hm⟩ := Ex.hasW_spec (c := cV) (i := 6) (k := .method) (p := ⟨1, [0, 7]⟩) (by decide +kernel)
  have hcl : ClassAt cV.reg b!".google.protobuf.MethodOptions" ⟨0, [9]⟩ := ⟨by decide +kernel, _, _, rfl⟩
  rcases hr : collectOptions (.wrapped a .method ⟨1, [0, 7]⟩) cV.reg with ⟨res, r'⟩
  have key : Ex.isOk (collectOptions (.wrapped a .method ⟨1, [0, 7]⟩) cV.reg).1 = true := by
    show Ex.isOk (collectOptions (.wrapped 0 .method ⟨1, [0, 7]⟩) cV.reg).1 = true
    decide +kernel
  rw [hr] at key
  cases res with
  | panic e => cases key
  | timeout => cases key
  | ok ms =>
  obtain ⟨ns, r2, he, _⟩ := h cV cV_clean _ hm _ _ _ rfl hcl (by
    intro e he
    have : (((cV.reg.children ⟨1, [0, 7]⟩).getD []).all fun e => match e.kind with
      | .option _ _ => true
      | _ => false) = true := by decide +kernel
    have := (List.all_eq_true.mp this) e he
    right
    cases hk : e.kind <;> rw [hk] at this <;> first | exact ⟨_, _, rfl⟩ | cases this) _ _ hr _ rfl
  have hp : Ex.isOk ((Method.options ⟨1, [0, 7]⟩).collect cV.reg).1 = false := by decide +kernel
  rw [he] at hp
  cases hp

/-- The same for `Everything` of the message M. -/
theorem C48_everything_panics : ∃ a, Node.wrapped a .message ⟨1, [6]⟩ ∈ cV.pool ∧
    Ex.isOk (collectOptions (.wrapped a .message ⟨1, [6]⟩) cV.reg).1 = true ∧
    Ex.isOk ((Message.everything ⟨1, [6]⟩).collect cV.reg).1 = false := by
  obtain ⟨a, hm⟩ := Ex.hasW_spec (c := cV) (i := 3) (k := .message) (p := ⟨1, [6]⟩) (by decide +kernel)
  refine ⟨a, hm, ?_, by decide +kernel⟩
  show Ex.isOk (collectOptions (.wrapped 0 .message ⟨1, [6]⟩) cV.reg).1 = true
  decide +kernel

theorem matching_total {α β} {R : α → β → Prop} {as : List α} {bs : List β} (h : Matching R as bs) :
    ∀ a ∈ as, ∃ b ∈ bs, R a b := by
  induction h with
  | nil => intro b hb; cases hb
  | cons h1 _ ih =>
    intro b hb
    rcases List.mem_cons.mp hb with rfl | hb
    · exact ⟨_, by simp, h1⟩
    · obtain ⟨a, ha, hr⟩ := ih b hb
      exact ⟨a, by simp [ha], hr⟩

/-- C48 when no scope but the outermost one declares the names the options are written with (so also for absolute
    names): every route gives the same options with the same fields. -/
theorem C48_partial {c n p className s cls} (hc : CleanReachable WFFile c) (hn : n ∈ c.pool)
    (ho : optionClassOf c.reg n = some (p, className)) (hs : OptionScope c.reg n s)
    (hcl : ClassAt c.reg className cls) (hsup : Supported c.reg p)
    (hout : ∀ x ∈ optionsOf c.reg p, OutermostOnly c.reg s (optionRef x.2)) {ms r'}
    (hm : collectOptions n c.reg = (.ok ms, r')) {other} (hot : otherRoute n = some other) :
    ∃ ns r2, other c.reg = (.ok ns, r2) ∧ SameOptions ns ms := by
  have hr := clean_reachable hc
  have hso := reachable_sound hr
  obtain ⟨o, hi, hg⟩ := reachable_inv hr
  have hM := (C45_outermost_partial hc hn ho hs hcl hout).1 ms r' hm
  have hall : ∀ x ∈ optionsOf c.reg p, ∃ f, Binds c.reg [] cls x.2 f := by
    intro x hx
    obtain ⟨b, _, a, f, _, hb⟩ := matching_total hM x hx
    exact ⟨f, (outermost_binds (hout x hx)).mp hb⟩
  have every : ∀ (seq : Seq (Option Node)), Rooted c.reg p → seq = overKids p (everythingStep className) →
      ∃ ns r2, (do let ns ← seq.collect; pure (ns.filterMap id) : M (List Node)) c.reg = (.ok ns, r2) ∧
        SameOptions ns ms := by
    rintro seq hroot rfl
    have hrep : ∀ x ∈ c.reg.kids p, Representable c.reg className x.2 := by
      intro x hx
      have hx' := hx
      rw [kids_zipIdx, List.mem_map] at hx'
      obtain ⟨⟨e, i⟩, h1, rfl⟩ := hx'
      rcases hsup e (List.fst_mem_of_mem_zipIdx h1) with h | ⟨w, l, hk⟩
      · exact .inl h
      · have ho : optionOf (p.child i, e) = some (p.child i, w) := by simp [optionOf, hk]
        obtain ⟨f, hf⟩ := hall (p.child i, w) (by rw [optionsOf_kids, List.mem_filterMap]; exact ⟨_, hx, ho⟩)
        exact .inr ⟨w, l, cls, f, hk, hcl, hf⟩
    obtain ⟨ns, r2, h1, h2⟩ := everything_collect_fields _ hi hso hcl (present_kids hroot) hrep
    obtain ⟨ms', h3, h4⟩ := every_options h2
    rw [← optionsOf_kids] at h3
    refine ⟨ns.filterMap id, r2, ?_, ?_⟩
    · simp only [Seq.collect, M.bind_apply, overKids_apply]
      rw [h1]
      rfl
    · unfold SameOptions at *
      rw [h4]
      exact same_options h3 hM fun x hx f => (outermost_binds (hout x hx)).symm
  cases n with
  | wrapped a k q =>
    have hroot : Rooted c.reg q := GoodW.rooted (hg _ hn)
    cases k <;> simp only [optionClassOf, reduceCtorEq] at ho <;>
      simp only [otherRoute, everythingOf, Option.map_some, Option.map_none, reduceCtorEq, Option.some.injEq] at hot
    case method =>
      subst hot
      cases ho
      have hit := iterate_options (p := p) (picks_wrap hso hcl)
      obtain ⟨ns, r2, he⟩ := hit.2 hall
      exact ⟨ns, r2, he, same_options (hit.1 _ _ he) hM fun x hx f => (outermost_binds (hout x hx)).symm⟩
    all_goals
      subst hot
      cases ho
      exact every _ hroot rfl
  | _ => cases hot

/-- Non-vacuity of C48_partial: an option with a predefined name, on the enum of a small world (the outermost scope
    declares nothing of that name), reached through `Everything`. -/
def WD : World := Ex.worldOf [(descriptorPath, Ex.descriptor), (b!"d.proto",
  let f := b!"d.proto"
  [Ex.el f 1 (.packageK b!"d"), Ex.el f 3 (.message b!"google.protobuf.EnumOptions" true)
     [Ex.fld f 4 b!"mark" b!"string" 50001],
   Ex.el f 9 (.enum b!"E") [Ex.el f 10 (.option b!"allow_alias" (Ex.lit f b!"true")),
     Ex.el f 11 (.option b!"(.d.mark)" (Ex.lit f b!"x")),
     Ex.el f 12 (.enumField b!"A" 0)]])]
def opsD : List Op := [.proto WD 5 b!"d.proto", .query 0 (.named .fileEnum b!"E")]
def cD : Client := Client.exec ⟨(newRegistry WD 5).2, []⟩ opsD

theorem cD_clean : CleanReachable WFFile cD := by
  have hW : WD.Sat WFFile := by
    apply Ex.worldOf_sat
    intro x hx
    apply Ex.wfb_spec
    simp only [List.mem_cons, List.not_mem_nil, or_false] at hx
    rcases hx with rfl | rfl <;> decide +kernel
  refine ⟨WD, 5, _, opsD, hW, Ex.ok_of_okOk (by decide +kernel), ?_, Ex.loadsB_spec (by decide +kernel), rfl⟩
  apply Ex.opsW_sat
  intro op hop W' f p e
  subst e
  simp only [opsD, List.mem_cons, Op.proto.injEq, reduceCtorEq, List.not_mem_nil, or_false] at hop
  rw [hop.1]
  exact hW

example : ∃ a ms r' other, Node.wrapped a .enum ⟨1, [2]⟩ ∈ cD.pool ∧ Supported cD.reg ⟨1, [2]⟩ ∧
    (∀ x ∈ optionsOf cD.reg ⟨1, [2]⟩, OutermostOnly cD.reg b!".d.E" (optionRef x.2)) ∧
    optionsOf cD.reg ⟨1, [2]⟩ ≠ [] ∧ OptionScope cD.reg (.wrapped a .enum ⟨1, [2]⟩) b!".d.E" ∧
    ClassAt cD.reg b!".google.protobuf.EnumOptions" ⟨0, [6]⟩ ∧
    collectOptions (.wrapped a .enum ⟨1, [2]⟩) cD.reg = (.ok ms, r') ∧
    otherRoute (.wrapped a .enum ⟨1, [2]⟩) = some other := by
  obtain ⟨a, hm⟩ := Ex.hasW_spec (c := cD) (i := 1) (k := .enum) (p := ⟨1, [2]⟩) (by decide +kernel)
  have hcl : ClassAt cD.reg b!".google.protobuf.EnumOptions" ⟨0, [6]⟩ := ⟨by decide +kernel, _, _, rfl⟩
  have hs : OptionScope cD.reg (.wrapped a .enum ⟨1, [2]⟩) b!".d.E" := ⟨_, rfl, declared_intro (by decide +kernel)⟩
  have e : optionsOf cD.reg ⟨1, [2]⟩ = [(⟨1, [0, 2]⟩, b!"allow_alias"), (⟨1, [1, 2]⟩, b!"(.d.mark)")] := by
    decide +kernel
  have hall : ∀ x ∈ optionsOf cD.reg ⟨1, [2]⟩, ∃ f, Binds cD.reg b!".d.E" ⟨0, [6]⟩ x.2 f := by
    intro x hx
    rw [e] at hx
    simp only [List.mem_cons, List.not_mem_nil, or_false] at hx
    rcases hx with rfl | rfl
    · exact ⟨⟨0, [0, 6]⟩, .inr ⟨unresolved_iff.mpr (by decide +kernel), builtin_named.mp (by decide +kernel)⟩⟩
    · exact ⟨⟨1, [0, 1]⟩, .inl ⟨resolve_refers (c := b!".d.mark") (by decide +kernel) (by decide +kernel),
        _, _, _, _, _, rfl⟩⟩
  obtain ⟨ms, r', h⟩ := (C45_partial cD_clean hm rfl hs hcl (by intro _ _ h; cases h)).2 hall
  refine ⟨a, ms, r', _, hm, ?_, ?_, by rw [e]; simp, hs, hcl, h, rfl⟩
  · intro e' he'
    have : (((cD.reg.children ⟨1, [2]⟩).getD []).all fun e => match e.kind with
      | .option _ _ => true
      | k => k.hasNode) = true := by decide +kernel
    have := (List.all_eq_true.mp this) e' he'
    cases hk : e'.kind <;> rw [hk] at this <;> first | exact .inr ⟨_, _, rfl⟩ | exact .inl this
  · intro x hx
    rw [e] at hx
    simp only [List.mem_cons, List.not_mem_nil, or_false] at hx
    rcases hx with rfl | rfl
    · right
      have hu : Unresolved cD.reg b!".d.E" b!"allow_alias" := unresolved_iff.mpr (by decide +kernel)
      have hu : ∀ s', Encloses s' (dotted b!".d.E") → cD.reg.registry (s' ++ dot :: b!"allow_alias") = none := hu
      exact fun s' hs _ => hu s' hs
    · left; decide

/-! ### C60 -/

/-- C60: `Is(name)` of an option answers whether `name` is the fully qualified name of its field. -/
theorem C60_is {c a q cls f s} (hc : CleanReachable WFFile c) (ho : Node.option a q cls f ∈ c.pool)
    (hd : Declared c.reg s f) (name : Str) :
    ∃ b r', Option.is f name c.reg = (.ok b, r') ∧ (b = true ↔ name = s) := by
  obtain ⟨o, hi, hg⟩ := reachable_inv (clean_reachable hc)
  obtain ⟨_, _, _, ⟨n, t, v, rep, opt, hk⟩, hu⟩ := hg _ ho
  have ht := target_of_kind hk (k := .messageField) rfl
  obtain ⟨a', o', r', hw, hx, hi', _⟩ := wrap_full hi ht hu
  have hce : CacheExt c.reg r' := by
    have := RO.wrap (.at f) c.reg
    rw [hw] at this; exact this
  have hk' : r'.kind f = some (.normalField n t v rep opt) := by
    simp only [Reg.kind, Reg.elem, hce.heap] at hk ⊢; exact hk
  have hsc : r'.scope (.at f) = s := by
    have := scope_declared hc hd (by rintro x y h; rw [hk] at h; cases h)
    unfold Reg.scope at *
    rw [hce.scopes]; exact this
  refine ⟨s == name, r', ?_, ?_⟩
  · unfold Option.is
    simp only [M.bind_apply, hw, nodeIndex, M.get_apply, hk', hsc, M.pure_apply]
  · rw [beq_iff_eq, eq_comm]

/-- C60, the name exists: the field an option is bound to is a declaration with a fully qualified name, so
    exactly one name answers yes. -/
theorem C60_has_name {c s className cls w f} (hc : CleanReachable WFFile c) (hcl : ClassAt c.reg className cls)
    (hb : Binds c.reg s cls w f) : ∃ nm, Declared c.reg nm f := by
  have hso := reachable_sound (clean_reachable hc)
  rcases hb with ⟨hr, _⟩ | ⟨_, es, i, e, b, cc, d, g, hch, rfl, hes, hk, _⟩
  · obtain ⟨x, _, h⟩ := refers_resolve hr
    exact ⟨x, hso.names _ _ h⟩
  · obtain ⟨fo, hf, hq⟩ := hso.names _ _ hcl.1
    obtain ⟨nm, ext, hkc⟩ := hcl.2
    have hp : cls.path ≠ [] := by intro h0; rw [h0] at hq; cases hq
    obtain ⟨j, rest, hpath⟩ : ∃ j rest, cls.path = j :: rest := by
      cases h : cls.path with
      | nil => exact absurd h hp
      | cons j rest => exact ⟨j, rest, rfl⟩
    unfold Reg.kind at hkc
    rw [Option.map_eq_some_iff] at hkc
    obtain ⟨ec, h1, h2⟩ := hkc
    have hel : fo.elemAt (j :: rest) = some ec := by
      unfold Reg.elem at h1
      rw [hf, hpath] at h1
      exact h1
    rw [hpath] at hq
    unfold ProtoFile.fqn at hq
    simp only at hq
    cases hsc : fo.scopeAt rest with
    | none => rw [hsc] at hq; simp at hq
    | some sc =>
      rw [hsc, hel] at hq
      simp only [Option.bind_some, h2] at hq
      have hext : ext = false := by cases ext <;> simp [Kind.declName] at hq ⊢
      subst hext
      have hsc2 : fo.scopeAt cls.path = some (sc ++ dot :: nm) := by
        rw [hpath]
        unfold ProtoFile.scopeAt
        simp only [hsc, hel, h2, Kind.memberScope]
      have hel2 : fo.elemAt (i :: cls.path) = some e := by
        unfold Reg.children at hch
        rw [hf] at hch
        simp only [Option.bind_some] at hch
        simp only [ProtoFile.elemAt, hch, Option.bind_some, hes]
      refine ⟨(sc ++ dot :: nm) ++ dot :: w, fo, hf, ?_⟩
      unfold ProtoFile.fqn
      simp only [hsc2, hel2, Option.bind_some, hk, Kind.declName]

/-- A handle of an option. -/
def hasOpt (c : Client) (i : Nat) (q cls f : Ptr) : Bool :=
  match c.pool[i]? with
  | some (.option _ q' cls' f') => decide (q' = q ∧ cls' = cls ∧ f' = f)
  | _ => false

theorem hasOpt_spec {c i q cls f} (h : hasOpt c i q cls f = true) : ∃ a, Node.option a q cls f ∈ c.pool := by
  unfold hasOpt at h
  split at h
  · next a q' cls' f' hx =>
    rw [decide_eq_true_eq] at h
    obtain ⟨rfl, rfl, rfl⟩ := h
    exact ⟨a, List.mem_of_getElem? hx⟩
  · cases h

/-- Non-vacuity of C60. -/
example : ∃ a b r' b' r'', Node.option a ⟨1, [0, 6]⟩ ⟨0, [3]⟩ ⟨1, [0, 3]⟩ ∈ cV.pool ∧
    Option.is ⟨1, [0, 3]⟩ b!".v.tag" cV.reg = (.ok b, r') ∧ b = true ∧
    Option.is ⟨1, [0, 3]⟩ b!".v.rule" cV.reg = (.ok b', r'') ∧ b' ≠ true := by
  obtain ⟨a, hm⟩ := hasOpt_spec (c := cV) (i := 7) (q := ⟨1, [0, 6]⟩) (cls := ⟨0, [3]⟩) (f := ⟨1, [0, 3]⟩)
    (by decide +kernel)
  have hd : Declared cV.reg b!".v.tag" ⟨1, [0, 3]⟩ := declared_intro (by decide +kernel)
  obtain ⟨b, r', h1, h2⟩ := C60_is cV_clean hm hd b!".v.tag"
  obtain ⟨b', r'', h3, h4⟩ := C60_is cV_clean hm hd b!".v.rule"
  exact ⟨a, b, r', b', r'', hm, h1, h2.mpr rfl, h3, fun h => absurd (h4.mp h) (by decide)⟩

end Protoast.Props
