import Verif.Spec.Unreadable
import Verif.Props.Navigate
import Verif.Props.Origin
import Verif.Props.Handles
/-
  C120: which option statements a client can read.
-/
namespace Protoast.Props
open Protoast

/-- C120 as one would expect it: in a client that holds the handle of a file, every option of a declaration of the file
    that the iterators offer can be read, provided all options of the declaration are bound by the protobuf rules. -/
def C120_statement : Prop :=
  ∀ (c : Client) (a : Nat) (p : Ptr) (kd : Kind) (cn s : Str) (cls : Ptr) (opt : Ptr) (w : Str), CleanReachable WFFile c →
    Node.wrapped a .file ⟨p.file, []⟩ ∈ c.pool → Visible c.reg p → c.reg.kind p = some kd →
    kd.optionsMessage = some cn → ClassAt c.reg cn cls → OptionsLookedUpIn c.reg p kd s → AllBound c.reg p cls s →
    (opt, w) ∈ optionsOf c.reg p → CanRead c opt

theorem walk_ro : ∀ (ops : List Op) (c : Client), (∀ op ∈ ops, WalkOp op) → CacheExt c.reg (c.exec ops).reg := by
  intro ops
  induction ops with
  | nil => intro c _; exact CacheExt.refl _
  | cons op ops ih =>
    intro c h
    refine CacheExt.trans ?_ (ih (c.step op) fun o ho => h o (List.mem_cons_of_mem _ ho))
    have hw := h op (by simp)
    obtain ⟨hd, q, rfl⟩ : ∃ hd q, op = .query hd q := by cases hw <;> exact ⟨_, _, rfl⟩
    have hro : CacheExt c.reg ((Op.query hd q).run c.pool c.reg).2 := by
      simp only [Op.run]
      cases hp : c.pool[hd]? with
      | none => exact CacheExt.refl _
      | some n => exact (RO.queryRun q n).ext c.reg
    unfold Client.step
    split <;> next he => rw [he] at hro; exact hro

/-- C120 for all declarations but branches of oneofs. -/
theorem C120_partial {c a p kd cn s cls opt w} (hc : CleanReachable WFFile c)
    (hn : Node.wrapped a .file ⟨p.file, []⟩ ∈ c.pool) (hv : Visible c.reg p) (hk : c.reg.kind p = some kd)
    (hcn : kd.optionsMessage = some cn) (hcl : ClassAt c.reg cn cls) (hs : OptionsLookedUpIn c.reg p kd s)
    (hb : AllBound c.reg p cls s) (hnb : ∀ x t i, kd ≠ .oneofField x t i) (ho : (opt, w) ∈ optionsOf c.reg p) :
    CanRead c opt := by
  obtain ⟨ops, h1, _, h3, b, kd', k, h4, h5, h6⟩ := C83_reach (clean_reachable hc) hn rfl hv
  rw [hk] at h5
  cases h5
  have hx := walk_ro ops c h1
  have hq : ∀ op ∈ ops, Op.Sat WFFile op := fun op h => by cases h1 op h <;> trivial
  have hlo : ∀ (ops : List Op) (c : Client), (∀ op ∈ ops, WalkOp op) → LoadsOK c ops := by
    intro ops
    induction ops with
    | nil => intro c _; trivial
    | cons op ops ih =>
      intro c h
      refine ⟨?_, ih _ fun o ho => h o (List.mem_cons_of_mem _ ho)⟩
      cases h op (by simp) <;> trivial
  have hc' := clean_exec hc ops hq (hlo ops c h1)
  have hk' : (c.exec ops).reg.kind p = some kd := by
    unfold Reg.kind Reg.elem at hk ⊢
    rw [hx.heap]; exact hk
  have hso : optionsOf (c.exec ops).reg p = optionsOf c.reg p := by
    unfold optionsOf Reg.children; rw [hx.heap]
  have hoc : optionClassOf (c.exec ops).reg (.wrapped b k p) = some (p, cn) := by
    cases kd <;> simp only [Kind.optionsMessage, Kind.handleKind, reduceCtorEq, Option.some.injEq] at hcn h6
    all_goals subst h6
    all_goals try simp only [optionClassOf, hk', hcn]
    case message x e =>
      cases e with
      | true => cases hcn
      | false => cases hcn; rfl
    case oneofField x t i => exact absurd rfl (hnb x t i)
  have hls : LookupScope (c.exec ops).reg (.wrapped b k p) s := by
    have hd : Declared c.reg s p → Declared (c.exec ops).reg s p := by
      rintro ⟨f, h1, h2⟩
      exact ⟨f, by rw [hx.heap]; exact h1, h2⟩
    unfold OptionsLookedUpIn at hs
    cases kd <;> simp only [Kind.optionsMessage, Kind.handleKind, reduceCtorEq, Option.some.injEq] at hcn h6 hs
    all_goals subst h6
    case enumField => exact hs
    all_goals exact ⟨p, rfl, hd hs⟩
  have hb' : AllBound (c.exec ops).reg p cls s := by
    intro x hx'
    rw [hso] at hx'
    obtain ⟨f, hf⟩ := hb x hx'
    exact ⟨f, hf.congr hx.heap hx.registry⟩
  obtain ⟨g1, g2, _⟩ := C76_options hc' h4 hoc hls (hcl.congr hx.heap hx.registry)
  obtain ⟨ns, r', hns⟩ := g2.mpr hb'
  have hm := g1 ns r' hns
  rw [hso] at hm
  refine ⟨ops, _, ns, r', h1, h4, hns, ?_⟩
  have : ∀ {l : List (Ptr × Str)} {ms : List Node}, Matching (OptionFor (c.exec ops).reg s cls) l ms → (opt, w) ∈ l →
      ∃ a cls f, Node.option a opt cls f ∈ ms := by
    intro l ms hm
    induction hm with
    | nil => intro h; simp at h
    | cons hr _ ih =>
      intro h
      rcases List.mem_cons.mp h with rfl | h
      · obtain ⟨a, f, rfl, _⟩ := hr
        exact ⟨a, cls, f, by simp⟩
      · obtain ⟨a, cls, f, h⟩ := ih h
        exact ⟨a, cls, f, by simp [h]⟩
  exact this hm ho

theorem hands_out {r : Reg} {n : Node} {p : Ptr} {cn : Str} (ht : n.Typed r) (h : optionClassOf r n = some (p, cn)) :
    HandsOutOptions r p := by
  have wr : ∀ {a k}, (Node.wrapped a k p).Typed r →
      (k = .file ∨ k = .message ∨ k = .messageField ∨ k = .enum ∨ k = .enumValue ∨ k = .service ∨ k = .method) →
      HandsOutOptions r p := by
    intro a k h hk
    rcases h with ⟨_, h, _⟩ | ⟨_, kd, h1, h2⟩
    · exact .inl h
    · refine .inr ⟨kd, h1, ?_⟩
      rcases hk with rfl | rfl | rfl | rfl | rfl | rfl | rfl <;> cases kd <;>
        simp [WKind.standsFor] at h2 ⊢
  cases n with
  | wrapped a k q =>
    have hq : q = p := by
      unfold optionClassOf at h
      cases k <;> simp only [reduceCtorEq] at h <;> first | (simp only [Option.some.injEq, Prod.mk.injEq] at h; exact h.1) | (split at h <;> simp only [Option.some.injEq, Prod.mk.injEq] at h <;> exact h.1)
    subst hq
    refine wr ht ?_
    unfold optionClassOf at h
    cases k <;> simp at h ⊢
  | oneof a q =>
    simp only [optionClassOf, Option.some.injEq, Prod.mk.injEq] at h
    obtain ⟨rfl, _⟩ := h
    simp only [Node.Typed] at ht
    obtain ⟨x, hx⟩ := ht
    exact .inr ⟨_, hx, trivial⟩
  | _ => simp only [optionClassOf, reduceCtorEq] at h

theorem HandsOutOptions.later {r r' : Reg} (h : Later r r') {p : Ptr} (g : HandsOutOptions r p) : HandsOutOptions r' p := by
  rcases g with g | ⟨kd, g1, g2⟩
  · exact .inl g
  · exact .inr ⟨kd, by rw [h.kind (kind_file g1), g1], g2⟩

/-- C120, the limits: whatever a client does, every option handle it ever gets is for a statement directly in a file, a
    message or extend block, a field outside a oneof, a map field, a oneof, an enum, an enum value, a service or an rpc. -/
theorem C120_kinds {c a opt cls f} (hc : CleanReachable WFFile c) (hn : Node.option a opt cls f ∈ c.pool) :
    ∃ p w, (opt, w) ∈ optionsOf c.reg p ∧ HandsOutOptions c.reg p := by
  obtain ⟨c0, h, q, rest, hc0, rfl, hs, _, n, p, cn, w, s, h1, h2, h3, h4, _, _⟩ := C113_origin hc hn
  have hl := exec_later (.query h q :: rest) c0
  have ht := (C103_typed (clean_reachable hc0) (List.mem_of_getElem? h1) [] (by simp)).1
  exact ⟨p, w, later_optionsOf hl h4, HandsOutOptions.later hl (hands_out ht h2)⟩

theorem optionsOf_parent {r : Reg} {p : Ptr} {i j : Nat} {path : List Nat} {w : Str}
    (h : ((⟨i, j :: path⟩ : Ptr), w) ∈ optionsOf r p) : p = ⟨i, path⟩ := by
  unfold optionsOf at h
  rw [List.mem_filterMap] at h
  obtain ⟨x, _, hx⟩ := h
  split at hx
  · cases hx; rfl
  · cases hx

theorem not_hands_out {r : Reg} {p : Ptr} {x t : Str} {v : Int} (hk : r.kind p = some (.oneofField x t v)) :
    ¬ HandsOutOptions r p := by
  rintro (h | ⟨kd, h1, h2⟩)
  · unfold Reg.kind Reg.elem at hk
    rw [h] at hk
    cases hh : r.heap[p.file]? <;> simp [hh, ProtoFile.elemAt] at hk
  · rw [hk] at h1
    cases h1
    exact h2

/-- C120, the limits, for branches: no client ever gets a handle of an option of a oneof branch. -/
theorem C120_never {c a i j path cls f x t v} (hc : CleanReachable WFFile c)
    (hk : c.reg.kind ⟨i, path⟩ = some (.oneofField x t v)) : Node.option a ⟨i, j :: path⟩ cls f ∉ c.pool := by
  intro hn
  obtain ⟨p, w, h1, h2⟩ := C120_kinds hc hn
  rw [optionsOf_parent h1] at h2
  exact not_hands_out hk h2

/-- C120 at the call: `Options` of a handle never yields an option of a oneof branch. -/
theorem canRead_parent {c : Client} {opt : Ptr} (hc : CleanReachable WFFile c) (h : CanRead c opt) :
    ∃ p w, (opt, w) ∈ optionsOf c.reg p ∧ HandsOutOptions c.reg p := by
  obtain ⟨ops, n, ns, r', h1, h2, h3, a, cls, f, h4⟩ := h
  have hx := walk_ro ops c h1
  have hr : Reachable WFFile (c.exec ops) :=
    reachable_exec (clean_reachable hc) ops fun op h => by cases h1 op h <;> trivial
  have ht := (C103_typed hr h2 [] (by simp)).1
  obtain ⟨o, hi, hg⟩ := reachable_inv hr
  rcases options_shape (hg n h2) with ⟨p, cn, s, g1, g2, _⟩ | ⟨e, g1, _⟩
  · have hp : ∃ w, (opt, w) ∈ optionsOf (c.exec ops).reg p := by
      unfold collectOptions at h3
      simp only [M.bind_apply, g2] at h3
      unfold seqOptions at h3
      simp only [M.bind_apply] at h3
      rcases hcl : optionClass cn (c.exec ops).reg with ⟨res, r1⟩
      rw [hcl] at h3
      cases res with
      | panic e => cases h3
      | timeout => cases h3
      | ok cl =>
        obtain ⟨hca, rfl⟩ := optionClass_classAt hcl
        simp only [M.pure_apply] at h3
        have hm := (iterate_options (picks_new _ s cl)).1 ns r' h3
        have : ∀ {l : List (Ptr × Str)} {ms : List Node}, Matching (OptionFor (c.exec ops).reg s cl) l ms →
            Node.option a opt cls f ∈ ms → ∃ w, (opt, w) ∈ l := by
          intro l ms hm
          induction hm with
          | nil => intro h; simp at h
          | cons hr _ ih =>
            intro h
            rcases List.mem_cons.mp h with h | h
            · obtain ⟨a', f', h', _⟩ := hr
              rw [← h] at h'
              cases h'
              exact ⟨_, List.mem_cons_self ..⟩
            · obtain ⟨w, h⟩ := ih h
              exact ⟨w, by simp [h]⟩
        exact this hm h4
    obtain ⟨w, hw⟩ := hp
    have hh := hands_out ht g1
    refine ⟨p, w, ?_, ?_⟩
    · unfold optionsOf Reg.children at hw ⊢
      rw [hx.heap] at hw; exact hw
    · unfold HandsOutOptions Reg.kind Reg.elem at hh ⊢
      rw [hx.heap] at hh; exact hh
  · unfold collectOptions at h3
    simp only [M.bind_apply, g1] at h3
    cases h3

/-! ### The counterexample, and non-vacuity -/

/-- A message with a oneof whose branch is deprecated, and a deprecated field. -/
def WU : World := Ex.worldOf [(descriptorPath, Ex.descriptor), (b!"u.proto",
  let f := b!"u.proto"
  [Ex.el f 1 (.packageK b!"u"),
   Ex.el f 2 (.message b!"M" false)
     [Ex.el f 3 (.oneof b!"c")
        [Ex.el f 4 (.oneofField b!"old" b!"string" 1) [Ex.el f 4 (.option b!"deprecated" (Ex.lit f b!"true"))]],
      Ex.fld f 5 b!"gone" b!"string" 2 false [Ex.el f 5 (.option b!"deprecated" (Ex.lit f b!"true"))]]])]
def cU : Client := Client.exec ⟨(newRegistry WU 5).2, []⟩ [.proto WU 5 b!"u.proto"]

theorem cU_clean : CleanReachable WFFile cU := by
  have hW : WU.Sat WFFile := by
    apply Ex.worldOf_sat
    intro x hx
    apply Ex.wfb_spec
    simp only [List.mem_cons, List.not_mem_nil, or_false] at hx
    rcases hx with rfl | rfl <;> decide +kernel
  refine ⟨WU, 5, _, _, hW, Ex.ok_of_okOk (by decide +kernel), ?_, Ex.loadsB_spec (by decide +kernel), rfl⟩
  intro op hop
  simp only [List.mem_singleton] at hop
  subst hop
  exact hW

theorem binds_deprecated {s : Str} (hs : s = b!".u.M.old" ∨ s = b!".u.M.gone") :
    Binds cU.reg s ⟨0, [4]⟩ b!"deprecated" ⟨0, [0, 4]⟩ := by
  refine .inr ⟨unresolved_iff.mpr ?_, ?_⟩
  · rcases hs with rfl | rfl <;> decide +kernel
  · exact ⟨_, 0, _, _, _, _, _, by rfl, rfl, by rfl, by rfl, by intro j _ h; omega⟩

/-- C120 is false: the option of the branch cannot be read. -/
theorem C120_false : ¬ C120_statement := by
  intro h
  have hb : AllBound cU.reg ⟨1, [0, 0, 1]⟩ ⟨0, [4]⟩ b!".u.M.old" := by
    intro x hx
    have : optionsOf cU.reg ⟨1, [0, 0, 1]⟩ = [(⟨1, [0, 0, 0, 1]⟩, b!"deprecated")] := by decide +kernel
    rw [this] at hx
    simp only [List.mem_singleton] at hx
    subst hx
    exact ⟨_, binds_deprecated (.inl rfl)⟩
  obtain ⟨a, ha⟩ := Ex.hasW_spec (c := cU) (i := 0) (k := .file) (p := ⟨1, []⟩) (by decide +kernel)
  have := h cU a ⟨1, [0, 0, 1]⟩ (.oneofField b!"old" b!"string" 1) b!".google.protobuf.FieldOptions" b!".u.M.old" ⟨0, [4]⟩
    ⟨1, [0, 0, 0, 1]⟩ b!"deprecated" cU_clean ha
    (.inside (.inside (.top (by rfl) (by rfl)) (by rfl) (by rfl) (by rfl)) (by rfl) (by rfl) (by rfl)) (by rfl) (by rfl)
    ⟨by decide +kernel, _, _, by rfl⟩ (declared_intro (r := cU.reg) (s := b!".u.M.old") (by decide +kernel)) hb (by decide +kernel)
  obtain ⟨p, w, h1, h2⟩ := canRead_parent cU_clean this
  rw [optionsOf_parent h1] at h2
  exact not_hands_out (x := b!"old") (t := b!"string") (v := 1) (by rfl) h2

/-- The option of the field beside it can be read. -/
example : CanRead cU ⟨1, [0, 1, 1]⟩ := by
  have hb : AllBound cU.reg ⟨1, [1, 1]⟩ ⟨0, [4]⟩ b!".u.M.gone" := by
    intro x hx
    have : optionsOf cU.reg ⟨1, [1, 1]⟩ = [(⟨1, [0, 1, 1]⟩, b!"deprecated")] := by decide +kernel
    rw [this] at hx
    simp only [List.mem_singleton] at hx
    subst hx
    exact ⟨_, binds_deprecated (.inr rfl)⟩
  obtain ⟨a, ha⟩ := Ex.hasW_spec (c := cU) (i := 0) (k := .file) (p := ⟨1, []⟩) (by decide +kernel)
  exact C120_partial (p := ⟨1, [1, 1]⟩) (kd := .normalField b!"gone" b!"string" 2 false false)
    (cn := b!".google.protobuf.FieldOptions") (w := b!"deprecated") cU_clean ha
    (.inside (.top (by rfl) (by rfl)) (by rfl) (by rfl) (by rfl)) (by rfl) (by rfl)
    ⟨by decide +kernel, _, _, by rfl⟩ (declared_intro (r := cU.reg) (s := b!".u.M.gone") (by decide +kernel)) hb (by intro _ _ _ h; cases h) (by decide +kernel)

end Protoast.Props
