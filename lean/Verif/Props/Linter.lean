import Verif.Props.LintSteps
import Verif.Props.Outcome
/-
  C88: the governance linter of the README.
-/
namespace Protoast.Props
open Protoast Protoast.Readme

/-! ### The promise -/

/-- First half of the promise: a clean run means that all services satisfy the five criteria. -/
def C88_sound_statement : Prop :=
  ∀ W fuel r, W.Sat LintFile → Readme.main W fuel = (.ok (.ok []), r) → Valid r →
    ∃ st, StatusType r st ∧ AllConform r st services

/-- Second half of the promise: services that satisfy the five criteria make for a clean run. -/
def C88_complete_statement : Prop :=
  ∀ W fuel ls r st, W.Sat LintFile → Readme.main W fuel = (.ok (.ok ls), r) → Valid r → StatusType r st →
    AllConform r st services → ls = []

/-- C88 as promised in the README. -/
def C88_statement : Prop := C88_sound_statement ∧ C88_complete_statement

/-! ### What holds -/

/-- How the program ends, in every world: with exactly the report that the source files call for; or with a panic of its
    own, for the reason it gives; or because loading a file failed. No other call panics. -/
theorem C89_report {W fuel res r} (hW : W.Sat LintFile) (h : Readme.main W fuel = (res, r)) (hv : Valid r) :
    Outcome W fuel r services res := by
  unfold Readme.main at h
  split at h
  · next r0 hn => exact main_ends hW hn services h hv
  · next e r0 hn => cases h; simp only [Outcome, hn]
  · next p r0 hn => cases h; exact .inl (by rw [hn])
  · next r0 hn => cases h; exact .inl (by rw [hn])

theorem main_plain {W fuel ls r} (hW : W.Sat LintFile) (h : Readme.main W fuel = (.ok (.ok ls), r)) :
    ∀ (i : Nat) (f : ProtoFile), r.heap[i]? = some f → plainAll f.elems = true := by
  unfold Readme.main at h
  split at h
  · next r0 hn =>
    have hc : CleanReachable LintFile ⟨r0, []⟩ := ⟨W, fuel, r0, [], hW, hn, by simp, trivial, rfl⟩
    have := lint_heapSat (fuel := fuel) (svcs := mainServices) hW (reachable_heapSat (clean_reachable hc))
    simp only [h] at this
    exact fun i f hf => (this i f hf).1.2
  · cases h
  · cases h
  · cases h

theorem encloses_eq {a b D : Str} (ha : Encloses a D) (hb : Encloses b D) (h : a.length = b.length) : a = b := by
  have p : ∀ {x}, Encloses x D → x <+: D := by
    rintro x (rfl | ⟨t, rfl⟩)
    · exact List.prefix_refl _
    · exact List.prefix_append _ _
  exact (List.prefix_of_prefix_length_le (p ha) (p hb) (by omega)).eq_of_length h

/-- A reference has one meaning. -/
theorem protocType_unique {r : Reg} (hu : UniqueNames r)
    (hp : ∀ (i : Nat) (f : ProtoFile), r.heap[i]? = some f → plainAll f.elems = true) {D t q1 q2}
    (h1 : ProtocType r D t q1) (h2 : ProtocType r D t q2) : q1 = q2 := by
  have aux : ∀ {q1 q2 s1 s2}, (∀ s'', Encloses s'' D → s1.length < s''.length →
      if dot ∈ t then ¬ Aggregate r (s'' ++ dot :: firstPart t)
      else ∀ q', Declared r (s'' ++ dot :: t) q' → ¬ DeclaresType r q') → Encloses s2 D →
      Declared r (s2 ++ dot :: t) q2 → DeclaresType r q2 → Declared r (s1 ++ dot :: t) q1 → ¬ s1.length < s2.length := by
    intro q1 q2 s1 s2 h he hd ht _ hlt
    have := h s2 he hlt
    split at this
    · next hdot =>
      obtain ⟨rest, hrest⟩ := firstPart_split hdot
      refine this (declared_aggregate (y := rest) (p := q2) hp ?_)
      rw [List.append_assoc, List.cons_append, ← hrest]
      exact hd
    · exact this q2 hd ht
  unfold ProtocType at h1 h2
  split at h1
  · next hd =>
    rw [if_pos hd] at h2
    exact hu _ _ _ h1.1 h2.1
  · next hd =>
    rw [if_neg hd] at h2
    obtain ⟨s1, e1, d1, t1, m1⟩ := h1
    obtain ⟨s2, e2, d2, t2, m2⟩ := h2
    have a := aux m1 e2 d2 t2 d1
    have b := aux m2 e1 d1 t1 d2
    have := encloses_eq e1 e2 (by omega)
    subst this
    exact hu _ _ _ d1 d2

theorem firstOf_unique {r path P p q} (h : FirstOf r path P p) (g : FirstOf r path P q) : p = q := by
  obtain ⟨i, j, h1, rfl, ⟨e, he, hp⟩, hmin⟩ := h
  obtain ⟨i', j', g1, rfl, ⟨e', he', hp'⟩, gmin⟩ := g
  rw [h1] at g1
  cases g1
  have : j = j' := by
    rcases Nat.lt_trichotomy j j' with h | h | h
    · exact absurd hp (gmin j h e he)
    · exact h
    · exact absurd hp' (hmin j' h e' he')
  rw [this]

theorem fieldLines_nil {r st ps ls} (h : FieldLines r st ps ls) :
    ls = [] ↔ ∀ p ∈ ps, OfType r st p → HasName r p statusField := by
  induction h with
  | nil => simp
  | wrong ho hn _ _ _ _ => simp [ho, hn]
  | fine hf _ ih =>
    rw [ih]
    simp only [List.mem_cons, forall_eq_or_imp]
    exact ⟨fun h => ⟨hf, h⟩, fun h => h.2⟩

theorem methodLines_nil {r st m ls} (h : MethodLines r st m ls) (hu : ∀ q q', Responds r m q → Responds r m q' → q = q') :
    ls = [] ↔ (Unary r m → ∀ q, Responds r m q →
      HasStatus r st q ∧ ∀ p ∈ fieldsOf r q, OfType r st p → HasName r p statusField) := by
  cases h with
  | stream hn => simp [hn]
  | good h1 h2 h3 h4 =>
    rw [fieldLines_nil h3]
    constructor
    · intro h _ q hq
      have := hu _ _ h2 hq
      subst this
      exact ⟨h4, h⟩
    · intro h
      exact (h h1 _ h2).2
  | bad h1 h2 h3 h4 _ _ _ =>
    simp only [List.append_eq_nil_iff, List.cons_ne_self, and_false, false_iff]
    intro h
    exact h4 (h h1 _ h2).1

theorem matching_nil {α β : Type} {R : α → List β → Prop} {l : List α} {lss : List (List β)} (h : Matching R l lss)
    {P : α → Prop} (hP : ∀ a ∈ l, ∀ ls, R a ls → (ls = [] ↔ P a)) : lss.flatten = [] ↔ ∀ a ∈ l, P a := by
  induction h with
  | nil => simp
  | cons h1 _ ih =>
    simp only [List.flatten_cons, List.append_eq_nil_iff, List.mem_cons, forall_eq_or_imp]
    rw [hP _ List.mem_cons_self _ h1, ih fun a ha => hP a (List.mem_cons_of_mem _ ha)]

theorem responds_unique {r : Reg} (hu : UniqueNames r)
    (hp : ∀ (i : Nat) (f : ProtoFile), r.heap[i]? = some f → plainAll f.elems = true) {m q q'}
    (h : Responds r m q) (g : Responds r m q') : q = q' := by
  obtain ⟨n, req, ret, sreq, sret, D, h1, h2, h3⟩ := h
  obtain ⟨n', req', ret', sreq', sret', D', g1, g2, g3⟩ := g
  rw [h1] at g1
  cases g1
  have := scope_same h2 g2
  subst this
  exact protocType_unique hu hp h3 g3

/-- The program prints nothing, and so exits with status 0, if and only if every unary method responds with a message
    that has a field `response_status` of the status type and no other singular field of that type. -/
theorem C89_exit_status {W fuel ls r} (hW : W.Sat LintFile) (h : Readme.main W fuel = (.ok (.ok ls), r)) (hv : Valid r) :
    ∃ st, StatusType r st ∧ (ls = [] ↔ Accepts r st services) ∧
      (exitStatus (.ok (.ok ls)) = some 0 ↔ Accepts r st services) ∧
      (exitStatus (.ok (.ok ls)) = some 1 ↔ ¬ Accepts r st services) := by
  obtain ⟨st, hst, lss, hM, rfl⟩ := C89_report hW h hv
  have hp := main_plain hW h
  have key : lss.flatten = [] ↔ Accepts r st services := by
    refine matching_nil hM ?_
    rintro x _ ls ⟨s, lss', hs, hm, rfl⟩
    rw [matching_nil hm fun m _ ls hl => methodLines_nil hl fun q q' => responds_unique hv.unique hp]
    constructor
    · intro h s' hs'
      have := firstOf_unique hs hs'
      subst this
      exact h
    · intro h
      exact h s hs
  refine ⟨st, hst, key, ?_, ?_⟩
  · rw [← key]
    cases lss.flatten <;> simp [exitStatus]
  · rw [← key]
    cases lss.flatten <;> simp [exitStatus]

/-- The promise of the README, for services that stay clear of the two things the program gets wrong. -/
theorem C88_partial {W fuel ls r} (hW : W.Sat LintFile) (h : Readme.main W fuel = (.ok (.ok ls), r)) (hv : Valid r) :
    ∃ st, StatusType r st ∧ (Plain r st services → (ls = [] ↔ AllConform r st services)) := by
  obtain ⟨st, hst, h0, _⟩ := C89_exit_status hW h hv
  refine ⟨st, hst, fun hpl => ?_⟩
  rw [h0]
  constructor
  · intro ha x hx s hs m hm hun _ q hq
    obtain ⟨g1, g2⟩ := ha x hx s hs m hm hun q hq
    refine ⟨g1, fun p hp hu => ?_⟩
    have := (hpl x hx s hs m hm).2 q hq p hp hu
    exact ⟨this, g2 p hp this⟩
  · intro hc x hx s hs m hm hun q hq
    obtain ⟨g1, g2⟩ := hc x hx s hs m hm hun (hpl x hx s hs m hm).1 q hq
    refine ⟨g1, fun p hp ho => (g2 p hp ?_).2⟩
    obtain ⟨n, t, sq, opt, D, k1, k2, k3, k4⟩ := ho
    exact .inl ⟨n, t, sq, false, opt, D, k1, k2, k3, k4⟩

/-! ### When all files are there -/

theorem topImports_importsAll {g : Str} : ∀ {elems : List Elem}, g ∈ topImports elems → g ∈ importsAll elems := by
  intro elems
  induction elems with
  | nil => intro h; simp [topImports] at h
  | cons e es ih =>
    intro h
    simp only [topImports, List.filterMap_cons] at h
    simp only [importsAll, List.mem_append]
    rcases e with ⟨pos, c, k, cs⟩
    simp only [Elem.kind_mk] at h
    split at h
    · exact .inr (ih h)
    · next f hk =>
      rcases List.mem_cons.mp h with rfl | h
      · left
        cases k <;> simp at hk
        subst hk
        simp [Elem.imports]
      · exact .inr (ih h)

theorem reach_readable {c W U path} (hc : CleanReachable WFFile c) (hU : ImportClosed W U) (hp : path ∈ U)
    (hall : ∀ q ∈ U, ∃ elems, Readable W q elems) : ∀ q, WorldReach c.reg W path q → ∃ elems, Contents c.reg W q elems := by
  obtain ⟨o, hi, -⟩ := reachable_inv (clean_reachable hc)
  have key : ∀ q, (q ∈ U ∨ (c.reg.protos q).isSome = true) → ∃ elems, Contents c.reg W q elems := by
    intro q hq
    cases hs : c.reg.protos q with
    | some i =>
      obtain ⟨f, hf, _⟩ := hi.protosHeap _ _ hs
      exact ⟨_, .inl ⟨i, f, hs, hf, rfl⟩⟩
    | none =>
      rw [hs] at hq
      obtain ⟨elems, he⟩ := hall q (by simpa using hq)
      exact ⟨elems, .inr ⟨hs, he⟩⟩
  intro q hq
  apply key
  induction hq with
  | refl => exact .inl hp
  | @step m q elems _ hcont himp ih =>
    rcases hcont with ⟨i, f, h1, h2, rfl⟩ | ⟨h1, h2⟩
    · exact .inr ((clean_complete hc _ _ (Nat.zero_le _) h2).imports _ himp)
    · rw [h1] at ih
      obtain ⟨loc, h3, _, h4⟩ := readable_locate h2
      exact .inl (hU m (by simpa using ih) _ _ h3 h4 q (topImports_importsAll himp))

theorem sat_wf {W : World} (hW : W.Sat LintFile) : W.Sat WFFile := sat_mono (fun _ _ h => h.1.1) hW

theorem load_ends_ok {W U fuel path res} (hW : W.Sat LintFile) (hU : ImportClosed W U) (hf : U.length ≤ fuel)
    (hp : path ∈ U) (hall : ∀ q ∈ U, ∃ elems, Readable W q elems) (h : LoadEnds W fuel path res) :
    ∃ n, res = .ok (.ok n) := by
  obtain ⟨c, hc, rfl⟩ := h
  have hc' := lint_clean hc
  obtain ⟨n, r', hn⟩ := (C64_outcome hc' (sat_wf hW) hU hp hf).2.2.mpr
    (reach_readable hc' hU hp hall)
  exact ⟨n, by rw [hn]⟩

/-- If every file can be read, the program ends with its report, or it panics because the status type or a service is
    not declared where it looks for it. -/
theorem C89_files_present {W U fuel res r} (hW : W.Sat LintFile) (hU : ImportClosed W U) (hf : U.length ≤ fuel)
    (hall : ∀ q ∈ U, ∃ elems, Readable W q elems) (hd : b!"google/protobuf/descriptor.proto" ∈ U) (hst : statusPath ∈ U)
    (hsv : ∀ x ∈ services, x.1 ∈ U) (h : Readme.main W fuel = (res, r)) (hv : Valid r) :
    (∃ ls st, res = .ok (.ok ls) ∧ StatusType r st ∧ ReportOf r st services ls) ∨
    (res = .ok (.error .noStatusType) ∧ ∀ st, ¬ StatusType r st) ∨
    (res = .ok (.error .noService) ∧ ∃ x ∈ services, ∀ s, ¬ ServiceAt r x s) := by
  have ho := C89_report hW h hv
  have hnew : ∃ r0, newRegistry W fuel = (.ok (.ok ()), r0) := by
    refine (C64_new_registry (sat_wf hW) hU hd hf).2.2.mpr ?_
    intro q hq
    have : q ∈ U := by
      induction hq with
      | refl => exact hd
      | @step m q elems _ hcont himp ih =>
        obtain ⟨loc, h3, _, h4⟩ := readable_locate (empty_contents.mp hcont)
        exact hU m ih _ _ h3 h4 q (topImports_importsAll himp)
    exact hall q this
  obtain ⟨r0, hn⟩ := hnew
  have hpaths : ∀ path ∈ statusPath :: services.map (·.1), path ∈ U := by
    intro path hp
    rcases List.mem_cons.mp hp with rfl | hp
    · exact hst
    · obtain ⟨x, hx, rfl⟩ := List.mem_map.mp hp
      exact hsv x hx
  cases res with
  | panic e =>
    exfalso
    rcases ho with ho | ⟨path, hp, ho⟩
    · rw [hn] at ho; cases ho
    · obtain ⟨n, hx⟩ := load_ends_ok hW hU hf (hpaths _ hp) hall ho
      cases hx
  | timeout =>
    exfalso
    rcases ho with ho | ⟨path, hp, ho⟩
    · rw [hn] at ho; cases ho
    · obtain ⟨n, hx⟩ := load_ends_ok hW hU hf (hpaths _ hp) hall ho
      cases hx
  | ok v =>
    cases v with
    | ok ls =>
      obtain ⟨st, h1, h2⟩ := ho
      exact .inl ⟨ls, st, rfl, h1, h2⟩
    | error e =>
      cases e with
      | noStatusType => exact .inr (.inl ⟨rfl, ho.2⟩)
      | noService =>
        obtain ⟨x, hx, _, h⟩ := ho
        exact .inr (.inr ⟨rfl, x, hx, h⟩)
      | noRegistry e =>
        exfalso
        simp only [Outcome] at ho
        rw [hn] at ho; cases ho
      | noStatusFile e =>
        obtain ⟨n, hx⟩ := load_ends_ok hW hU hf hst hall ho
        cases hx
      | noServiceFile e =>
        obtain ⟨x, hx, ho⟩ := ho
        obtain ⟨n, hx⟩ := load_ends_ok hW hU hf (hsv x hx) hall ho
        cases hx

/-! ### A checker for `Valid` -/

/-- The file of `q` is that of `p` or imported by it. -/
def visibleB (r : Reg) (p q : Ptr) : Bool :=
  match r.heap[p.file]? with
  | some f => decide (r.protos f.filename = some p.file) && (decide (q.file = p.file) ||
      (topImports f.elems).any fun path => decide (r.protos path = some q.file))
  | none => false

theorem visibleB_spec {r p q} (h : visibleB r p q = true) : Visible r p q := by
  unfold visibleB at h
  split at h
  · next f hf =>
    simp only [Bool.and_eq_true, Bool.or_eq_true, decide_eq_true_eq, List.any_eq_true] at h
    obtain ⟨h1, h2 | ⟨path, h2, h3⟩⟩ := h
    · exact ⟨f, f.filename, hf, .refl _, by rw [h1, h2]⟩
    · exact ⟨f, path, hf, .step (.refl _) ⟨p.file, f, h1, hf, h2⟩, h3⟩
  · cases h

/-- A fully qualified reference to a type of a visible file. -/
def refB (r : Reg) (p : Ptr) (t : Str) (msg : Bool) : Bool :=
  hasDotPrefix t && (Ex.fqnsFrom 0 r.heap).any fun x => decide (x.1 = t) && visibleB r p x.2 &&
    (match r.kind x.2 with
    | some (.message _ false) => true
    | some (.enum _) => !msg
    | _ => false)

theorem fqnsFrom_declared : ∀ (fs : List ProtoFile) (n : Nat) (x : Str × Ptr), x ∈ Ex.fqnsFrom n fs →
    ∃ i f, fs[i]? = some f ∧ x.2.file = n + i ∧ f.fqn x.2.path = some x.1 := by
  intro fs
  induction fs with
  | nil => intro n x h; simp [Ex.fqnsFrom] at h
  | cons g fs ih =>
    intro n x h
    unfold Ex.fqnsFrom at h
    rw [List.mem_append] at h
    rcases h with h | h
    · rw [List.mem_filterMap] at h
      obtain ⟨path, _, h⟩ := h
      rw [Option.map_eq_some_iff] at h
      obtain ⟨s, hs, rfl⟩ := h
      exact ⟨0, g, rfl, by simp, hs⟩
    · obtain ⟨i, f, h1, h2, h3⟩ := ih (n + 1) x h
      exact ⟨i + 1, f, by simpa using h1, by omega, h3⟩

theorem fqns_declared {r : Reg} {x : Str × Ptr} (h : x ∈ Ex.fqnsFrom 0 r.heap) : Declared r x.1 x.2 := by
  obtain ⟨i, f, h1, h2, h3⟩ := fqnsFrom_declared _ _ _ h
  exact ⟨f, by rw [h2, Nat.zero_add]; exact h1, h3⟩

theorem refB_spec {r p t msg D} (h : refB r p t msg = true) :
    (∃ q, ProtocType r D t q ∧ Visible r p q ∧ (msg = true → ∃ n, r.kind q = some (.message n false))) ∧ dot ∈ t := by
  unfold refB at h
  simp only [Bool.and_eq_true, List.any_eq_true, decide_eq_true_eq] at h
  obtain ⟨h1, x, hx, ⟨rfl, h2⟩, h3⟩ := h
  refine ⟨⟨x.2, ?_, visibleB_spec h2, ?_⟩, ?_⟩
  · unfold ProtocType
    rw [if_pos h1]
    refine ⟨fqns_declared hx, ?_⟩
    split at h3
    · next n hk => exact ⟨n, .inl hk⟩
    · next n hk => exact ⟨n, .inr hk⟩
    · cases h3
  · rintro rfl
    split at h3
    · next n hk => exact ⟨n, hk⟩
    · cases h3
    · cases h3
  · revert h1
    generalize x.1 = t
    cases t with
    | nil => simp [hasDotPrefix]
    | cons a as => simp only [hasDotPrefix]; intro h; simp at h; simp [h]

def validB (r : Reg) : Bool :=
  Ex.uniqueB r && noClashB r &&
  ((Ex.fqnsFrom 0 r.heap).all fun x => match r.kind x.2 with
    | some (.normalField _ t _ _ _) => decide (builtinType t ≠ none) || refB r x.2 t false
    | some (.rpc _ _ ret _ _) => decide (builtinType ret = none) && refB r x.2 ret true
    | _ => true) &&
  (r.heap.all fun f => (Ex.listPaths [] 0 f.elems).all fun path => match f.elemAt path with
    | some e => match e.kind with
      | .option w _ => !hasDotPrefix w
      | _ => true
    | none => true) &&
  (match r.protos statusPath with
    | some i => ((r.children ⟨i, []⟩).getD []).all fun e => match e.kind with
      | .message n true => n != statusName
      | _ => true
    | none => true) &&
  ((Ex.fqnsFrom 0 r.heap).any fun x => decide (x.1 = b!".google.protobuf.MethodOptions") &&
    decide (r.protos descriptorPath = some x.2.file) && match r.kind x.2 with
    | some (.message _ false) => true
    | _ => false)

theorem validB_spec {r} (h : validB r = true) : Valid r := by
  unfold validB at h
  simp only [Bool.and_eq_true] at h
  obtain ⟨⟨⟨⟨⟨h1, h2⟩, h3⟩, h4⟩, h5⟩, h6⟩ := h
  rw [List.all_eq_true] at h3 h4
  rw [List.any_eq_true] at h6
  refine ⟨Ex.uniqueB_spec h1, noClashB_spec h2, ?_, ?_, ?_, ?_, ?_⟩
  · intro p n t s rep opt D hk hd hkw
    have := h3 _ (declared_fqns hd)
    simp only [hk, Bool.or_eq_true, decide_eq_true_eq] at this
    rcases this with this | this
    · exact absurd ((not_keyword_iff t).mp hkw) this
    · obtain ⟨⟨q, g1, g2, _⟩, g3⟩ := refB_spec (D := D) this
      exact ⟨⟨q, g1, g2⟩, fun g => absurd g3 g⟩
  · intro p n req ret sreq sret D hk hd
    have := h3 _ (declared_fqns hd)
    simp only [hk, Bool.and_eq_true, decide_eq_true_eq] at this
    obtain ⟨⟨q, g1, g2, g4⟩, g3⟩ := refB_spec (D := D) this.2
    obtain ⟨m, hm⟩ := g4 rfl
    exact ⟨(not_keyword_iff _).mpr this.1, ⟨q, m, g1, hm, g2⟩, fun g => absurd g3 g⟩
  · intro p w l hk
    unfold Reg.kind Reg.elem at hk
    cases hf : r.heap[p.file]? with
    | none => simp [hf] at hk
    | some f =>
      simp only [hf, Option.bind_some, Option.map_eq_some_iff] at hk
      obtain ⟨e, he, hk⟩ := hk
      have := h4 f (List.mem_of_getElem? hf)
      rw [List.all_eq_true] at this
      have := this p.path ((Ex.paths_complete f p.path).2 e he p.path (by rcases e with ⟨_, _, _, _⟩; simp [Ex.elemPaths]))
      rw [he] at this
      simpa [hk] using this
  · intro i hi e he hk
    rw [hi] at h5
    simp only [List.all_eq_true] at h5
    have := h5 e he
    simp [hk] at this
  · obtain ⟨x, hx, h⟩ := h6
    simp only [Bool.and_eq_true, decide_eq_true_eq] at h
    obtain ⟨⟨g1, g2⟩, g3⟩ := h
    split at g3
    · next n hk =>
      have hd := fqns_declared hx
      rw [g1] at hd
      exact ⟨x.2, n, g2, hd, hk⟩
    · cases g3

end Protoast.Props
