import Verif.Props.Linter
import Verif.Props.OptionsExact
/-
  C88: worlds in which the promise of the README fails, and worlds that meet the hypotheses of what holds.
-/
namespace Protoast.Props
open Protoast Protoast.Readme Protoast.Ex

/-! ### Examples -/

def anyPathL : Str := b!"google/protobuf/any.proto"
def optsPathL : Str := b!"meta/v1/options.proto"
def storagePath : Str := b!"service/storage/v1/service.proto"
def metaServicePath : Str := b!"service/meta/v1/meta.proto"

/-- The files of the example: the response of `Storage.Get` has the fields `resp`, the method has the options `opts`;
    `Storage.Watch` streams its response; `Meta.Ping` conforms. -/
def lintFiles (resp opts : List Elem) : List (Str × List Elem) :=
  [(descriptorPath, descriptor),
   (anyPathL, [el anyPathL 1 (.packageK b!"google.protobuf"),
     el anyPathL 2 (.message b!"Any" false) [fld anyPathL 3 b!"type_url" b!"string" 1]]),
   (statusPath, [el statusPath 1 (.packageK b!"meta.v1"),
     el statusPath 2 (.message statusName false) [fld statusPath 3 b!"code" b!"int32" 1]]),
   (optsPathL, [el optsPathL 1 (.packageK b!"meta.v1"), el optsPathL 2 (.importK descriptorPath),
     el optsPathL 3 (.importK anyPathL),
     el optsPathL 4 (.message b!"google.protobuf.MethodOptions" true)
       [fld optsPathL 5 b!"non_standard_method" b!".google.protobuf.Any" 50001]]),
   (storagePath, [el storagePath 1 (.packageK b!"service.storage.v1"), el storagePath 2 (.importK statusPath),
     el storagePath 3 (.importK optsPathL),
     el storagePath 4 (.message b!"GetRequest" false) [fld storagePath 5 b!"id" b!"string" 1],
     el storagePath 6 (.message b!"GetResponse" false) resp,
     el storagePath 10 (.service b!"Storage")
       [el storagePath 11 (.rpc b!"Get" b!".service.storage.v1.GetRequest" b!".service.storage.v1.GetResponse" false false) opts,
        el storagePath 12 (.rpc b!"Watch" b!".service.storage.v1.GetRequest" b!".service.storage.v1.GetRequest" false true)]]),
   (metaServicePath, [el metaServicePath 1 (.packageK b!"service.meta.v1"), el metaServicePath 2 (.importK statusPath),
     el metaServicePath 3 (.message b!"PingRequest" false) [],
     el metaServicePath 4 (.message b!"PingResponse" false)
       [fld metaServicePath 5 b!"response_status" b!".meta.v1.ResponseStatus" 1],
     el metaServicePath 6 (.service b!"Meta")
       [el metaServicePath 7 (.rpc b!"Ping" b!".service.meta.v1.PingRequest" b!".service.meta.v1.PingResponse" false false)]])]

def statusFld (l : Nat) (name : Str) (n : Int) (rep : Bool) : Elem := fld storagePath l name b!".meta.v1.ResponseStatus" n rep

/-- The exempt method: its response has no status, but the method has the option `meta.v1.non_standard_method`. -/
def WLx : World := worldOf (lintFiles [fld storagePath 7 b!"data" b!"bytes" 1]
  [el storagePath 11 (.option b!"(meta.v1.non_standard_method)" (msg storagePath []))])
/-- A response with a `response_status` and a repeated field of the status type. -/
def WLr : World := worldOf (lintFiles [statusFld 7 b!"response_status" 1 false, statusFld 8 b!"other" 2 true] [])
/-- A response that breaks the rules twice. -/
def WLb : World := worldOf (lintFiles [fld storagePath 7 b!"data" b!"bytes" 1, statusFld 8 b!"status" 2 false] [])
/-- A conforming response. -/
def WLs : World := worldOf (lintFiles [statusFld 7 b!"response_status" 1 false] [])

def rLx : Reg := (Readme.main WLx 8).2
def rLr : Reg := (Readme.main WLr 8).2
def rLb : Reg := (Readme.main WLb 8).2
def rLs : Reg := (Readme.main WLs 8).2

/-- The lines of a report. -/
def linesOf : Res (Except Failure (List Line)) → Option (List Line)
  | .ok (.ok ls) => some ls
  | _ => none

theorem linesOf_spec {x : Res (Except Failure (List Line)) × Reg} {ls} (h : linesOf x.1 = some ls) :
    x = (.ok (.ok ls), x.2) := by
  rcases x with ⟨(⟨(e | u)⟩ | p | _), r⟩ <;> simp_all [linesOf]

theorem lint_sat {resp opts : List Elem}
    (h : (wfb ((lintFiles resp opts).getD 4 ([], [])).2 && plainAll ((lintFiles resp opts).getD 4 ([], [])).2 &&
      elemsPosAll (fun pos => pos.filename == storagePath) ((lintFiles resp opts).getD 4 ([], [])).2) = true) :
    (worldOf (lintFiles resp opts)).Sat LintFile := by
  simp only [Bool.and_eq_true] at h
  apply worldOf_sat
  intro x hx
  simp only [lintFiles, List.mem_cons, List.not_mem_nil, or_false] at hx
  rcases hx with rfl | rfl | rfl | rfl | rfl | rfl
  case inr.inr.inr.inr.inl => exact ⟨⟨wfb_spec h.1.1, h.1.2⟩, (by decide : storagePath ≠ []), h.2⟩
  all_goals exact ⟨⟨wfb_spec (by decide +kernel), by decide +kernel⟩, by decide, by decide +kernel⟩

theorem WLx_sat : WLx.Sat LintFile := lint_sat (by decide +kernel)
theorem WLr_sat : WLr.Sat LintFile := lint_sat (by decide +kernel)
theorem WLb_sat : WLb.Sat LintFile := lint_sat (by decide +kernel)
theorem WLs_sat : WLs.Sat LintFile := lint_sat (by decide +kernel)

theorem WLx_main : Readme.main WLx 8 = (.ok (.ok [.missing { filename := storagePath, line := 11 }
    b!".meta.v1.ResponseStatus" b!".service.storage.v1.Storage.Get"]), rLx) := linesOf_spec (by decide +kernel)
theorem WLr_main : Readme.main WLr 8 = (.ok (.ok []), rLr) := linesOf_spec (by decide +kernel)
theorem WLs_main : Readme.main WLs 8 = (.ok (.ok []), rLs) := linesOf_spec (by decide +kernel)
theorem WLb_main : Readme.main WLb 8 = (.ok (.ok
    [.onlyStatus { filename := storagePath, line := 8 } b!".meta.v1.ResponseStatus",
     .missing { filename := storagePath, line := 11 } b!".meta.v1.ResponseStatus" b!".service.storage.v1.Storage.Get"]),
    rLb) := linesOf_spec (by decide +kernel)

theorem rLx_valid : Valid rLx := validB_spec (by decide +kernel)
theorem rLr_valid : Valid rLr := validB_spec (by decide +kernel)
theorem rLb_valid : Valid rLb := validB_spec (by decide +kernel)
theorem rLs_valid : Valid rLs := validB_spec (by decide +kernel)

theorem firstIn_find {l : List Elem} {P : Kind → Prop} {i : Nat} (b : Kind → Bool) (hb : ∀ k, b k = true ↔ P k)
    (h : l.findIdx? (fun e => b e.kind) = some i) : FirstIn l P i := by
  rw [List.findIdx?_eq_some_iff_getElem] at h
  obtain ⟨hi, h1, h2⟩ := h
  refine ⟨⟨l[i], by simp, (hb _).mp h1⟩, ?_⟩
  intro j hj e he hp
  have hjl : j < l.length := by omega
  rw [List.getElem?_eq_getElem hjl] at he
  cases he
  exact absurd ((hb _).mpr hp) (h2 j hj)

def isMessageB (n : Str) : Kind → Bool
  | .message m false => m == n
  | _ => false
def isServiceB (n : Str) : Kind → Bool
  | .service m => m == n
  | _ => false

theorem isMessageB_iff (n : Str) (k : Kind) : isMessageB n k = true ↔ k = .message n false := by
  cases k <;> simp [isMessageB]
  next m e => cases e <;> simp
theorem isServiceB_iff (n : Str) (k : Kind) : isServiceB n k = true ↔ k = .service n := by
  cases k <;> simp [isServiceB]

theorem status_at {r : Reg} {i j : Nat} (h1 : r.protos statusPath = some i)
    (h2 : (((r.children ⟨i, []⟩).getD []).findIdx? fun e => isMessageB statusName e.kind) = some j) :
    StatusType r ⟨i, [j]⟩ :=
  ⟨i, j, h1, rfl, firstIn_find _ (isMessageB_iff statusName) h2⟩

theorem service_at {r : Reg} {x : Str × Str} {i j : Nat} (h1 : r.protos x.1 = some i)
    (h2 : (((r.children ⟨i, []⟩).getD []).findIdx? fun e => isServiceB x.2 e.kind) = some j) :
    ServiceAt r x ⟨i, [j]⟩ :=
  ⟨i, j, h1, rfl, firstIn_find _ (isServiceB_iff x.2) h2⟩

/-- Equality of the kinds that matter here. -/
def kindB : Kind → Option Kind → Bool
  | .rpc n req ret a b, some (.rpc n' req' ret' a' b') => decide (n = n' ∧ req = req' ∧ ret = ret' ∧ a = a' ∧ b = b')
  | .message n e, some (.message n' e') => decide (n = n' ∧ e = e')
  | .normalField n t s a b, some (.normalField n' t' s' a' b') => decide (n = n' ∧ t = t' ∧ s = s' ∧ a = a' ∧ b = b')
  | _, _ => false

theorem kindB_spec {k : Kind} {o : Option Kind} (h : kindB k o = true) : o = some k := by
  unfold kindB at h
  split at h
  · simp only [decide_eq_true_eq] at h
    obtain ⟨rfl, rfl, rfl, rfl, rfl⟩ := h; rfl
  · simp only [decide_eq_true_eq] at h
    obtain ⟨rfl, rfl⟩ := h; rfl
  · simp only [decide_eq_true_eq] at h
    obtain ⟨rfl, rfl, rfl, rfl, rfl⟩ := h; rfl
  · cases h

theorem protocType_abs {r : Reg} {D t : Str} {q : Ptr} {n : Str} (h1 : hasDotPrefix t = true) (h2 : Declared r t q)
    (h3 : r.kind q = some (.message n false)) : ProtocType r D t q := by
  unfold ProtocType
  rw [if_pos h1]
  exact ⟨h2, n, .inl h3⟩

/-! #### First failure: a repeated field of the status type goes unnoticed -/

theorem rLr_status : StatusType rLr ⟨1, [1]⟩ := status_at (by decide +kernel) (by decide +kernel)

/-- The status type is used in a repeated field next to the status, and the program is content. -/
theorem C88_sound_false : ¬ C88_sound_statement := by
  intro h
  obtain ⟨st, hst, hall⟩ := h _ _ _ WLr_sat WLr_main rLr_valid
  have := firstOf_unique hst rLr_status
  subst this
  have hk : rLr.kind ⟨2, [0, 5]⟩ = some (.rpc b!"Get" b!".service.storage.v1.GetRequest"
      b!".service.storage.v1.GetResponse" false false) := kindB_spec (by decide +kernel)
  have hf : rLr.kind ⟨2, [1, 4]⟩ = some (.normalField b!"other" b!".meta.v1.ResponseStatus" 2 true false) :=
    kindB_spec (by decide +kernel)
  have hopt : optionsOf rLr ⟨2, [0, 5]⟩ = [] := by decide +kernel
  have hx := hall (storagePath, b!"Storage") (by decide +kernel) ⟨2, [5]⟩
    (service_at (by decide +kernel) (by decide +kernel)) ⟨2, [0, 5]⟩ (by decide +kernel) ⟨_, _, _, _, hk⟩
    (by rintro ⟨x, hx, _⟩; rw [hopt] at hx; cases hx) ⟨2, [4]⟩
    ⟨_, _, _, _, _, b!".service.storage.v1.Storage", hk, declared_intro (by decide +kernel),
      protocType_abs (n := b!"GetResponse") (by decide) (declared_intro (by decide +kernel))
        (kindB_spec (by decide +kernel))⟩
  obtain ⟨⟨n, t, s, opt, D, ho, _⟩, _⟩ := hx.2 ⟨2, [1, 4]⟩ (by decide +kernel)
    (.inl ⟨_, _, _, _, _, b!".service.storage.v1.GetResponse", hf, declared_intro (by decide +kernel),
      (not_keyword_iff _).mpr (by decide), protocType_abs (n := statusName) (by decide)
        (declared_intro (by decide +kernel)) (kindB_spec (by decide +kernel))⟩)
  rw [hf] at ho
  cases ho

/-! #### Second failure: the exemption has no effect -/

theorem rLx_status : StatusType rLx ⟨1, [1]⟩ := status_at (by decide +kernel) (by decide +kernel)

theorem rLx_exempt : Exempt rLx ⟨2, [0, 5]⟩ := by
  refine ⟨(⟨2, [0, 0, 5]⟩, b!"(meta.v1.non_standard_method)"), by decide +kernel,
    b!".service.storage.v1.Storage.Get", declared_intro (by decide +kernel), ⟨3, [0, 3]⟩, ⟨0, [9]⟩,
    ⟨by decide +kernel, b!"MethodOptions", false, kindB_spec (by decide +kernel)⟩,
    .inl ⟨resolve_refers (c := exemption) (by decide +kernel) (by decide +kernel), ?_⟩,
    declared_intro (by decide +kernel)⟩
  exact ⟨b!"non_standard_method", b!".google.protobuf.Any", 50001, false, false, kindB_spec (by decide +kernel)⟩

theorem rLx_ping : rLx.kind ⟨5, [0, 4]⟩ = some (.rpc b!"Ping" b!".service.meta.v1.PingRequest"
    b!".service.meta.v1.PingResponse" false false) := kindB_spec (by decide +kernel)

theorem rLx_conform : AllConform rLx ⟨1, [1]⟩ services := by
  have hp := main_plain WLx_sat WLx_main
  intro x hx s hs m hm hu hne q hq
  simp only [services, List.mem_cons, List.not_mem_nil, or_false] at hx
  rcases hx with rfl | rfl
  · have hs' : ServiceAt rLx (storagePath, b!"Storage") ⟨2, [5]⟩ := service_at (by decide +kernel) (by decide +kernel)
    have := firstOf_unique hs hs'
    subst this
    have e : methodsOf rLx ⟨2, [5]⟩ = [⟨2, [0, 5]⟩, ⟨2, [1, 5]⟩] := by decide +kernel
    rw [e] at hm
    simp only [List.mem_cons, List.not_mem_nil, or_false] at hm
    rcases hm with rfl | rfl
    · exact absurd rLx_exempt hne
    · have hk : rLx.kind ⟨2, [1, 5]⟩ = some (.rpc b!"Watch" b!".service.storage.v1.GetRequest"
        b!".service.storage.v1.GetRequest" false true) := kindB_spec (by decide +kernel)
      obtain ⟨_, _, _, _, h⟩ := hu
      rw [hk] at h
      cases h
  · have hs' : ServiceAt rLx (metaServicePath, b!"Meta") ⟨5, [4]⟩ := service_at (by decide +kernel) (by decide +kernel)
    have := firstOf_unique hs hs'
    subst this
    have e : methodsOf rLx ⟨5, [4]⟩ = [⟨5, [0, 4]⟩] := by decide +kernel
    rw [e] at hm
    simp only [List.mem_cons, List.not_mem_nil, or_false] at hm
    subst hm
    have hr : Responds rLx ⟨5, [0, 4]⟩ ⟨5, [3]⟩ := ⟨_, _, _, _, _, b!".service.meta.v1.Meta", rLx_ping,
      declared_intro (by decide +kernel), protocType_abs (n := b!"PingResponse") (by decide)
        (declared_intro (by decide +kernel)) (kindB_spec (by decide +kernel))⟩
    have := responds_unique rLx_valid.unique hp hq hr
    subst this
    have ef : fieldsOf rLx ⟨5, [3]⟩ = [⟨5, [0, 3]⟩] := by decide +kernel
    have hf : rLx.kind ⟨5, [0, 3]⟩ = some (.normalField statusField b!".meta.v1.ResponseStatus" 1 false false) :=
      kindB_spec (by decide +kernel)
    have ho : OfType rLx ⟨1, [1]⟩ ⟨5, [0, 3]⟩ := ⟨_, _, _, _, b!".service.meta.v1.PingResponse", hf,
      declared_intro (by decide +kernel), (not_keyword_iff _).mpr (by decide),
      protocType_abs (n := statusName) (by decide) (declared_intro (by decide +kernel))
        (kindB_spec (by decide +kernel))⟩
    refine ⟨⟨⟨5, [0, 3]⟩, by rw [ef]; simp, ho, _, hf, rfl⟩, ?_⟩
    intro p hp' _
    rw [ef] at hp'
    simp only [List.mem_cons, List.not_mem_nil, or_false] at hp'
    subst hp'
    exact ⟨ho, _, hf, rfl⟩

/-- The method carries the exempting option, all services satisfy the criteria, and the program reports a violation. -/
theorem C88_complete_false : ¬ C88_complete_statement := by
  intro h
  have := h _ _ _ _ _ WLx_sat WLx_main rLx_valid rLx_status rLx_conform
  cases this

theorem C88_false : ¬ C88_statement := fun h => C88_sound_false h.1

/-! #### The hypotheses of what holds are met -/

/-- The files of the example. -/
def lintPaths : List Str := [descriptorPath, anyPathL, statusPath, optsPathL, storagePath, metaServicePath]

/-- A checker for the closure under imports. -/
theorem worldOf_closed {files : List (Str × List Elem)} {U : List Str}
    (h : (files.all fun x => (importsAll x.2).all fun q => U.contains q) = true) : ImportClosed (worldOf files) U := by
  intro m _ loc elems _ hl q hq
  simp only [worldOf] at hl
  split at hl
  · next x hx =>
    cases hl
    have h1 := List.mem_of_find?_eq_some hx
    rw [List.all_eq_true] at h
    have := h x h1
    rw [List.all_eq_true] at this
    simpa using this q hq
  · cases hl

theorem worldOf_readable {files : List (Str × List Elem)} {path : Str} (h : (files.any fun x => x.1 == path) = true) :
    ∃ elems, Readable (worldOf files) path elems := by
  rw [List.any_eq_true] at h
  obtain ⟨y, hy, hp⟩ := h
  cases hf : files.find? (fun x => x.1 == path) with
  | none =>
    rw [List.find?_eq_none] at hf
    exact absurd hp (hf y hy)
  | some x =>
    refine ⟨x.2, anyResolver, b!"/r/" ++ path, ⟨[], [], rfl, by simp, ?_⟩, rfl, by simp, ?_⟩
    · intro e he; cases he
    · simp only [worldOf, hf]

example : WLb.Sat LintFile ∧ ImportClosed WLb lintPaths ∧ lintPaths.length ≤ 8 ∧
    (∀ q ∈ lintPaths, ∃ elems, Readable WLb q elems) ∧ descriptorPath ∈ lintPaths ∧ statusPath ∈ lintPaths ∧
    (∀ x ∈ services, x.1 ∈ lintPaths) ∧ Valid rLb ∧ ∃ st, StatusType rLb st := by
  refine ⟨WLb_sat, worldOf_closed (by decide +kernel), by decide, ?_, by decide, by decide, by decide, rLb_valid,
    ⟨1, [1]⟩, status_at (by decide +kernel) (by decide +kernel)⟩
  intro q hq
  apply worldOf_readable
  simp only [lintPaths, List.mem_cons, List.not_mem_nil, or_false] at hq
  rcases hq with rfl | rfl | rfl | rfl | rfl | rfl <;> decide +kernel

/-- The program finds the two violations, and by `C89_exit_status` the services really break the rules. -/
example : ∃ st, StatusType rLb st ∧ ¬ Accepts rLb st services := by
  obtain ⟨st, h1, _, _, h3⟩ := C89_exit_status WLb_sat WLb_main rLb_valid
  exact ⟨st, h1, h3.mp rfl⟩

/-- The program finds nothing, and by `C89_exit_status` the services keep to the rules. -/
example : ∃ st, StatusType rLs st ∧ Accepts rLs st services := by
  obtain ⟨st, h1, h2, _⟩ := C89_exit_status WLs_sat WLs_main rLs_valid
  exact ⟨st, h1, h2.mp rfl⟩

/-- No repeated fields, maps, oneofs in any file and no options on the methods: a checker for `Plain`. -/
def plainB (r : Reg) (svcs : List (Str × Str)) : Bool :=
  (r.heap.all fun f => (listPaths [] 0 f.elems).all fun path => match f.elemAt path with
    | some e => match e.kind with
      | .normalField _ _ _ rep _ => !rep
      | .mapField .. | .oneof .. => false
      | _ => true
    | none => true) &&
  svcs.all fun x => match r.protos x.1 with
    | some i => match ((r.children ⟨i, []⟩).getD []).findIdx? (fun e => isServiceB x.2 e.kind) with
      | some j => (methodsOf r ⟨i, [j]⟩).all fun m => (optionsOf r m).isEmpty
      | none => false
    | none => false

theorem plainB_spec {r st svcs} (h : plainB r svcs = true) : Plain r st svcs := by
  unfold plainB at h
  simp only [Bool.and_eq_true, List.all_eq_true] at h
  obtain ⟨h1, h2⟩ := h
  have hk : ∀ p kd, r.kind p = some kd → (match kd with
      | .normalField _ _ _ rep _ => !rep
      | .mapField .. | .oneof .. => false
      | _ => true) = true := by
    intro p kd hk
    unfold Reg.kind Reg.elem at hk
    cases hf : r.heap[p.file]? with
    | none => simp [hf] at hk
    | some f =>
      simp only [hf, Option.bind_some, Option.map_eq_some_iff] at hk
      obtain ⟨e, he, rfl⟩ := hk
      have := h1 f (List.mem_of_getElem? hf) p.path ((paths_complete f p.path).2 e he p.path (by
        rcases e with ⟨_, _, _, _⟩; simp [elemPaths]))
      rw [he] at this
      exact this
  intro x hx s hs m hm
  have := h2 x hx
  split at this
  · next i hi =>
    split at this
    · next j hj =>
      have e := firstOf_unique hs (service_at hi hj)
      subst e
      rw [List.all_eq_true] at this
      have he := this m hm
      rw [List.isEmpty_iff] at he
      refine ⟨?_, ?_⟩
      · rintro ⟨y, hy, _⟩
        rw [he] at hy
        cases hy
      · rintro q _ p _ (⟨n, t, sq, rep, opt, D, k1, k2, k3, k4⟩ | ⟨n, kt, t, sq, D, k1, _⟩ | ⟨o, i, n, t, sq, D, k1, _⟩)
        · have := hk p _ k1
          cases rep with
          | true => simp at this
          | false => exact ⟨n, t, sq, opt, D, k1, k2, k3, k4⟩
        · have := hk p _ k1; simp at this
        · have := hk p _ k1; simp at this
    · cases this
  · cases this

/-- `C88_partial` applies to both worlds without options and repeated fields: the services with the clean run satisfy the
    five criteria, the ones with the report do not. -/
example : (∃ st, StatusType rLs st ∧ AllConform rLs st services) ∧ ∃ st, StatusType rLb st ∧ ¬ AllConform rLb st services := by
  obtain ⟨st, h1, h2⟩ := C88_partial WLs_sat WLs_main rLs_valid
  obtain ⟨st', g1, g2⟩ := C88_partial WLb_sat WLb_main rLb_valid
  refine ⟨⟨st, h1, (h2 (plainB_spec (by decide +kernel))).mp rfl⟩, st', g1, fun h => ?_⟩
  cases (g2 (plainB_spec (by decide +kernel))).mpr h

end Protoast.Props
