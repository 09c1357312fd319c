import Verif.Proof.Output
import Verif.Props.QuickStart
import Verif.Props.LinterExamples
/-
  C109, C110: what the two programs of the README have printed, also when they panic.
-/
namespace Protoast.QuickStart
open Protoast

/-- What has been printed when an option of the file loaded as `path` stops the program: the line of the file and those
    of the options before the first one that sets nothing; only the line of the file if there is no message with the
    file options. -/
def Stopped (F : FloatOps) (r : Reg) (path : Str) (ls : List Line) : Prop :=
  ∃ i es ols, r.protos path = some i ∧ r.children ⟨i, []⟩ = some es ∧ ls = .file path (packageOf es) :: ols ∧
    ((ols = [] ∧ ∀ cls, ¬ ClassAt r b!".google.protobuf.FileOptions" cls) ∨
      ∃ cls pre x post, ClassAt r b!".google.protobuf.FileOptions" cls ∧ optionsOf r ⟨i, []⟩ = pre ++ x :: post ∧
        Matching (OptionLine F r (packageDot es) cls) pre ols ∧ ¬ ∃ f v, Sets F r (packageDot es) cls x f v)

end Protoast.QuickStart

namespace Protoast.Readme
open Protoast

/-- How the program can end together with what it has printed by then: the whole report; or the report of the services
    before the one it stops at, and why it stops there; or nothing, as it did not get to the services. -/
def PrintedAt (W : World) (fuel : Nat) (r : Reg) (svcs : List (Str × Str)) (ls : List Line) :
    Res (Except Failure Unit) → Prop
  | .ok (.ok ()) => ∃ st, StatusType r st ∧ ReportOf r st svcs ls
  | .ok (.error .noService) => ∃ st pre x post, svcs = pre ++ x :: post ∧ StatusType r st ∧ ReportOf r st pre ls ∧
      (r.protos x.1).isSome = true ∧ ∀ s, ¬ ServiceAt r x s
  | .ok (.error (.noServiceFile e)) => ∃ st pre x post, svcs = pre ++ x :: post ∧ StatusType r st ∧ ReportOf r st pre ls ∧
      LoadEnds W fuel x.1 (.ok (.error e))
  | .ok (.error .noStatusType) => ls = [] ∧ (r.protos statusPath).isSome = true ∧ ∀ st, ¬ StatusType r st
  | .ok (.error (.noStatusFile e)) => ls = [] ∧ LoadEnds W fuel statusPath (.ok (.error e))
  | .ok (.error (.noRegistry e)) => ls = [] ∧ (newRegistry W fuel).1 = .ok (.error e)
  | .panic e => (ls = [] ∧ ((newRegistry W fuel).1 = .panic e ∨ LoadEnds W fuel statusPath (.panic e))) ∨
      ∃ st pre x post, svcs = pre ++ x :: post ∧ StatusType r st ∧ ReportOf r st pre ls ∧ LoadEnds W fuel x.1 (.panic e)
  | .timeout => (ls = [] ∧ ((newRegistry W fuel).1 = .timeout ∨ LoadEnds W fuel statusPath .timeout)) ∨
      ∃ st pre x post, svcs = pre ++ x :: post ∧ StatusType r st ∧ ReportOf r st pre ls ∧ LoadEnds W fuel x.1 .timeout

end Protoast.Readme

namespace Protoast.Props
open Protoast Protoast.QuickStart

/-! ### Quick Start -/

theorem sayOption_quiet {F : FloatOps} {n : Node} {r ls e r'} (h : sayOption F () n r = (ls, (.panic e, r'))) : ls = [] := by
  unfold sayOption at h
  split at h
  · simp only [Out.bind_apply, Out.call_apply, Out.say_apply, Out.pure_apply] at h
    rcases hn : Option.name _ _ _ r with ⟨res, r1⟩
    rw [hn] at h
    cases res with
    | ok nm =>
      simp only at h
      rcases hv : Option.value F _ _ r1 with ⟨res, r2⟩
      rw [hv] at h
      cases res <;> simp at h
      exact h.1
    | panic p => simp at h; exact h.1
    | timeout => simp at h
  · simp [Out.call_apply] at h
    exact h.1

theorem writes_of_ok {L β γ : Type} {m : Out L β} {b : List L → M γ} {R : β → List L → γ} (h : Writes m b R) {acc r y r'}
    (e : b acc r = (.ok y, r')) : ∃ ls x, m r = (ls, (.ok x, r')) ∧ y = R x (acc ++ ls) := by
  rw [h r acc] at e
  rcases hm : m r with ⟨ls, ⟨res, r2⟩⟩
  rw [hm] at e
  cases res <;> cases e
  exact ⟨_, _, rfl, rfl⟩

theorem writes_of_panic {L β γ : Type} {m : Out L β} {b : List L → M γ} {R : β → List L → γ} (h : Writes m b R) {acc r p r'}
    (e : b acc r = (.panic p, r')) : ∃ ls, m r = (ls, (.panic p, r')) := by
  rw [h r acc] at e
  rcases hm : m r with ⟨ls, ⟨res, r2⟩⟩
  rw [hm] at e
  cases res <;> cases e
  exact ⟨_, rfl⟩

theorem sayOption_round {F : FloatOps} {s cls q r} :
    (∀ l r', (do let o ← newOption s cls q; printOption F [] o) r = (.ok ([] ++ [l], true), r') →
      ∃ o r1, newOption s cls q r = (.ok o, r1) ∧ sayOption F () o r1 = ([l], (.ok ((), true), r'))) ∧
    (∀ e r', (do let o ← newOption s cls q; printOption F [] o) r = (.panic e, r') →
      newOption s cls q r = (.panic e, r') ∨
      ∃ o r1, newOption s cls q r = (.ok o, r1) ∧ sayOption F () o r1 = ([], (.panic e, r'))) := by
  constructor
  · intro l r' h
    simp only [M.bind_apply] at h
    rcases hn : newOption s cls q r with ⟨res, r1⟩
    rw [hn] at h
    cases res with
    | ok o =>
      obtain ⟨ls, x, h1, h2⟩ := writes_of_ok (writes_option F () o) h
      obtain ⟨u, go⟩ := x
      simp only [lines, List.nil_append, Prod.mk.injEq] at h2
      obtain ⟨rfl, rfl⟩ := h2
      exact ⟨o, r1, rfl, h1⟩
    | panic p => cases h
    | timeout => cases h
  · intro e r' h
    simp only [M.bind_apply] at h
    rcases hn : newOption s cls q r with ⟨res, r1⟩
    rw [hn] at h
    cases res with
    | ok o =>
      obtain ⟨ls, h1⟩ := writes_of_panic (writes_option F () o) h
      have := sayOption_quiet h1
      subst this
      exact .inr ⟨o, r1, rfl, h1⟩
    | panic p => cases h; exact .inl rfl
    | timeout => cases h

theorem options_out {r0 : Reg} (hN : Named r0) {C cls s F} (hcl : ClassAt r0 C cls)
    (hC : C = b!".google.protobuf.FileOptions") : ∀ (l : List (Ptr × Elem)) r, Present r0 l → Running r0 r →
    (∃ ls r', Out.steps (sayOption F) (stepsOf (optionPick s cls) l) () r = (ls, (.ok (), r'))) ∨
    ∃ ls e r' pre x post, Out.steps (sayOption F) (stepsOf (optionPick s cls) l) () r = (ls, (.panic e, r')) ∧
      l.filterMap optionOf = pre ++ x :: post ∧ Matching (OptionLine F r0 s cls) pre ls ∧
      ¬ ∃ f v, Sets F r0 s cls x f v := by
  intro l
  induction l with
  | nil => intro r _ _; exact .inl ⟨[], r, rfl⟩
  | cons x l ih =>
    intro r hp hl
    have hpx := hp x (by simp)
    have hpl : Present r0 l := fun y hy => hp y (List.mem_cons_of_mem _ hy)
    cases ho : optionOf x with
    | none =>
      have hs : optionPick s cls x.1 x.2.kind = none := by
        unfold optionOf at ho
        unfold optionPick
        split at ho
        · cases ho
        · next h => split
                    · next h1 => exact absurd h1 (h _ _)
                    · rfl
      rw [stepsOf_none hs, List.filterMap_cons_none ho]
      exact ih r hpl hl
    | some y =>
      obtain ⟨w, lit, hk, rfl⟩ : ∃ w lit, x.2.kind = .option w lit ∧ y = (x.1, w) := by
        unfold optionOf at ho
        split at ho
        · next w lit h => cases ho; exact ⟨w, lit, h, rfl⟩
        · cases ho
      have hs : optionPick s cls x.1 x.2.kind = some (newOption s cls x.1) := by
        unfold optionPick
        rw [hk]
      have hq : r0.kind x.1 = some (.option w lit) := by simp only [Reg.kind, hpx.1, Option.map_some, hk]
      rw [stepsOf_some hs, List.filterMap_cons_some ho]
      have hstep : ∀ r, Out.steps (sayOption F) (newOption s cls x.1 :: stepsOf (optionPick s cls) l) () r =
          (Out.call (newOption s cls x.1) >>= fun a => sayOption F () a >>= fun y =>
            if y.2 then Out.steps (sayOption F) (stepsOf (optionPick s cls) l) y.1 else Out.pure y.1) r := fun _ => rfl
      rw [hstep]
      simp only [Out.bind_apply, Out.call_apply]
      rcases option_round (s := s) (F := F) hN [] hcl hC hq hpx.2 hl with
        ⟨hs1, ln, r1, e1, hl1, hln⟩ | ⟨hs1, e, r1, e1⟩
      · obtain ⟨o, r2, g1, g2⟩ := sayOption_round.1 _ _ e1
        simp only [g1, g2, List.nil_append, if_true]
        rcases ih r1 hpl hl1 with ⟨ls, r', h⟩ | ⟨ls, e, r', pre, z, post, h, h2, h3, h4⟩
        · exact .inl ⟨ln :: ls, r', by simp [h]⟩
        · exact .inr ⟨ln :: ls, e, r', (x.1, w) :: pre, z, post, by simp [h], by simp [h2], .cons hln h3, h4⟩
      · refine .inr ⟨[], e, r1, [], (x.1, w), l.filterMap optionOf, ?_, rfl, .nil, hs1⟩
        rcases sayOption_round.2 _ _ e1 with g1 | ⟨o, r2, g1, g2⟩
        · simp only [g1]
        · simp only [g1, g2, List.nil_append]

theorem say_loaded {W fuel F path r n r0} (hc : CleanReachable WFFile ⟨r, []⟩) (hW : W.Sat WFFile)
    (hp : proto W fuel path r = (.ok (.ok n), r0)) {ls e r'} (h : sayAll W fuel F path r = (ls, (.panic e, r'))) :
    Stopped F r0 path ls := by
  have hc0 : CleanReachable WFFile ⟨r0, [n]⟩ := by simpa using clean_proto hc hW hp
  obtain ⟨a, i, rfl, hpi⟩ := proto_file hp
  have hN : Named r0 := named_of_clean hc0
  obtain ⟨o, hi, hg⟩ := reachable_inv (clean_reachable hc0)
  obtain ⟨fo, hf, hfn⟩ := hi.protosHeap _ _ hpi
  have hl0 : Running r0 r0 := ⟨CacheExt.refl _, o, hi⟩
  have hch : r0.children ⟨i, []⟩ = some fo.elems := by simp [Reg.children, hf, ProtoFile.childrenAt]
  have hroot : Rooted r0 ⟨i, []⟩ := ⟨fo, hf, trivial⟩
  have hname : File.name ⟨i, []⟩ r0 = (.ok path, r0) := by
    simp only [File.name, M.bind_apply, M.get_apply, hf, hfn, M.pure_apply]
  have hpkg : File.package ⟨i, []⟩ r0 = (.ok (firstPackage fo.elems), r0) := by
    simp only [File.package, M.bind_apply, M.get_apply, hch, Option.getD_some, M.pure_apply]
  obtain ⟨s', hopt, _, hd⟩ := lookup_scope (n := .wrapped a .file ⟨i, []⟩) (s := packageDot fo.elems) hc0 (by simp) rfl
    ⟨_, hch, rfl⟩
  have hsets : ∀ cls x f v, Sets F r0 s' cls x f v ↔ Sets F r0 (packageDot fo.elems) cls x f v := by
    intro cls x f v
    exact ⟨fun h => ⟨h.1.scope_congr hd, h.2⟩, fun h => ⟨h.1.scope_congr hd.symm, h.2⟩⟩
  simp only at hopt
  by_cases hcl : ∃ cls, ClassAt r0 b!".google.protobuf.FileOptions" cls
  · obtain ⟨cls, hcl⟩ := hcl
    have hseq := (seqOptions_apply (s := s') (p := ⟨i, []⟩)).1 cls hcl
    have hrun : Seq.out (overKids ⟨i, []⟩ (optionPick s' cls)) (sayOption F) () r0 =
        Out.steps (sayOption F) (stepsOf (optionPick s' cls) (r0.kids ⟨i, []⟩)) () r0 := by
      simp only [Seq.out, Out.bind_apply, Out.call_apply, overKids_apply, List.nil_append]
      rfl
    rcases options_out (s := s') (F := F) hN hcl rfl (r0.kids ⟨i, []⟩) r0 (present_kids hroot) hl0 with
      ⟨ols, r1, h2⟩ | ⟨ols, e1, r1, pre, x, post, h2, h3, h4, h5⟩
    · exfalso
      obtain ⟨i', hi', ⟨_, ls2, r2, h6, _⟩ | ⟨hno, e2, r2, h6⟩⟩ := show_loaded (F := F) hc hW hp
      · have := (writes_all W fuel F path).ends r
        rw [showFrom_nil, h6, h] at this
        cases this
      · -- every option has been printed, so the file is printable
        rw [hpi] at hi'
        cases hi'
        refine hno ⟨cls, fo.elems, hcl, hch, ?_⟩
        rcases options_loop (s := s') (F := F) hN hcl rfl (r0.kids ⟨i, []⟩) r0 [] (present_kids hroot) hl0 with
          ⟨h7, _⟩ | ⟨_, e3, r3, h7⟩
        · intro x hx
          rw [optionsOf_kids] at hx
          obtain ⟨f, v, h⟩ := h7 x hx
          exact ⟨f, v, (hsets _ _ _ _).mp h⟩
        · have hw := Writes.steps (enc := QuickStart.lines) (fun s a => writes_option F s a)
            (stepsOf (optionPick s' cls) (r0.kids ⟨i, []⟩)) () r0 []
          rw [h2] at hw
          simp only [QuickStart.lines] at hw
          rw [hw] at h7
          cases h7
    · refine ⟨i, fo.elems, ols, hpi, hch, ?_, .inr ⟨cls, pre, x, post, hcl, ?_, ?_, ?_⟩⟩
      · simp only [sayAll, Out.bind_apply, Out.call_apply, hp, hname, hpkg, Out.say_apply, hopt, hseq, hrun, h2] at h
        simp at h
        exact (by rw [← firstPackage_eq]; exact h.1.symm)
      · rw [optionsOf_kids, h3]
      · refine matching_mono ?_ h4
        rintro x l ⟨f, v, nm, k1, k2, k3⟩
        exact ⟨f, v, nm, (hsets _ _ _ _).mp k1, k2, k3⟩
      · rintro ⟨f, v, h⟩
        exact h5 ⟨f, v, (hsets _ _ _ _).mpr h⟩
  · obtain ⟨e1, r1, he⟩ := (seqOptions_apply (s := s') (p := ⟨i, []⟩)).2 (fun cls h => hcl ⟨cls, h⟩)
    refine ⟨i, fo.elems, [], hpi, hch, ?_, .inl ⟨rfl, fun cls h => hcl ⟨cls, h⟩⟩⟩
    simp only [sayAll, Out.bind_apply, Out.call_apply, hp, hname, hpkg, Out.say_apply, hopt, he] at h
    simp at h
    exact (by rw [← firstPackage_eq]; exact h.1.symm)

/-- C109: once the file is loaded, the program has printed all there is to print when it ends well, and the line of the
    file and the lines of the options before the first one that sets nothing when it panics. -/
theorem C109_printed {W fuel F path r n r0 ls res r'} (hW : W.Sat WFFile) (hn : newRegistry W fuel = (.ok (.ok ()), r))
    (hp : proto W fuel path r = (.ok (.ok n), r0)) (h : QuickStart.mainOut W fuel F path = (ls, (res, r'))) :
    (res = .ok (.ok ()) ∧ Printout F r0 path ls) ∨ ((∃ e, res = .panic e) ∧ Stopped F r0 path ls) := by
  have hc : CleanReachable WFFile ⟨r, []⟩ := ⟨W, fuel, r, [], hW, hn, by simp, trivial, rfl⟩
  have he := QuickStart.main_ending W fuel F path
  rw [h] at he
  have hr := C93_report (F := F) hW hn hp
  have hm : QuickStart.mainOut W fuel F path = sayAll W fuel F path r := by unfold QuickStart.mainOut; rw [hn]
  rw [hm] at h
  by_cases hpr : ∃ i, r0.protos path = some i ∧ Printable F r0 i
  · obtain ⟨ls', r2, h2⟩ := hr.2.1.mpr hpr
    have h3 := hr.1 _ _ h2
    rw [he] at h2
    rcases res with v | p | _
    · rcases v with e | u
      · cases h2
      · cases u
        cases h2
        exact .inl ⟨rfl, h3⟩
    · cases h2
    · cases h2
  · obtain ⟨e, r2, h2⟩ := hr.2.2.mpr hpr
    rw [he] at h2
    rcases res with v | p | _
    · rcases v with e | u
      · cases h2
      · cases u
        cases h2
    · cases h2
      exact .inr ⟨⟨_, rfl⟩, say_loaded hc hW hp h⟩
    · cases h2

/-- Nothing is printed before the file is loaded. -/
theorem C109_unloaded {W fuel F path ls res r'} (h : QuickStart.mainOut W fuel F path = (ls, (res, r')))
    (hu : ∀ r, newRegistry W fuel = (.ok (.ok ()), r) → ∀ n r0, proto W fuel path r ≠ (.ok (.ok n), r0)) : ls = [] := by
  unfold QuickStart.mainOut at h
  split at h
  · next r hn =>
    simp only [sayAll, Out.bind_apply, Out.call_apply] at h
    rcases hp : proto W fuel path r with ⟨res1, r1⟩
    rw [hp] at h
    rcases res1 with v | p | _
    · rcases v with e | n
      · simp only [Out.pure_apply] at h
        cases h
        rfl
      · exact absurd hp (hu r hn n r1)
    · cases h; rfl
    · cases h; rfl
  · cases h; rfl
  · cases h; rfl
  · cases h; rfl

/-- The program that prints is the program of C93: it ends the same way, and its lines are the lines of C93. -/
theorem C109_same (W : World) (fuel : Nat) (F : FloatOps) (path : Str) :
    QuickStart.main W fuel F path = ending (QuickStart.mainOut W fuel F path) := QuickStart.main_ending W fuel F path

/-! ### The linter -/

/-- Why the loop over the services stops at `x`. -/
def Why (W : World) (fuel : Nat) (R : Reg) (x : Str × Str) : Res (Except Readme.Failure Unit) → Prop
  | .ok (.error .noService) => (R.protos x.1).isSome = true ∧ ∀ s, ¬ Readme.ServiceAt R x s
  | .ok (.error (.noServiceFile e)) => Readme.LoadEnds W fuel x.1 (.ok (.error e))
  | .ok _ => False
  | .panic e => Readme.LoadEnds W fuel x.1 (.panic e)
  | .timeout => Readme.LoadEnds W fuel x.1 .timeout

open Protoast.Readme in
theorem services_out {W fuel R sa st tn} (hW : W.Sat LintFile) (hv : Valid R) (htn : Declared R tn st) :
    ∀ svcs c ls res r', Tracks R sa st c →
      Later (lintServices W fuel sa st svcs [] c.reg).2 R → sayServices W fuel sa st svcs c.reg = (ls, (res, r')) →
      (res = .ok (.ok ()) ∧ ReportOf R st svcs ls) ∨
      ∃ pre x post, svcs = pre ++ x :: post ∧ ReportOf R st pre ls ∧ Why W fuel R x res := by
  intro svcs
  induction svcs with
  | nil =>
    intro c ls res r' _ _ h
    cases h
    exact .inl ⟨rfl, [], .nil, rfl⟩
  | cons x rest ih =>
    intro c ls res r' ht hl h
    obtain ⟨path, name⟩ := x
    rcases service_step hW hv htn ht hl with ⟨res1, r1, hpr, hno⟩ | ⟨a, f, r1, r2, h1, h2, h3, h4⟩ |
      ⟨a, f, r1, b, s, r2, ls1, r3, pool3, h1, h2, h3, h4, h5⟩
    · have hthis : (proto W fuel path c.reg).1 = res1 := by rw [hpr]
      simp only [sayServices, sayService, Out.bind_apply, Out.call_apply, hpr] at h
      cases res1 with
      | panic e =>
        cases h
        exact .inr ⟨[], _, rest, rfl, ⟨[], .nil, rfl⟩, c, ht.clean, hthis⟩
      | timeout =>
        cases h
        exact .inr ⟨[], _, rest, rfl, ⟨[], .nil, rfl⟩, c, ht.clean, hthis⟩
      | ok v =>
        cases v with
        | error e =>
          cases h
          exact .inr ⟨[], _, rest, rfl, ⟨[], .nil, rfl⟩, c, ht.clean, hthis⟩
        | ok n => exact absurd rfl (hno n)
    · simp only [sayServices, sayService, Out.bind_apply, Out.call_apply, h1, h2] at h
      cases h
      exact .inr ⟨[], _, rest, rfl, ⟨[], .nil, rfl⟩, h3, h4⟩
    · have e : (lintServices W fuel sa st ((path, name) :: rest) [] c.reg).2 =
          (lintServices W fuel sa st rest [] r3).2 := by
        rw [lintServices]
        simp only [M.bind_apply, h1, h2, h3]
        rw [writes_services W fuel sa st rest r3 [], writes_services W fuel sa st rest r3 ([] ++ ls1)]
        rcases sayServices W fuel sa st rest r3 with ⟨ls', ⟨res', r4⟩⟩
        cases res' <;> rfl
      rw [e] at hl
      obtain ⟨ls2, u, k1, k2⟩ := writes_of_ok (Writes.run (seq := Service.methods s) (enc := Readme.lines) (s := ())
        (fun s a => writes_method fuel sa st s a)) (acc := []) (r := r2) h3
      simp only [Readme.lines, List.nil_append] at k2
      subst k2
      rcases hr : sayServices W fuel sa st rest r3 with ⟨ls2, ⟨res2, r4⟩⟩
      have hrest := ih ⟨r3, pool3⟩ ls2 res2 r4 h4 hl hr
      simp only [sayServices, sayService, Out.bind_apply, Out.call_apply, h1, h2, k1, Out.pure_apply, List.nil_append,
        List.append_nil] at h
      have e1 : ls = ls1 ++ ls2 ∧ res = res2 := by
        rw [hr] at h
        simp only [Prod.mk.injEq] at h
        exact ⟨h.1.symm, h.2.1.symm⟩
      obtain ⟨rfl, rfl⟩ := e1
      have hcons : ∀ pre l, ReportOf R st pre l → ReportOf R st ((path, name) :: pre) (ls1 ++ l) := by
        rintro pre l ⟨lss, g1, rfl⟩
        exact ⟨ls1 :: lss, .cons h5 g1, by simp⟩
      rcases hrest with ⟨rfl, g⟩ | ⟨pre, x, post, rfl, g, w⟩
      · exact .inl ⟨rfl, hcons _ _ g⟩
      · exact .inr ⟨(path, name) :: pre, x, post, rfl, hcons _ _ g, w⟩

open Protoast.Readme in
theorem Why.printed {W fuel R st pre x post ls res} (hst : StatusType R st) (hr : ReportOf R st pre ls)
    (h : Why W fuel R x res) : PrintedAt W fuel R (pre ++ x :: post) ls res := by
  rcases res with v | p | _
  · rcases v with e | u
    · cases e with
      | noService => exact ⟨st, pre, x, post, rfl, hst, hr, h⟩
      | noServiceFile e => exact ⟨st, pre, x, post, rfl, hst, hr, h⟩
      | noStatusType => exact absurd h (by simp [Why])
      | noStatusFile e => exact absurd h (by simp [Why])
      | noRegistry e => exact absurd h (by simp [Why])
    · exact absurd h (by simp [Why])
  · exact .inr ⟨st, pre, x, post, rfl, hst, hr, h⟩
  · exact .inr ⟨st, pre, x, post, rfl, hst, hr, h⟩

open Protoast.Readme in
/-- C110: when the linter has ended, in whatever way, it has printed exactly the report of the services it got through,
    in their order: of all of them if it ends well; of those before the service that it stops at if it stops there, which
    is because the file of that service cannot be loaded or does not declare it; and nothing if it stops earlier. -/
theorem C110_printed {W fuel svcs ls res r} (hW : W.Sat LintFile) (h : Readme.mainOut W fuel svcs = (ls, (res, r)))
    (hv : Valid r) : PrintedAt W fuel r svcs ls res := by
  unfold Readme.mainOut at h
  split at h
  · next r0 hn =>
    have hlint : lint W fuel svcs r0 = ending (Readme.sayAll W fuel svcs r0) := Readme.lint_ending W fuel svcs r0
    rw [h] at hlint
    obtain ⟨res', hres⟩ : ∃ res', lint W fuel svcs r0 = (res', r) := by
      rw [hlint]
      unfold ending
      split
      · next e => cases e; exact ⟨_, rfl⟩
      · next e => cases e; exact ⟨_, rfl⟩
      · next e => cases e; exact ⟨_, rfl⟩
      · next e => cases e; exact ⟨_, rfl⟩
    rcases status_step hW hn svcs hres hv with ⟨res1, r1, h1, hno, h2⟩ | ⟨a, f, r1, h1, h2, h3, h4⟩ |
      ⟨a, f, r1, b, st, r2, pool, tn, h1, h2, h3, h4, h5, h6⟩
    · simp only [mainStatusPath_eq, mainStatusName_eq, Readme.sayAll, Out.bind_apply, Out.call_apply, h1] at h
      cases res1 with
      | panic e => cases h; exact .inl ⟨rfl, .inr h2⟩
      | timeout => cases h; exact .inl ⟨rfl, .inr h2⟩
      | ok v =>
        cases v with
        | error e => cases h; exact ⟨rfl, h2⟩
        | ok n => exact absurd rfl (hno n)
    · simp only [mainStatusPath_eq, mainStatusName_eq, Readme.sayAll, Out.bind_apply, Out.call_apply, h1, h2] at h
      cases h
      exact ⟨rfl, h3, h4⟩
    · have e : sayServices W fuel b st svcs r2 = (ls, (res, r)) := by
        simp only [mainStatusPath_eq, mainStatusName_eq, Readme.sayAll, Out.bind_apply, Out.call_apply, h1, h2, List.nil_append] at h
        exact h
      rcases services_out hW hv h4 svcs _ ls res r h5 (by simp only; rw [h6]; exact Later.refl _) e with
        ⟨rfl, g⟩ | ⟨pre, x, post, rfl, g, w⟩
      · exact ⟨st, h3, g⟩
      · exact w.printed h3 g
  · next e r0 hn => cases h; exact ⟨rfl, by rw [hn]⟩
  · next p r0 hn => cases h; exact .inl ⟨rfl, .inl (by rw [hn])⟩
  · next r0 hn => cases h; exact .inl ⟨rfl, .inl (by rw [hn])⟩

/-- The program that prints is the program of C89: it ends the same way, and its lines are the lines of C89. -/
theorem C110_same (W : World) (fuel : Nat) :
    Readme.main W fuel = ending (Readme.mainOut W fuel Readme.services) := Readme.main_ending W fuel

/-! ### The hypotheses are met -/

/-- `p.proto` sets an option of descriptor.proto, then one that exists nowhere, then one of descriptor.proto again. -/
def WP : World := Ex.worldOf [(descriptorPath, Ex.descriptor), (b!"p.proto",
  [Ex.el b!"p.proto" 1 (.packageK b!"p"), Ex.el b!"p.proto" 2 (.option b!"go_package" (Ex.lit b!"p.proto" b!"x")),
   Ex.el b!"p.proto" 3 (.option b!"nowhere" (Ex.lit b!"p.proto" b!"y")),
   Ex.el b!"p.proto" 4 (.option b!"go_package" (Ex.lit b!"p.proto" b!"z"))])]

theorem WP_sat : WP.Sat WFFile := by
  apply Ex.worldOf_sat
  intro x hx
  apply Ex.wfb_spec
  simp only [List.mem_cons, List.not_mem_nil, or_false] at hx
  rcases hx with rfl | rfl <;> decide +kernel

/-- The lines before a panic of the library, as words. -/
def saidThenPanicked (x : List QuickStart.Line × (Res (Except QuickStart.Failure Unit) × Reg)) :
    Option (List (List Str)) :=
  match x.2.1 with
  | .panic _ => some (x.1.map lineWords)
  | _ => none

/-- The program prints the line of the file and one option, and panics. -/
example : saidThenPanicked (QuickStart.mainOut WP 5 noFloats b!"p.proto") =
    some [[b!"p.proto", b!"p"], [b!"(.google.protobuf.FileOptions).go_package", b!"x"]] := by decide +kernel

/-- The hypotheses of `C109_printed`. -/
example : ∃ r n r0, WP.Sat WFFile ∧ newRegistry WP 5 = (.ok (.ok ()), r) ∧ proto WP 5 b!"p.proto" r = (.ok (.ok n), r0) ∧
    Stopped noFloats r0 b!"p.proto" (QuickStart.mainOut WP 5 noFloats b!"p.proto").1 := by
  have hn : newRegistry WP 5 = (.ok (.ok ()), (newRegistry WP 5).2) := Ex.ok_of_okOk (by decide +kernel)
  have hl : Ex.okOk (proto WP 5 b!"p.proto" (newRegistry WP 5).2).1 = true := by decide +kernel
  have hs : saidThenPanicked (QuickStart.mainOut WP 5 noFloats b!"p.proto") ≠ none := by decide +kernel
  rcases hp : proto WP 5 b!"p.proto" (newRegistry WP 5).2 with ⟨res, r0⟩
  rw [hp] at hl
  rcases res with v | p | _
  · rcases v with e | n
    · cases hl
    · refine ⟨_, n, r0, WP_sat, hn, hp, ?_⟩
      rcases C109_printed (F := noFloats) (ls := (QuickStart.mainOut WP 5 noFloats b!"p.proto").1)
        (res := (QuickStart.mainOut WP 5 noFloats b!"p.proto").2.1) (r' := (QuickStart.mainOut WP 5 noFloats b!"p.proto").2.2)
        WP_sat hn hp rfl with ⟨h, _⟩ | ⟨_, h⟩
      · simp only [saidThenPanicked, h, ne_eq, not_true_eq_false] at hs
      · exact h
  · cases hl
  · cases hl

/-- The services of the README, then one that is not declared where it is looked for. -/
def svcsB : List (Str × Str) := Readme.services ++ [(storagePath, b!"Nope"), (b!"none.proto", b!"Never")]

/-- The linter prints the report of the two services and stops at the third. -/
example : (Readme.mainOut WLb 8 svcsB).1 =
      [.onlyStatus { filename := storagePath, line := 8 } b!".meta.v1.ResponseStatus",
       .missing { filename := storagePath, line := 11 } b!".meta.v1.ResponseStatus" b!".service.storage.v1.Storage.Get"] ∧
    (match (Readme.mainOut WLb 8 svcsB).2.1 with | .ok (.error .noService) => true | _ => false) = true := by
  decide +kernel

/-- The hypotheses of `C110_printed`. -/
example : WLb.Sat Readme.LintFile ∧ Readme.Valid (Readme.mainOut WLb 8 svcsB).2.2 :=
  ⟨WLb_sat, validB_spec (by decide +kernel)⟩

end Protoast.Props
