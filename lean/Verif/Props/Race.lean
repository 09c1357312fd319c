import Verif.Props.Locked
/-
  C98: calls made by several goroutines without a lock.
-/
namespace Protoast.Props
open Protoast.Small

/-- Goroutines with nothing but their calls to make. -/
def started (r : Reg) (programs : List (List Op)) : System := ⟨r, programs.map fun p => ⟨[], none, p, []⟩⟩

/-- All goroutines have made all their calls. -/
def Done (s : System) : Prop := ∀ (i : Nat) g, s.gs[i]? = some g → g.finished

/-- The calls of the goroutines came to what they come to in some sequential order, which has the calls of each goroutine
    in their order: as many handles, the same answers, the same panics. -/
def SameAsSequential (r : Reg) (programs : List (List Op)) (s : System) : Prop :=
  ∃ history : List (Nat × Op), (∀ x ∈ history, x.1 < programs.length) ∧
    (∀ (i : Nat) p, programs[i]? = some p → callsOf i history = p) ∧
    ∀ (i : Nat) g c, s.gs[i]? = some g → ((started r programs).callers.exec history).all[i]? = some c →
      g.results.length = c.results.length ∧
      ∀ (k : Nat) x y, g.results[k]? = some x → c.results[k]? = some y →
        match x, y with
        | .ok a, .ok b => a.1.length = b.1.length ∧ a.2 = b.2
        | .panic e, .panic e' => e = e'
        | .timeout, .timeout => True
        | _, _ => False

/-- C98, the full statement: on a new registry, whatever the goroutines call and however their steps interleave, the
    calls come to what they come to in some sequential order. -/
def C98 : Prop := ∀ (W : World) (fuel : Nat) (r0 : Reg) (programs : List (List Op)) (schedule : List Nat),
  newRegistry W fuel = (.ok (.ok ()), r0) → Done ((started r0 programs).run schedule) →
    SameAsSequential r0 programs ((started r0 programs).run schedule)

/-! ### It does not hold -/

/-- One goroutine loads a file. The other one does too, looks a message up in it and asks for the type of its first field
    twice. -/
def racePrograms : List (List Op) :=
  [[.proto Ex.W 5 Ex.pa],
   [.proto Ex.W 5 Ex.pa, .query 0 (.named .fileMessage b!"M"), .query 1 (.iter .messageFields 0), .query 2 (.plain .fieldType),
    .query 2 (.plain .fieldType)]]

/-- The first goroutine is interrupted when it has recorded the file but not indexed it. The second one finds the file
    loaded and makes its calls but the last. The first one finishes. Then the second one makes its last call. -/
def raceSchedule : List Nat := List.replicate 5 0 ++ List.replicate 23 1 ++ List.replicate 100 0 ++ List.replicate 100 1

/-- The histories in which the first caller makes a call and goes on as `f` says. -/
def mergeOne {α : Type} (f : List α → List (List (Nat × α))) (x : α) : List α → List (List (Nat × α))
  | [] => (f []).map ((0, x) :: ·)
  | y :: ys => (f (y :: ys)).map ((0, x) :: ·) ++ (mergeOne f x ys).map ((1, y) :: ·)

/-- The histories of two callers with these calls. -/
def merges {α : Type} : List α → List α → List (List (Nat × α))
  | [] => fun ys => [ys.map ((1, ·))]
  | x :: xs => mergeOne (merges xs) x

theorem merges_spec : ∀ {h : List (Nat × Op)} {xs ys : List Op}, (∀ x ∈ h, x.1 < 2) → callsOf 0 h = xs → callsOf 1 h = ys →
    h ∈ merges xs ys := by
  intro h
  induction h with
  | nil => intro xs ys _ h0 h1; cases h0; cases h1; simp [callsOf, merges]
  | cons x h ih =>
    intro xs ys hlt h0 h1
    obtain ⟨i, op⟩ := x
    have hi : i < 2 := hlt (i, op) (by simp)
    have hrest : ∀ x ∈ h, x.1 < 2 := fun x hx => hlt x (by simp [hx])
    match i, hi with
    | 0, _ =>
      have e0 : callsOf 0 ((0, op) :: h) = op :: callsOf 0 h := rfl
      have e1 : callsOf 1 ((0, op) :: h) = callsOf 1 h := rfl
      rw [e0] at h0
      rw [e1] at h1
      subst h0
      have := ih hrest rfl h1
      cases ys with
      | nil => simpa [merges, mergeOne] using this
      | cons y ys => simpa [merges, mergeOne] using this
    | 1, _ =>
      have e0 : callsOf 0 ((1, op) :: h) = callsOf 0 h := rfl
      have e1 : callsOf 1 ((1, op) :: h) = op :: callsOf 1 h := rfl
      rw [e0] at h0
      rw [e1] at h1
      subst h1
      have := ih hrest h0 rfl
      cases xs with
      | nil => simpa [merges] using this
      | cons y ys => simpa [merges, mergeOne] using this

/-- The number of handles of a reply. -/
def handleCount : Res Reply → Option Nat
  | .ok x => some x.1.length
  | _ => none

/-- C98 does not hold: Proto records a file before it indexes it, and another goroutine that loads the same file meanwhile
    gets it at once. The type of a field of a message type is then nil, for as long as the registry is used: the nil is
    remembered. In every sequential order the field has a type. -/
theorem C98_false : ¬ C98 := by
  intro hC
  have hdone : Done ((started Ex.r0 racePrograms).run raceSchedule) := by
    have hb : (((started Ex.r0 racePrograms).run raceSchedule).gs.all fun g => g.running.isNone && g.todo.isEmpty) = true := by
      decide +kernel
    intro i g hg
    have := List.all_eq_true.mp hb g (List.mem_of_getElem? hg)
    simpa [Goroutine.finished] using this
  obtain ⟨history, hlt, hcalls, hsame⟩ := hC Ex.W 5 Ex.r0 racePrograms raceSchedule Ex.W_ok hdone
  have hm := merges_spec hlt (hcalls 0 _ rfl) (hcalls 1 _ rfl)
  have hall : ∀ h ∈ merges (racePrograms[0]!) (racePrograms[1]!),
      (((started Ex.r0 racePrograms).callers.exec h).all[1]?.map fun c => c.results.map handleCount) =
        some [some 1, some 1, some 1, some 1, some 1] := by
    decide +kernel
  have hseq := hall history hm
  have hrun : (((started Ex.r0 racePrograms).run raceSchedule).gs[1]?.map fun g => g.results.map handleCount) =
      some [some 1, some 1, some 1, some 0, some 0] := by
    decide +kernel
  obtain ⟨c, hc, ec⟩ := Option.map_eq_some_iff.mp hseq
  obtain ⟨g, hg, eg⟩ := Option.map_eq_some_iff.mp hrun
  have hk := (hsame 1 g c hg hc).2 4
  have l1 : g.results.length = 5 := by have := congrArg List.length eg; simpa using this
  have l2 : c.results.length = 5 := by have := congrArg List.length ec; simpa using this
  have hx : handleCount (g.results[4]'(by omega)) = some 0 := by
    have := congrArg (·[4]?) eg
    simpa [List.getElem?_eq_getElem, l1] using this
  have hy : handleCount (c.results[4]'(by omega)) = some 1 := by
    have := congrArg (·[4]?) ec
    simpa [List.getElem?_eq_getElem, l2] using this
  have := hk _ _ (List.getElem?_eq_getElem (by omega)) (List.getElem?_eq_getElem (by omega))
  revert this hx hy
  generalize g.results[4]'(by omega) = x
  generalize c.results[4]'(by omega) = y
  intro hx hy this
  cases x <;> cases y <;> simp_all [handleCount]

/-! ### A wrong type -/

/-- A message `X`, and a message `M` with a field `f` of type `X` and a message `X` of its own. -/
def shadowed : List Elem :=
  let f := Ex.pa
  [Ex.el f 1 (.message b!"X" false),
   Ex.el f 2 (.message b!"M" false) [Ex.fld f 3 b!"f" b!"X" 1, Ex.el f 4 (.message b!"X" false)]]

/-- The world with this file. -/
def shadowedWorld : World := Ex.worldOf [(descriptorPath, Ex.descriptor), (Ex.pa, shadowed)]

/-- Its registry. -/
def shadowedReg : Reg := (newRegistry shadowedWorld 5).2

/-- As `racePrograms`. -/
def shadowedPrograms : List (List Op) :=
  [[.proto shadowedWorld 5 Ex.pa],
   [.proto shadowedWorld 5 Ex.pa, .query 0 (.named .fileMessage b!"M"), .query 1 (.iter .messageFields 0),
    .query 2 (.plain .fieldType), .query 2 (.plain .fieldType)]]

/-- The first goroutine is interrupted between the outer and the inner `X`. -/
def shadowedSchedule : List Nat := List.replicate 8 0 ++ List.replicate 24 1 ++ List.replicate 100 0 ++ List.replicate 100 1

/-- The declarations of the handles of a reply. -/
def declarations : Res Reply → Option (List (Option Ptr))
  | .ok x => some (x.1.map fun n => match n with | .wrapped _ _ p => some p | _ => none)
  | _ => none

/-- The type may also be wrong, and stay wrong: the field `f` of `M` has the outer `X` as its type, before and after the
    file is indexed completely; in every sequential order it has the `X` of `M`. -/
theorem C98_wrong_type :
    newRegistry shadowedWorld 5 = (.ok (.ok ()), shadowedReg) ∧
    (((started shadowedReg shadowedPrograms).run shadowedSchedule).gs.map fun g => (g.running.isNone, g.todo.length)) =
      [(true, 0), (true, 0)] ∧
    (((started shadowedReg shadowedPrograms).run shadowedSchedule).gs[1]?.map fun g => (g.results.drop 3).map declarations) =
      some [some [some ⟨1, [0]⟩], some [some ⟨1, [0]⟩]] ∧
    ∀ history : List (Nat × Op), (∀ x ∈ history, x.1 < 2) →
      (∀ (i : Nat) p, shadowedPrograms[i]? = some p → callsOf i history = p) →
      (((started shadowedReg shadowedPrograms).callers.exec history).all[1]?.map fun c =>
        (c.results.drop 3).map declarations) = some [some [some ⟨1, [1, 1]⟩], some [some ⟨1, [1, 1]⟩]] := by
  refine ⟨Ex.ok_of_okOk (by decide +kernel), by decide +kernel, by decide +kernel, fun history hlt hcalls => ?_⟩
  have hm := merges_spec hlt (hcalls 0 _ rfl) (hcalls 1 _ rfl)
  revert hm
  have hall : ∀ h ∈ merges (shadowedPrograms[0]!) (shadowedPrograms[1]!),
      (((started shadowedReg shadowedPrograms).callers.exec h).all[1]?.map fun c =>
        (c.results.drop 3).map declarations) = some [some [some ⟨1, [1, 1]⟩], some [some ⟨1, [1, 1]⟩]] := by
    decide +kernel
  exact hall history

/-! ### What holds -/

/-- C98 for goroutines that hold a lock during each call. (Without a lock it is proved only for goroutines that repeat
    the calls of a warm-up: `C96_readers`.) -/
theorem C98_partial {r0 : Reg} {programs : List (List Op)} {schedule : List Nat}
    (hL : Locked (started r0 programs) schedule) (hdone : Done ((started r0 programs).run schedule)) :
    SameAsSequential r0 programs ((started r0 programs).run schedule) := by
  have hidle : (started r0 programs).Idle := by
    intro i g hg
    have hg : (programs.map fun p => (⟨[], none, p, []⟩ : Goroutine))[i]? = some g := hg
    rw [List.getElem?_map] at hg
    cases hp : programs[i]? with
    | none => rw [hp] at hg; cases hg
    | some p => rw [hp] at hg; cases hg; rfl
  obtain ⟨history, h1, h2, h3⟩ := C97_locked hidle hL fun i g hg => (hdone i g hg).1
  have hlen : ((started r0 programs).run schedule).gs.length = programs.length := by
    have a := congrArg (fun c => c.all.length) h1
    simp only [callers_length] at a
    simpa [System.callers, started] using a
  refine ⟨history, fun x hx => by simpa [started] using h2 x hx, fun i p hp => ?_, fun i g c hg hc => ?_⟩
  · have hi := (List.getElem?_eq_some_iff.mp hp).1
    have hg := List.getElem?_eq_getElem (l := ((started r0 programs).run schedule).gs) (i := i) (by omega)
    have := h3 i ⟨[], none, p, []⟩ _ (by simp [started, hp]) hg
    rw [(hdone i _ hg).2, List.append_nil] at this
    exact this.symm
  · rw [← h1] at hc
    have : c = ⟨g.pool, g.results⟩ := by
      simp [System.callers, hg] at hc
      exact hc.symm
    subst this
    refine ⟨rfl, fun k x y hx hy => ?_⟩
    rw [hx] at hy
    cases hy
    cases x <;> simp

/-- The conditions of `C98_partial` are met by the same goroutines under a lock. -/
example : Locked (started Ex.r0 racePrograms) (lockTurns (started Ex.r0 racePrograms) 200 [1, 0, 1, 1, 1, 1]) ∧
    Done ((started Ex.r0 racePrograms).run (lockTurns (started Ex.r0 racePrograms) 200 [1, 0, 1, 1, 1, 1])) := by
  refine ⟨lockedB_spec (by decide +kernel), ?_⟩
  have hb : (((started Ex.r0 racePrograms).run (lockTurns (started Ex.r0 racePrograms) 200 [1, 0, 1, 1, 1, 1])).gs.all fun g =>
      g.running.isNone && g.todo.isEmpty) = true := by decide +kernel
  intro i g hg
  have := List.all_eq_true.mp hb g (List.mem_of_getElem? hg)
  simpa [Goroutine.finished] using this

end Protoast.Props
