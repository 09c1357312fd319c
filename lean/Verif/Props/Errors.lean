import Verif.Spec.Errors
import Verif.Props.Load
import Verif.Props.Outcome
/-
  C94: the errors of `Proto` and `NewRegistry`.
-/
namespace Protoast.Props

/-- C94 as a user of the package expects it: if no resolver knows the path, then `errors.Is(err, os.ErrNotExist)` holds
    of the error `Proto` returns. -/
def C94_statement : Prop :=
  ∀ c, Reachable AnyTree c → ∀ W fuel path, c.reg.protos path = none →
    (∀ R ∈ W.resolvers, ∃ e, R.resolve path = .error e ∧ e.isNotExist = true) →
    ∀ err r, proto W fuel path c.reg = (.ok (.error err), r) → Unwraps err .notExist

theorem unwraps_isNotExist {e : Err} : Unwraps e .notExist ↔ e.isNotExist = true := by
  constructor
  · intro h
    generalize ht : Err.notExist = t at h
    induction h with
    | here => subst ht; rfl
    | inside _ ih => exact ih ht
  · intro h
    induction e with
    | notExist => exact .here _
    | wrap c e ih => exact .inside (ih h)
    | _ => cases h

theorem unwraps_wrap {c : Str} {e t : Err} : Unwraps (.wrap c e) t ↔ t = .wrap c e ∨ Unwraps e t := by
  constructor
  · intro h
    cases h with
    | here => exact .inl rfl
    | inside h => exact .inr h
  · rintro (rfl | h)
    · exact .here _
    · exact .inside h

/-- Whether some resolver does not deny the path. -/
theorem firstHit_or (path : Str) : ∀ rs : List Resolver,
    (∀ R ∈ rs, ∃ e, R.resolve path = .error e ∧ e.isNotExist = true) ∨ ∃ R, FirstHit rs path R := by
  intro rs
  induction rs with
  | nil => exact .inl fun R h => by cases h
  | cons R rs ih =>
    by_cases hR : ∃ e, R.resolve path = .error e ∧ e.isNotExist = true
    · rcases ih with h | ⟨R', pre, post, rfl, h1, h2⟩
      · refine .inl fun R' hR' => ?_
        rcases List.mem_cons.mp hR' with rfl | h'
        · exact hR
        · exact h R' h'
      · refine .inr ⟨R', R :: pre, post, rfl, fun R'' h => ?_, h2⟩
        rcases List.mem_cons.mp h with rfl | h
        · exact hR
        · exact h1 R'' h
    · refine .inr ⟨R, [], rs, rfl, ?_, ?_⟩
      · intro R' h; cases h
      · intro e he
        cases h : e.isNotExist with
        | false => rfl
        | true => exact (hR ⟨e, he, h⟩).elim

theorem locate_unknown (path : Str) : ∀ (rs : List Resolver),
    (∀ R ∈ rs, ∃ e, R.resolve path = .error e ∧ e.isNotExist = true) → locate path rs = .ok [] := by
  intro rs
  induction rs with
  | nil => intro _; rfl
  | cons R rs ih =>
    intro h
    obtain ⟨e, he, hne⟩ := h R (by simp)
    simp only [locate, he, hne, if_true]
    exact ih fun R' h' => h R' (List.mem_cons_of_mem _ h')

/-- If there is a cause, `protoFile` reports it. -/
theorem cause_reported {W : World} {path : Str} {cs : List Str} {e : Err} (h : Cause W path cs e) (r : Reg)
    (hn : r.protos path = none) : protoFile W path r = (.ok (.error (annotated cs e)), r) := by
  cases h with
  | unknown h => simp [protoFile, hn, locate_unknown path _ h, annotated]
  | nowhere hf h => simp [protoFile, hn, locate_firstHit hf, h, annotated]
  | resolver hf h => simp [protoFile, hn, locate_firstHit hf, h, annotated]
  | content hf h hne hl => simp [protoFile, hn, locate_firstHit hf, h, hne, hl, annotated]

theorem readable_or_cause (W : World) (path : Str) :
    (∃ elems, Readable W path elems) ∨ ∃ cs e, Cause W path cs e := by
  rcases firstHit_or path W.resolvers with h | ⟨R, h⟩
  · exact .inr ⟨_, _, .unknown h⟩
  · cases hr : R.resolve path with
    | error e => exact .inr ⟨_, e, .resolver h hr⟩
    | ok loc =>
      by_cases hl : loc = []
      · subst hl; exact .inr ⟨_, _, .nowhere h hr⟩
      · cases hw : W.load loc path with
        | error e => exact .inr ⟨_, e, .content h hr hl hw⟩
        | ok elems => exact .inl ⟨elems, R, loc, h, hr, hl, hw⟩

/-- What `protoFile` reports has a cause. -/
theorem reported_cause {W : World} {path : Str} {r r' : Reg} {e : Err} (hn : r.protos path = none)
    (h : protoFile W path r = (.ok (.error e), r')) : r' = r ∧ ∃ cs e0, Cause W path cs e0 ∧ e = annotated cs e0 := by
  rcases readable_or_cause W path with ⟨elems, hr⟩ | ⟨cs, e0, hc⟩
  · rw [readable_protoFile hn hr] at h; cases h
  · rw [cause_reported hc r hn] at h; cases h
    exact ⟨rfl, cs, e0, hc, rfl⟩

/-- A file has at most one cause of failure, and none if it can be read. -/
theorem cause_unique {W : World} {path : Str} {cs cs' : List Str} {e e' : Err} (h : Cause W path cs e)
    (h' : Cause W path cs' e') : annotated cs e = annotated cs' e' := by
  have h1 := cause_reported h Reg.empty rfl
  rw [cause_reported h' Reg.empty rfl] at h1
  simp only [Prod.mk.injEq, Res.ok.injEq, Except.error.injEq, and_true] at h1
  exact h1.symm

theorem cause_unreadable {W : World} {path : Str} {cs : List Str} {e : Err} (h : Cause W path cs e) :
    ∀ elems, ¬ Readable W path elems := by
  intro elems hr
  have h1 := cause_reported h Reg.empty rfl
  rw [readable_protoFile rfl hr] at h1
  cases h1

theorem annotated_text (leaf : Err → Str) (cs : List Str) (e : Err) :
    (annotated cs e).text leaf = cs.flatMap (fun c => c ++ b!": ") ++ e.text leaf := by
  induction cs with
  | nil => rfl
  | cons c cs ih => simp [annotated, Err.text, ih]

theorem annotated_isNotExist (cs : List Str) (e : Err) : (annotated cs e).isNotExist = e.isNotExist := by
  induction cs with
  | nil => rfl
  | cons c cs ih => exact ih

theorem annotated_unwraps {cs : List Str} {e t : Err} (h : Unwraps e t) : Unwraps (annotated cs e) t := by
  induction cs with
  | nil => exact h
  | cons c cs ih => exact .inside ih

/-- A world without resolvers. -/
def noWorld : World := ⟨[], fun _ _ => .error .notExist⟩

/-- C94 is false: the error says "not found", and `os.ErrNotExist` is not in its chain, because `Proto` drops the
    resolvers' errors. -/
theorem C94_false : ¬ C94_statement := by
  intro h
  have hr : Reachable AnyTree ⟨Ex.r0, []⟩ := ⟨Ex.W, 5, Ex.r0, [], fun _ _ _ _ => trivial, Ex.W_ok, by simp, rfl⟩
  have h1 := h ⟨Ex.r0, []⟩ hr noWorld 5 b!"nosuch.proto" (by decide +kernel) (by intro R h; cases h)
    (.wrap b!"resolve proto file nosuch.proto" .notFound) Ex.r0 (by rfl)
  rw [unwraps_isNotExist] at h1
  cases h1

/-- C94, the exact form: on a file that is not loaded, in any registry, `Proto` returns an error iff there is a cause,
    the registry is then unchanged, and the error is that cause under its annotations under the path asked for. -/
theorem C94_error (W : World) (fuel : Nat) (path : Str) (r : Reg) (hn : r.protos path = none) (err : Err) (r' : Reg) :
    proto W fuel path r = (.ok (.error err), r') ↔
      r' = r ∧ ∃ cs e, Cause W path cs e ∧ err = annotated ((b!"resolve proto file " ++ path) :: cs) e := by
  have hrep : ∀ cs e, Cause W path cs e →
      proto W fuel path r = (.ok (.error (annotated ((b!"resolve proto file " ++ path) :: cs) e)), r) := by
    intro cs e hc
    unfold proto demarkFile
    simp only [M.bind_apply, M.get_apply, hn, cause_reported hc r hn, M.pure_apply, annotated]
  constructor
  · intro h
    rcases readable_or_cause W path with ⟨elems, hr⟩ | ⟨cs, e, hc⟩
    · rw [proto_new hn (readable_protoFile hn hr)] at h
      unfold protoNew at h
      split at h <;> cases h
    · rw [hrep cs e hc] at h; cases h
      exact ⟨rfl, cs, e, hc, rfl⟩
  · rintro ⟨rfl, cs, e, hc, rfl⟩
    exact hrep cs e hc

/-- C94, the text: it begins with the path that was asked for and ends with the text of the cause. -/
theorem C94_text {W : World} {fuel : Nat} {path : Str} {r r' : Reg} {err : Err} (hn : r.protos path = none)
    (h : proto W fuel path r = (.ok (.error err), r')) (leaf : Err → Str) :
    ∃ cs e, Cause W path cs e ∧ Unwraps err e ∧ err.text leaf =
      b!"resolve proto file " ++ path ++ b!": " ++ cs.flatMap (fun c => c ++ b!": ") ++ e.text leaf := by
  obtain ⟨_, cs, e, hc, rfl⟩ := (C94_error W fuel path r hn err r').mp h
  refine ⟨cs, e, hc, annotated_unwraps (.here _), ?_⟩
  rw [annotated_text]
  simp

/-- C94, what holds: `errors.Is(err, os.ErrNotExist)` holds of the error iff a resolver located the file and the
    file then could not be opened (it vanished, or the resolver was wrong). -/
theorem C94_partial {W : World} {fuel : Nat} {path : Str} {r r' : Reg} {err : Err} (hn : r.protos path = none)
    (h : proto W fuel path r = (.ok (.error err), r')) :
    Unwraps err .notExist ↔ ∃ R loc e, FirstHit W.resolvers path R ∧ R.resolve path = .ok loc ∧ loc ≠ [] ∧
      W.load loc path = .error e ∧ Unwraps e .notExist := by
  obtain ⟨_, cs, e, hc, rfl⟩ := (C94_error W fuel path r hn err r').mp h
  rw [unwraps_isNotExist, annotated_isNotExist]
  constructor
  · intro he
    cases hc with
    | unknown _ => cases he
    | nowhere _ _ => cases he
    | resolver hf hr =>
      obtain ⟨_, _, _, _, h2⟩ := hf
      rw [h2 _ hr] at he; cases he
    | content hf h1 h2 h3 => exact ⟨_, _, _, hf, h1, h2, h3, unwraps_isNotExist.mpr he⟩
  · rintro ⟨R, loc, e', hf, h1, h2, h3, h4⟩
    have hu := congrArg Err.isNotExist (cause_unique hc (.content hf h1 h2 h3))
    rw [annotated_isNotExist, annotated_isNotExist] at hu
    rw [hu]; exact unwraps_isNotExist.mp h4

theorem new_registry_cause (W : World) (fuel : Nat) (err : Err) (r : Reg) :
    newRegistry W fuel = (.ok (.error err), r) ↔
      r = Reg.empty ∧ ∃ cs e, Cause W descriptorPath cs e ∧ err = annotated (b!"set up proto descriptor" :: cs) e := by
  have h0 : Reg.empty.protos descriptorPath = none := rfl
  constructor
  · intro h
    rcases readable_or_cause W descriptorPath with ⟨elems, hr⟩ | ⟨cs, e, hc⟩
    · unfold newRegistry demarkFile at h
      simp only [M.bind_apply, readable_protoFile h0 hr] at h
      split at h <;> first | cases h | (rename_i heq; split at heq <;> cases heq <;> cases h)
    · unfold newRegistry demarkFile at h
      simp only [M.bind_apply, cause_reported hc Reg.empty h0, M.pure_apply] at h
      cases h
      exact ⟨rfl, cs, e, hc, rfl⟩
  · rintro ⟨rfl, cs, e, hc, rfl⟩
    unfold newRegistry demarkFile
    simp only [M.bind_apply, cause_reported hc Reg.empty h0, M.pure_apply, annotated]

/-- C94 for `NewRegistry`: the error is the cause for the descriptor file. -/
theorem C94_new_registry (W : World) (fuel : Nat) (err : Err) (r : Reg) :
    newRegistry W fuel = (.ok (.error err), r) ↔
      r = Reg.empty ∧ ∃ cs e, Cause W b!"google/protobuf/descriptor.proto" cs e ∧ err = annotated (b!"set up proto descriptor" :: cs) e := new_registry_cause W fuel err r

/-- The panic is about one file and carries its cause. -/
def CausedImport (W : World) (p : Panic) : Prop :=
  ∃ m cs e, p = .importFailed m (annotated cs e) ∧ Cause W m cs e

theorem visitImport_cause {W : World} : ∀ n g r p r',
    visitImport W n g r = (.panic p, r') → CausedImport W p := by
  intro n
  induction n with
  | zero => intro g r p r' h; cases h
  | succ n ih =>
    intro g r p r' h
    unfold visitImport at h
    simp only [M.bind_apply, M.get_apply] at h
    cases hp : r.protos g with
    | some i => rw [hp] at h; cases h
    | none =>
      rw [hp] at h
      simp only [M.bind_apply] at h
      rcases protoFile_cases W g r with ⟨i, hi, e⟩ | ⟨_, e', e⟩ | ⟨hn, nm, elems, hloc, hload, e⟩
      · rw [hi] at hp; cases hp
      · obtain ⟨_, cs, e0, hc, rfl⟩ := reported_cause hp e
        rw [e] at h
        cases h
        exact ⟨_, cs, e0, rfl, hc⟩
      · rw [e] at h
        simp only at h
        rw [acceptFile_eq (f := ⟨g, elems⟩) (by simp [Protoast.addFile])] at h
        exact runActs_panic_at (Q := fun _ => True) (R := CausedImport W) (fun _ _ _ _ => trivial) _
          (fun f _ r1 _ => ⟨visitImport_lext W n f r1, fun p' r2 h' => ih f r1 p' r2 h'⟩) _ trivial p r' h

/-- C94, the panic of a failed import: its value carries the path of the import and the cause of its failure, so
    `errors.Is` on the recovered value reaches what the resolver or the parser said. In any registry, loaded or not. -/
theorem C94_panic {W : World} {fuel : Nat} {path : Str} {r r' : Reg} {p : Panic}
    (h : proto W fuel path r = (.panic p, r')) :
    ∃ m cs e, p = .importFailed m (annotated cs e) ∧ Cause W m cs e ∧ Unwraps (annotated cs e) e ∧
      ∀ elems, ¬ Readable W m elems := by
  have hC : CausedImport W p := by
    rcases proto_cases W path r with ⟨j, _, e'⟩ | ⟨_, _, e'⟩ | ⟨hn, nm, elems, hloc, hload, e'⟩
    · rw [e'] at h; cases h
    · rw [e'] at h; cases h
    · rw [e'] at h
      unfold protoNew at h
      split at h
      · cases h
      · next p r1 hrun =>
        have := runActs_panic_at (Q := fun _ => True) (R := CausedImport W) (fun _ _ _ _ => trivial) _
          (fun f _ r1 _ => ⟨visitImport_lext W fuel f r1, fun p' r2 h' => visitImport_cause fuel f r1 p' r2 h'⟩)
          _ trivial _ _ hrun
        cases h; exact this
      · cases h
  obtain ⟨m, cs, e, rfl, hc⟩ := hC
  exact ⟨m, cs, e, rfl, hc, annotated_unwraps (.here _), cause_unreadable hc⟩

/-! ### Concrete cases -/

/-- Nobody knows the path: the whole text of the error. -/
example (leaf : Err → Str) (hl : leaf .notFound = b!"not found") :
    ∃ err r, proto noWorld 5 b!"nosuch.proto" Ex.r0 = (.ok (.error err), r) ∧
      err.text leaf = b!"resolve proto file nosuch.proto: not found" := by
  refine ⟨_, Ex.r0, (C94_error noWorld 5 b!"nosuch.proto" Ex.r0 (by decide +kernel) _ _).mpr
    ⟨rfl, [], .notFound, .unknown (by intro R h; cases h), rfl⟩, ?_⟩
  simp only [annotated, Err.text, hl]
  decide +kernel

/-- A resolver that fails for another reason: its name and its error are in the chain. -/
example : Cause ⟨[⟨b!"dir", fun _ => .error (.other 7)⟩, Ex.anyResolver], fun _ _ => .ok []⟩ b!"a.proto"
    [b!"resolve proto file path with dir"] (.other 7) := by
  have h : FirstHit [⟨b!"dir", fun _ => .error (.other 7)⟩, Ex.anyResolver] b!"a.proto"
      ⟨b!"dir", fun _ => .error (.other 7)⟩ := by
    refine ⟨[], [Ex.anyResolver], rfl, by simp, ?_⟩
    intro e he; cases he; rfl
  exact Cause.resolver (R := ⟨b!"dir", fun _ => .error (.other 7)⟩) h rfl

/-- A located file that cannot be opened: `errors.Is(err, os.ErrNotExist)` holds. -/
theorem ex_vanished : ∃ err r, proto badWorld 5 b!"missing.proto" Ex.r0 = (.ok (.error err), r) ∧ Unwraps err .notExist := by
  have hf : FirstHit badWorld.resolvers b!"missing.proto" Ex.anyResolver :=
    ⟨[], [], rfl, by simp, by intro e h; cases h⟩
  have hc : Cause badWorld b!"missing.proto" _ .notExist := .content hf rfl (by decide) rfl
  have h := (C94_error badWorld 5 b!"missing.proto" Ex.r0 (by decide +kernel) _ _).mpr ⟨rfl, _, _, hc, rfl⟩
  exact ⟨_, _, h, (C94_partial (by decide +kernel) h).mpr ⟨_, _, _, hf, rfl, by decide, rfl, .here _⟩⟩

/-- The panic of a missing import carries the path and the error of the file system. -/
example : ∃ cs, (proto badWorld 5 b!"bad.proto" Ex.r0).1 = .panic (.importFailed b!"missing.proto" (annotated cs .notExist)) :=
  ⟨[b!"get proto definition from resolved file /r/missing.proto"], by rfl⟩

end Protoast.Props
