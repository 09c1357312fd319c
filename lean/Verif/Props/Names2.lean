import Verif.Props.Names
/-
  C15, C17, C18, C20: where the code falls short of what users expect of loading, and what does hold.
-/
namespace Protoast.Props
open Protoast

/-! ### C15 -/

/-- First half of C15: a file reachable through imports that is neither loaded nor readable makes `Proto`
    return an error. -/
def C15_error_statement : Prop :=
  ∀ (c : Client) (W : World) (fuel : Nat) (path q : Str), CleanReachable WFFile c → W.Sat WFFile →
    WorldReach c.reg W path q → c.reg.protos q = none → (∀ elems, ¬ Readable W q elems) →
    (proto W fuel path c.reg).1 ≠ .timeout →
    ∃ e r', proto W fuel path c.reg = (.ok (.error e), r')

/-- Second half of C15: whenever `Proto` returns a file, the files it imports are loaded. -/
def C15_retry_statement : Prop :=
  ∀ (c : Client) (W : World) (fuel : Nat) (path q : Str) (n : Node) (r' : Reg), Reachable WFFile c →
    W.Sat WFFile → proto W fuel path c.reg = (.ok (.ok n), r') → Imports r' path q →
    ∃ i, r'.protos q = some i

def C15_statement : Prop := C15_error_statement ∧ C15_retry_statement

/-- A file that imports a file that does not exist. -/
def badFile : List Elem :=
  [Ex.el b!"bad.proto" 1 (.packageK b!"bad"), Ex.el b!"bad.proto" 2 (.importK b!"missing.proto"),
   Ex.el b!"bad.proto" 3 (.message b!"B" false)]
def badWorld : World := Ex.worldOf [(b!"bad.proto", badFile)]
theorem badWorld_wf : badWorld.Sat WFFile := by
  apply Ex.worldOf_sat
  intro x hx
  apply Ex.wfb_spec
  simp only [List.mem_cons, List.not_mem_nil, or_false] at hx
  subst hx
  decide +kernel

theorem badReadable : Readable badWorld b!"bad.proto" badFile := by
  refine ⟨Ex.anyResolver, b!"/r/bad.proto", ⟨[], [], rfl, by simp, ?_⟩, rfl, by decide, by rfl⟩
  intro e h; cases h

theorem missing_unreadable : ∀ elems, ¬ Readable badWorld b!"missing.proto" elems := by
  intro elems h
  obtain ⟨loc, _, _, h3⟩ := readable_locate h
  have : badWorld.load loc b!"missing.proto" = .error .notExist := by rfl
  rw [this] at h3
  cases h3

theorem ex_start_clean : CleanReachable WFFile ⟨Ex.r0, []⟩ :=
  ⟨Ex.W, 5, Ex.r0, [], Ex.W_wf, Ex.W_ok, by simp, trivial, rfl⟩

theorem bad_reach : WorldReach Ex.r0 badWorld b!"bad.proto" b!"missing.proto" :=
  .step (.refl _) (.inr ⟨by decide +kernel, badReadable⟩) (by decide +kernel)

/-- The first half of C15 is false: the call panics. -/
theorem C15_error_false : ¬ C15_error_statement := by
  intro h
  obtain ⟨e, r', h⟩ := h ⟨Ex.r0, []⟩ badWorld 5 b!"bad.proto" b!"missing.proto" ex_start_clean badWorld_wf
    bad_reach (by decide +kernel) missing_unreadable (by
      intro h
      have : (match (proto badWorld 5 b!"bad.proto" Ex.r0).1 with | .timeout => true | _ => false) = false := by
        decide +kernel
      simp only at h
      rw [h] at this
      cases this)
  have : Ex.isOk (proto badWorld 5 b!"bad.proto" Ex.r0).1 = false := by decide +kernel
  simp only at h
  rw [h] at this
  cases this

/-- The client after the panic. -/
def badClient : Client := Client.exec ⟨Ex.r0, []⟩ [.proto badWorld 5 b!"bad.proto"]

/-- The second half of C15 is false: after the panic the same call returns the file although its import is
    not loaded, and its message is not registered. -/
theorem C15_retry_false : ¬ C15_retry_statement := by
  intro h
  have hr : Reachable WFFile badClient :=
    ⟨Ex.W, 5, Ex.r0, _, Ex.W_wf, Ex.W_ok, by simpa [Op.Sat] using badWorld_wf, rfl⟩
  have hok : proto badWorld 5 b!"bad.proto" badClient.reg =
      (.ok (.ok (.wrapped 0 .file ⟨1, []⟩)), { badClient.reg with next := 1 }) := by rfl
  obtain ⟨i, hi⟩ := h badClient badWorld 5 b!"bad.proto" b!"missing.proto" _ _ hr badWorld_wf hok
    ⟨1, ⟨b!"bad.proto", badFile⟩, by decide +kernel, by rfl, by decide +kernel⟩
  have : badClient.reg.protos b!"missing.proto" = none := by decide +kernel
  simp only at hi
  rw [this] at hi
  cases hi

theorem C15_false : ¬ C15_statement := fun h => C15_error_false h.1

/-- The panics the visitor can raise are failed imports. -/
theorem runActs_panic {imp : Str → M Unit}
    (himp : ∀ g r p r', imp g r = (.panic p, r') → ∃ m e, p = .importFailed m e) :
    ∀ (as : List Act) r p r', runActs imp as r = (.panic p, r') → ∃ m e, p = .importFailed m e := by
  intro as
  induction as with
  | nil => intro r p r' h; cases h
  | cons a as ih =>
    intro r p r' h
    simp only [runActs, M.bind_apply] at h
    rcases hr : a.run imp r with ⟨res, r1⟩
    rw [hr] at h
    cases res with
    | ok u => exact ih _ _ _ h
    | panic q =>
      cases h
      cases a with
      | name s p => cases hr
      | scope v s => cases hr
      | imp f => exact himp _ _ _ _ hr
    | timeout => cases h

theorem visitImport_panic (W : World) : ∀ n g r p r', visitImport W n g r = (.panic p, r') →
    ∃ m e, p = .importFailed m e := by
  intro n
  induction n with
  | zero => intro g r p r' h; cases h
  | succ n ih =>
    intro g r p r' h
    unfold visitImport at h
    simp only [M.bind_apply, M.get_apply] at h
    cases hp : r.protos g with
    | some i => rw [hp] at h; cases h
    | none =>
      rw [hp] at h
      simp only [M.bind_apply] at h
      rcases protoFile_cases W g r with ⟨i, hi, e⟩ | ⟨_, e', e⟩ | ⟨hn, nm, elems, _, _, e⟩
      · rw [hi] at hp; cases hp
      · rw [e] at h; cases h; exact ⟨_, _, rfl⟩
      · rw [e] at h
        simp only at h
        rw [acceptFile_eq (f := ⟨g, elems⟩) (by simp [Protoast.addFile])] at h
        exact runActs_panic ih _ _ _ _ h

/-- What holds of C15: in a registry whose loads did not panic, a reachable missing or broken file makes
    `Proto` fail, with an error that leaves the registry as it was or with a panic that names the import, and
    no file is returned. Missing: that the failure is always an error (`C15_error_false`), and the state
    after the panic (`C15_retry_false`). -/
theorem C15_partial {c W fuel path q} (hc : CleanReachable WFFile c) (hW : W.Sat WFFile)
    (hq : WorldReach c.reg W path q) (hl : c.reg.protos q = none) (hm : ∀ elems, ¬ Readable W q elems)
    (ht : (proto W fuel path c.reg).1 ≠ .timeout) :
    (∃ e, proto W fuel path c.reg = (.ok (.error e), c.reg)) ∨
    (∃ m e r', proto W fuel path c.reg = (.panic (.importFailed m e), r')) := by
  have hno : ∀ n r', proto W fuel path c.reg ≠ (.ok (.ok n), r') := by
    intro n r' h
    obtain ⟨hreach, -⟩ := C09_world_closure hc hW h q hq
    obtain ⟨i, f, h1, h2, h3, -⟩ := C09_import_closure hc hW h q hreach
    have hnew : NewFrom W c.reg.heap.length r' := by
      have := proto_newFrom W fuel path c.reg; rw [h] at this; exact this
    have hlat : Later c.reg r' := by have := proto_later W fuel path c.reg; rw [h] at this; exact this
    by_cases hlt : i < c.reg.heap.length
    · rw [hlat.file hlt] at h2
      obtain ⟨o', hi', -⟩ := reachable_inv (clean_reachable hc)
      have := hi'.heapProtos _ _ h2
      rw [h3, hl] at this
      cases this
    · have := hnew i f (by omega) h2
      rw [h3] at this
      exact hm _ this
  rcases proto_cases W path c.reg with ⟨i, hi', e⟩ | ⟨_, er, e⟩ | ⟨hnone, name, elems, _, _, e⟩
  · exact absurd (e fuel) (hno _ _)
  · exact .inl ⟨er, e fuel⟩
  · right
    rw [e fuel] at ht hno ⊢
    unfold protoNew at ht hno ⊢
    rcases hrun : runActs (visitImport W fuel)
      (fileActs (.at ⟨c.reg.heap.length, []⟩) c.reg.heap.length elems)
      (addFile c.reg path elems) with ⟨res, r1⟩
    rw [hrun] at ht hno
    cases res with
    | ok u => exact absurd rfl (hno _ _)
    | panic p =>
      obtain ⟨m, e, rfl⟩ := runActs_panic (visitImport_panic W fuel) _ _ _ _ hrun
      exact ⟨m, e, r1, rfl⟩
    | timeout => exact absurd rfl ht

/-! ### C17 -/

/-- The full statement of C17. -/
def C17_statement : Prop :=
  ∀ (c : Client) (a i : Nat) (f : ProtoFile), CleanReachable WFFile c →
    Node.wrapped a .file ⟨i, []⟩ ∈ c.pool → c.reg.heap[i]? = some f →
    nodeIndex (.wrapped a .file ⟨i, []⟩) c.reg = (.ok (packageDot f.elems), c.reg)

/-- C17 is false: `b.proto`, loaded through the import of `a.proto`, has an empty index. -/
theorem C17_false : ¬ C17_statement := by
  intro h
  let ops : List Op := [.proto Ex.W 5 Ex.pa, .proto Ex.W 5 Ex.pb]
  let c : Client := Client.exec ⟨Ex.r0, []⟩ ops
  have hc : CleanReachable WFFile c :=
    ⟨Ex.W, 5, Ex.r0, ops, Ex.W_wf, Ex.W_ok, Ex.opsW_sat _ (by
      intro op hop W' f p e
      subst e
      simp only [ops, List.mem_cons, Op.proto.injEq, List.not_mem_nil, or_false] at hop
      rcases hop with h | h <;> (rw [h.1]; exact Ex.W_wf)), Ex.loadsB_spec (by decide +kernel), rfl⟩
  have h1 := h c 1 2 ⟨Ex.pb, Ex.fileB⟩ hc (Ex.hasA_spec (i := 1) (by decide +kernel)) (by rfl)
  have h2 : nodeIndex (.wrapped 1 .file ⟨2, []⟩) c.reg = (.ok [], c.reg) := by rfl
  rw [h2] at h1
  have h3 : packageDot Ex.fileB ≠ [] := by decide +kernel
  simp only [Prod.mk.injEq, Res.ok.injEq, and_true] at h1
  exact h3 h1.symm

/-- What holds of C17: a file that was loaded as the argument of `Proto` (not loaded before through an
    import) has its package as index, from then on in every later state. Missing: files first loaded through
    an import (`C17_false`), for which the next theorem says the index is empty or the package. -/
theorem C17_partial {c W fuel path n r' i f} (hr : Reachable WFFile c) (hW : W.Sat WFFile)
    (hnew : c.reg.protos path = none) (h : proto W fuel path c.reg = (.ok (.ok n), r'))
    (hi : r'.protos path = some i) (hf : r'.heap[i]? = some f) (ops : List Op)
    (hs : ∀ op ∈ ops, Op.Sat WFFile op) (a : Nat) :
    let c2 := Client.exec ⟨r', c.pool ++ [n]⟩ ops
    n.decl = some ⟨i, []⟩ ∧
      nodeIndex (.wrapped a .file ⟨i, []⟩) c2.reg = (.ok (packageDot f.elems), c2.reg) := by
  intro c2
  have hrn := reach_proto hr hW h
  have hr2 : Reachable WFFile c2 := reachable_exec hrn ops hs
  have hl : Later r' c2.reg := exec_later ops ⟨r', c.pool ++ [n]⟩
  rcases proto_cases W path c.reg with ⟨j, hj, e⟩ | ⟨_, er, e⟩ | ⟨hnone, name, elems, _, hload, e⟩
  · rw [hj] at hnew; cases hnew
  · rw [e] at h; cases h
  · rw [e] at h
    unfold protoNew at h
    have hx := runActs_lext (imp := visitImport W fuel)
      (fileActs (.at ⟨c.reg.heap.length, []⟩) c.reg.heap.length elems)
      (fun f _ r => visitImport_lext W fuel f r) (addFile c.reg path elems)
    rcases hrun : runActs (visitImport W fuel)
      (fileActs (.at ⟨c.reg.heap.length, []⟩) c.reg.heap.length elems)
      (addFile c.reg path elems) with ⟨res, r1⟩
    rw [hrun] at h hx
    cases res with
    | panic p => cases h
    | timeout => cases h
    | ok u =>
      have hd := visitFile_done (visitImport_lext W fuel) (visitImport_done hW fuel)
        (visitImport_sound hW fuel) (hW _ _ _ hload) (.inr rfl) (reachable_sound hr) hrun
      cases h
      simp only at hi hf hl
      have hpi : r1.protos path = some c.reg.heap.length := hx.protos _ _ (by simp [addFile, upd])
      rw [hpi] at hi
      cases hi
      have hff : r1.heap[c.reg.heap.length]? = some ⟨path, elems⟩ := hx.file (by simp [addFile])
      rw [hff] at hf
      cases hf
      refine ⟨rfl, ?_⟩
      have hf2 : c2.reg.heap[c.reg.heap.length]? = some ⟨path, elems⟩ := by
        rw [hl.file (List.getElem?_eq_some_iff.mp hff).1]; exact hff
      show (Res.ok (c2.reg.scope (.at ⟨c.reg.heap.length, []⟩)), c2.reg) = _
      congr 2
      unfold Reg.scope
      cases hsc : c2.reg.scopes (.at ⟨c.reg.heap.length, []⟩) with
      | some s =>
        obtain ⟨g, hg, hs⟩ := (reachable_sound hr2).fileScopes _ _ hsc
        rw [hf2] at hg
        cases hg
        simpa using hs
      | none =>
        by_cases hpk : packageDot elems = []
        · simp [hpk]
        · exfalso
          have := hd.2 hpk
          rw [hl.scopes _ (List.getElem?_eq_some_iff.mp hff).1] at hsc
          simp only at hsc
          rw [hsc] at this
          cases this

/-- In every state the index of a file is its package or empty, never anything else. -/
theorem C17_never_wrong {c i f} (hr : Reachable WFFile c) (hf : c.reg.heap[i]? = some f) (a : Nat) :
    nodeIndex (.wrapped a .file ⟨i, []⟩) c.reg = (.ok (packageDot f.elems), c.reg) ∨
    nodeIndex (.wrapped a .file ⟨i, []⟩) c.reg = (.ok [], c.reg) := by
  show (Res.ok (c.reg.scope (.at ⟨i, []⟩)), c.reg) = _ ∨ (Res.ok (c.reg.scope (.at ⟨i, []⟩)), c.reg) = _
  unfold Reg.scope
  cases hsc : c.reg.scopes (.at ⟨i, []⟩) with
  | none => right; rfl
  | some s =>
    obtain ⟨g, hg, hs⟩ := (reachable_sound hr).fileScopes _ _ hsc
    rw [hf] at hg
    cases hg
    left; simp [hs]

/-- The entry file of the example. -/
example : nodeIndex (.wrapped 0 .file ⟨1, []⟩) Ex.c2.reg = (.ok b!".p.q", Ex.c2.reg) := by rfl

/-! ### C18 -/

/-- Files with at most one package statement, anywhere at top level. -/
def LooseFile (_path : Str) (elems : List Elem) : Prop :=
  (∀ e ∈ elems, e.flat = true) ∧
  ((∀ e ∈ elems, e.kind.notPackage = true) ∨
    ∃ pre pos cm n cs post, elems = pre ++ .mk pos cm (.packageK n) cs :: post ∧
      n ≠ [] ∧ hasDotPrefix n = false ∧
      (∀ e ∈ pre, e.kind.notPackage = true) ∧ (∀ e ∈ post, e.kind.notPackage = true))

/-- The full statement of C18: wherever the package statement is, the registered names are the fully
    qualified ones. -/
def C18_statement : Prop :=
  ∀ (c : Client) (name : Str) (p : Ptr), Reachable LooseFile c → c.reg.registry name = some p →
    Declared c.reg name p

def lateFile : List Elem :=
  [Ex.el b!"late.proto" 1 (.message b!"M" false), Ex.el b!"late.proto" 2 (.packageK b!"late")]
def lateWorld : World := Ex.worldOf [(b!"late.proto", lateFile)]
def lateClient : Client := Client.exec ⟨Ex.r0, []⟩ [.proto lateWorld 5 b!"late.proto"]

theorem wf_loose {path elems} (h : WFFile path elems) : LooseFile path elems := by
  refine ⟨h.1, h.2.imp id ?_⟩
  rintro ⟨pre, pos, cm, n, cs, post, h1, h2, h3, h4, h5⟩
  refine ⟨pre, pos, cm, n, cs, post, h1, h2, h3, ?_, h5⟩
  intro e he
  have := h4 e he
  revert this
  cases e.kind <;> simp [Kind.preamble, Kind.notPackage]

theorem late_loose : lateWorld.Sat LooseFile := by
  apply Ex.worldOf_sat
  intro x hx
  simp only [List.mem_cons, List.not_mem_nil, or_false] at hx
  subst hx
  refine ⟨by decide +kernel, .inr ⟨[Ex.el b!"late.proto" 1 (.message b!"M" false)], _, _, b!"late", _, [],
    rfl, by decide, by decide, ?_, by simp⟩⟩
  intro e he
  simp only [List.mem_singleton] at he
  subst he
  rfl

/-- C18 is false: a message in front of the package statement is registered without the package. -/
theorem C18_false : ¬ C18_statement := by
  intro h
  have hW : Ex.W.Sat LooseFile := fun a b c d => wf_loose (Ex.W_wf a b c d)
  obtain ⟨f, hf, hq⟩ := h lateClient b!".M" ⟨1, [0]⟩
    ⟨Ex.W, 5, Ex.r0, _, hW, Ex.W_ok, by simpa [Op.Sat] using late_loose, rfl⟩ (by decide +kernel)
  have h1 : lateClient.reg.heap[1]? = some ⟨b!"late.proto", lateFile⟩ := by rfl
  simp only at hf
  rw [h1] at hf
  cases hf
  have : (⟨b!"late.proto", lateFile⟩ : ProtoFile).fqn [0] = some b!".late.M" := by decide +kernel
  rw [this] at hq
  revert hq
  decide

theorem scopeAt_prefix (f : ProtoFile) : ∀ (path : List Nat) (s : Str), f.scopeAt path = some s →
    packageDot f.elems <+: s := by
  intro path
  induction path with
  | nil =>
    intro s h
    simp only [ProtoFile.scopeAt, Option.some.injEq] at h
    exact ⟨[], by simp [h]⟩
  | cons i rest ih =>
    intro s h
    simp only [ProtoFile.scopeAt] at h
    cases h1 : f.scopeAt rest with
    | none => rw [h1] at h; simp at h
    | some s' =>
      rw [h1] at h
      cases h2 : f.elemAt (i :: rest) with
      | none => rw [h2] at h; simp at h
      | some e =>
        rw [h2] at h
        simp only at h
        have := ih s' h1
        cases hk : e.kind with
        | message n ext =>
          rw [hk] at h
          cases ext <;> simp only [Kind.memberScope, Option.some.injEq] at h <;> subst h
          · exact this.trans (List.prefix_append _ _)
          · exact this
        | service n =>
          rw [hk] at h
          simp only [Kind.memberScope, Option.some.injEq] at h; subst h
          exact this.trans (List.prefix_append _ _)
        | enum n => rw [hk] at h; simp only [Kind.memberScope, Option.some.injEq] at h; subst h; exact this
        | oneof n => rw [hk] at h; simp only [Kind.memberScope, Option.some.injEq] at h; subst h; exact this
        | _ => rw [hk] at h; cases h

theorem fqn_prefix (f : ProtoFile) (path : List Nat) (name : Str) (h : f.fqn path = some name) :
    (packageDot f.elems ++ [dot]) <+: name := by
  cases path with
  | nil => simp [ProtoFile.fqn] at h
  | cons i rest =>
    simp only [ProtoFile.fqn] at h
    cases h1 : f.scopeAt rest with
    | none => rw [h1] at h; simp at h
    | some s =>
      rw [h1] at h
      cases h2 : (f.elemAt (i :: rest)).bind (·.kind.declName) with
      | none => rw [h2] at h; simp at h
      | some n =>
        rw [h2] at h
        simp only [Option.some.injEq] at h
        subst h
        obtain ⟨t, ht⟩ := scopeAt_prefix f rest s h1
        cases t with
        | nil => rw [List.append_nil] at ht; rw [ht]; exact ⟨n, by simp⟩
        | cons x xs =>
          -- a scope below the package continues with a dot
          have hx : x = dot := by
            clear h2
            have key : ∀ (path : List Nat) (s : Str), f.scopeAt path = some s →
                s = packageDot f.elems ∨ ∃ t, s = packageDot f.elems ++ dot :: t := by
              intro path
              induction path with
              | nil =>
                intro s h
                simp only [ProtoFile.scopeAt, Option.some.injEq] at h
                exact .inl h.symm
              | cons i rest ih =>
                intro s h
                simp only [ProtoFile.scopeAt] at h
                cases h1 : f.scopeAt rest with
                | none => rw [h1] at h; simp at h
                | some s' =>
                  rw [h1] at h
                  have hgo : ∀ n, (s' ++ dot :: n) = packageDot f.elems ∨
                      ∃ t, (s' ++ dot :: n) = packageDot f.elems ++ dot :: t := by
                    intro n
                    right
                    rcases ih s' h1 with e | ⟨t, e⟩
                    · exact ⟨n, by rw [e]⟩
                    · exact ⟨t ++ dot :: n, by rw [e]; simp⟩
                  cases h2 : f.elemAt (i :: rest) with
                  | none => rw [h2] at h; simp at h
                  | some e =>
                    rw [h2] at h
                    simp only at h
                    have := ih s' h1
                    cases hk : e.kind with
                    | message n ext =>
                      rw [hk] at h
                      cases ext <;> simp only [Kind.memberScope, Option.some.injEq] at h <;> subst h
                      · exact hgo n
                      · exact this
                    | service n =>
                      rw [hk] at h
                      simp only [Kind.memberScope, Option.some.injEq] at h; subst h
                      exact hgo n
                    | enum n =>
                      rw [hk] at h; simp only [Kind.memberScope, Option.some.injEq] at h; subst h; exact this
                    | oneof n =>
                      rw [hk] at h; simp only [Kind.memberScope, Option.some.injEq] at h; subst h; exact this
                    | _ => rw [hk] at h; cases h
            rcases key rest s h1 with e | ⟨t, e⟩
            · rw [← ht] at e
              simp at e
            · rw [← ht] at e
              simp at e
              exact e.1
          subst hx
          exact ⟨xs ++ dot :: n, by rw [← ht]; simp⟩

/-- What holds of C18: when the package statement comes before the declarations (syntax, imports, options and
    comments may precede it, in any order), every name registered for a declaration of the file is in the
    file's package. Missing: package statements behind declarations (`C18_false`). -/
theorem C18_partial {c name p} (hr : Reachable WFFile c) (h : c.reg.registry name = some p) :
    ∃ f, c.reg.heap[p.file]? = some f ∧ (packageDot f.elems ++ [dot]) <+: name := by
  obtain ⟨f, hf, hq⟩ := (reachable_sound hr).names _ _ h
  exact ⟨f, hf, fqn_prefix f _ _ hq⟩

example : Reachable WFFile Ex.c2 ∧ Ex.c2.reg.registry b!".p.q.M.N" = some ⟨1, [5, 4]⟩ :=
  ⟨Ex.c2_wf, by decide +kernel⟩

/-! ### C20 -/

/-- The full statement of C20: once the type of a branch has been found, files loaded later (its imports are
    all loaded by then) do not change it. -/
def C20_statement : Prop :=
  ∀ (c : Client) (a : Nat) (p : Ptr) (ops : List Op) (n : Node) (r' : Reg), CleanReachable WFFile c →
    Node.wrapped a .oneofBranch p ∈ c.pool → OneOfBranch.type p c.reg = (.ok (some n), r') →
    (∀ op ∈ ops, Op.Sat WFFile op) → LoadsOK c ops → UniqueNames (c.exec ops).reg →
    ∃ a' r'' k q b, OneOfBranch.type p (c.exec ops).reg = (.ok (some (.wrapped a' k q)), r'') ∧
      n = .wrapped b k q

/-- Two unrelated files: the branch refers to `.u.T`; the other file declares `.u.v.T`. -/
def unA : List Elem :=
  [Ex.el b!"ua.proto" 1 (.packageK b!"u.v"), Ex.el b!"ua.proto" 2 (.importK b!"ub.proto"),
   Ex.el b!"ua.proto" 3 (.message b!"M" false)
     [Ex.el b!"ua.proto" 4 (.oneof b!"o") [Ex.el b!"ua.proto" 5 (.oneofField b!"x" b!"T" 1)]]]
def unB : List Elem :=
  [Ex.el b!"ub.proto" 1 (.packageK b!"u"), Ex.el b!"ub.proto" 2 (.message b!"T" false)]
def unC : List Elem :=
  [Ex.el b!"uc.proto" 1 (.packageK b!"u.v"), Ex.el b!"uc.proto" 2 (.message b!"T" false)]
def unWorld : World := Ex.worldOf [(b!"ua.proto", unA), (b!"ub.proto", unB), (b!"uc.proto", unC)]
theorem unWorld_wf : unWorld.Sat WFFile := by
  apply Ex.worldOf_sat
  intro x hx
  apply Ex.wfb_spec
  simp only [List.mem_cons, List.not_mem_nil, or_false] at hx
  rcases hx with rfl | rfl | rfl <;> decide +kernel
def unOps : List Op := [.proto unWorld 5 b!"ua.proto", .byName b!".u.v.M.x"]
def unClient : Client := Client.exec ⟨Ex.r0, []⟩ unOps
theorem unClient_clean : CleanReachable WFFile unClient :=
  ⟨Ex.W, 5, Ex.r0, unOps, Ex.W_wf, Ex.W_ok, Ex.opsW_sat _ (by
    intro op hop W' f p e
    subst e
    simp only [unOps, List.mem_cons, Op.proto.injEq, reduceCtorEq, List.not_mem_nil, or_false] at hop
    rw [hop.1]; exact unWorld_wf), Ex.loadsB_spec (by decide +kernel), rfl⟩

/-- C20 is false: loading an unrelated file changes the type. -/
theorem C20_false : ¬ C20_statement := by
  intro h
  have h1 : OneOfBranch.type ⟨1, [0, 0, 2]⟩ unClient.reg =
      (.ok (some (.wrapped 2 .message ⟨2, [1]⟩)), (wrap (.at ⟨2, [1]⟩) unClient.reg).2) := by rfl
  obtain ⟨a', r'', k, q, b, h2, h3⟩ := h unClient 1 ⟨1, [0, 0, 2]⟩ [.proto unWorld 5 b!"uc.proto"] _ _
    unClient_clean (Ex.hasA_spec (i := 1) (by decide +kernel)) h1
    (by simpa [Op.Sat] using unWorld_wf) (Ex.loadsB_spec (by decide +kernel))
    (Ex.uniqueB_spec (by decide +kernel))
  cases h3
  have h4 : (match (OneOfBranch.type ⟨1, [0, 0, 2]⟩
      (unClient.exec [.proto unWorld 5 b!"uc.proto"]).reg).1 with
      | .ok (some (.wrapped _ _ q)) => decide (q = ⟨2, [1]⟩)
      | _ => false) = false := by decide +kernel
  rw [h2] at h4
  simp at h4

/-- A registered name keeps denoting the same declaration as long as names are unique. -/
theorem registry_stable {c ops name p} (hr : Reachable WFFile c) (hs : ∀ op ∈ ops, Op.Sat WFFile op)
    (hu : UniqueNames (c.exec ops).reg) (h : c.reg.registry name = some p) :
    (c.exec ops).reg.registry name = some p := by
  obtain ⟨o, hi, hg⟩ := reachable_inv hr
  obtain ⟨o', hx, _, _⟩ := exec_inv ops hi hg
  obtain ⟨p', hp'⟩ := hx.names _ _ h
  have h1 := (reachable_sound (reachable_exec hr ops hs)).names _ _ hp'
  have h2 : Declared (c.exec ops).reg name p :=
    HeapLe.declared hx.heap ((reachable_sound hr).names _ _ h)
  rw [hp', hu name _ _ h1 h2]

/-- What holds of C20: if the further files declare no name the search for the reference tries (the declared
    name appended to an enclosing scope), a reference keeps denoting the same declaration, and a reference
    that denotes nothing keeps denoting nothing. Missing: unrelated files that do declare such a name, where it is false
    (`C20_false`). -/
theorem C20_partial {c ops scope t} (hr : Reachable WFFile c) (hs : ∀ op ∈ ops, Op.Sat WFFile op)
    (hu : UniqueNames (c.exec ops).reg)
    (hno : ∀ s', Encloses s' (dotted scope) → (c.exec ops).reg.defined (s' ++ dot :: t) = true →
      c.reg.defined (s' ++ dot :: t) = true)
    (habs : hasDotPrefix t = true → (c.exec ops).reg.defined t = true → c.reg.defined t = true) :
    (∀ q, Refers c.reg scope t q → Refers (c.exec ops).reg scope t q) ∧
    (Unresolved c.reg scope t → Unresolved (c.exec ops).reg scope t) := by
  constructor
  · intro q hq
    unfold Refers at hq ⊢
    split at hq
    · next hd => rw [if_pos hd]; exact registry_stable hr hs hu hq
    · next hd =>
      rw [if_neg hd]
      obtain ⟨x, ⟨s', h1, h2, h3, h4⟩, hx⟩ := hq
      have hx' := registry_stable hr hs hu hx
      refine ⟨x, ⟨s', h1, h2, by simp [Reg.defined, hx'], ?_⟩, hx'⟩
      intro s'' h5 h6
      cases hdef : (c.exec ops).reg.defined (s'' ++ dot :: t) with
      | false => rfl
      | true => have := hno s'' h5 hdef; rw [h4 s'' h5 h6] at this; cases this
  · intro hq
    unfold Unresolved at hq ⊢
    split at hq
    · next hd =>
      rw [if_pos hd]
      cases hx : (c.exec ops).reg.registry t with
      | none => rfl
      | some q =>
        have := habs hd (by simp [Reg.defined, hx])
        simp [Reg.defined, hq] at this
    · next hd =>
      rw [if_neg hd]
      intro s' h
      cases hx : (c.exec ops).reg.registry (s' ++ dot :: t) with
      | none => rfl
      | some q =>
        have := hno s' h (by simp [Reg.defined, hx])
        simp [Reg.defined, hq s' h] at this

/-- The type of a branch, once found, is the identical node after further calls if the name keeps its meaning. -/
theorem branch_kept {c a p nm t sq ops n r'} {l : List Node} (hr : Reachable WFFile c)
    (hm : Node.wrapped a .oneofBranch p ∈ c.pool) (hk : c.reg.kind p = some (.oneofField nm t sq))
    (h : OneOfBranch.type p c.reg = (.ok (some n), r'))
    (hpl : ∀ x ∈ l, x ∈ c.pool ++ [n])
    (hkeep : ∀ q, Refers c.reg (c.reg.scope (.at p)) t q → Refers (Client.exec ⟨r', l⟩ ops).reg
      ((Client.exec ⟨r', l⟩ ops).reg.scope (.at p)) t q) :
    ∃ r'', OneOfBranch.type p (Client.exec ⟨r', l⟩ ops).reg = (.ok (some n), r'') := by
  obtain ⟨o, hi, hg⟩ := reachable_inv hr
  have hfile : p.file < c.reg.heap.length := kind_file hk
  have hce : CacheExt c.reg r' := by have := (RO.branchType p).ext c.reg; rw [h] at this; exact this
  -- the state after the call is reachable up to the pool
  obtain ⟨i, hpool⟩ := List.getElem?_of_mem hm
  have hr1 : Reachable WFFile ⟨r', c.pool ++ [n]⟩ := by
    have := reachable_exec hr [.query i (.plain .branchType)] (by simp [Op.Sat])
    have he : c.exec [.query i (.plain .branchType)] = ⟨r', c.pool ++ [n]⟩ := by
      simp [Client.exec, Client.step, Op.run, hpool, Query.run, PlainQ.run, h]
    rw [he] at this; exact this
  obtain ⟨o1, hi1, hg1⟩ := reachable_inv hr1
  have hg1' : GoodL o1 r' l := fun x hx => hg1 x (hpl x hx)
  obtain ⟨o2, hx, hi2, hg2⟩ := exec_inv ops (c := ⟨r', l⟩) hi1 hg1'
  have hl : Later r' (Client.exec ⟨r', l⟩ ops).reg := exec_later ops ⟨r', l⟩
  have hk2 : (Client.exec ⟨r', l⟩ ops).reg.kind p = some (.oneofField nm t sq) := by
    rw [hl.kind (by rw [hce.heap]; exact hfile)]
    unfold Reg.kind Reg.elem at hk ⊢; rw [hce.heap]; exact hk
  have hsc : (Client.exec ⟨r', l⟩ ops).reg.scope (.at p) = c.reg.scope (.at p) := by
    rw [hl.scope (by rw [hce.heap]; exact hfile)]
    unfold Reg.scope; rw [hce.scopes]
  rw [branch_type_eq hk] at h
  rw [branch_type_eq hk2]
  cases hb : builtinType t with
  | some b =>
    rw [lookupType_builtin hb] at h
    cases h
    exact ⟨_, lookupType_builtin hb⟩
  | none =>
    rcases refers_or c.reg (c.reg.scope (.at p)) t with ⟨q, hq⟩ | hun
    · have hq2 := hkeep q hq
      obtain ⟨kd, k, e1, e2, e3, e4⟩ := lookupType_refers hi hb hq
      obtain ⟨kd', k', f1, f2, f3, f4⟩ := lookupType_refers hi2 hb hq2
      have hkd : kd' = kd := by
        have : (Client.exec ⟨r', l⟩ ops).reg.kind q = c.reg.kind q := by
          rw [hl.kind (by rw [hce.heap]; exact kind_file e1)]
          unfold Reg.kind Reg.elem; rw [hce.heap]
        rw [this, e1] at f1; cases f1; rfl
      subst hkd
      rw [e2] at f2; cases f2
      cases hty : kd'.isType with
      | false => obtain ⟨_, e⟩ := e4 hty; rw [e] at h; cases h
      | true =>
        obtain ⟨a1, r1, e⟩ := e3 hty
        obtain ⟨a2, r2, f⟩ := f3 hty
        rw [e] at h
        cases h
        refine ⟨r2, ?_⟩
        rw [f]
        -- both nodes live in the cache
        have hkf : k ≠ .file := by
          intro e; subst e; cases kd' <;> simp [wrapKind] at e2
        have g1 : GoodW o1 r' a1 k q := hg1 (.wrapped a1 k q) (by simp)
        have c1 : (Client.exec ⟨r', l⟩ ops).reg.cache (.at q) = some (some (.wrapped a1 k q)) :=
          hl.cache _ _ (g1.cached hkf)
        have c2 : ∀ m r3, lookupType p t (Client.exec ⟨r', l⟩ ops).reg = (.ok (some m), r3) →
            m = .wrapped a1 k q := by
          intro m r3 hm
          obtain ⟨x, h1, h2⟩ := refers_resolve hq2
          unfold lookupType at hm
          simp only [hb, M.bind_apply, M.get_apply, h1, h2] at hm
          unfold wrap at hm
          rw [c1] at hm
          simp only at hm
          split at hm <;> cases hm
          rfl
        rw [c2 _ _ f]
    · rw [lookupType_unresolved hb hun] at h
      cases h

/-- C20 at the API, same proviso: the type of a branch, once found, is the identical node after further
    calls. -/
theorem C20_branch_partial {c a p nm t sq ops n r'} (hr : Reachable WFFile c)
    (hm : Node.wrapped a .oneofBranch p ∈ c.pool) (hk : c.reg.kind p = some (.oneofField nm t sq))
    (h : OneOfBranch.type p c.reg = (.ok (some n), r')) (hs : ∀ op ∈ ops, Op.Sat WFFile op)
    (hu : UniqueNames (Client.exec ⟨r', c.pool⟩ ops).reg)
    (hno : ∀ s', Encloses s' (dotted (c.reg.scope (.at p))) →
      (Client.exec ⟨r', c.pool⟩ ops).reg.defined (s' ++ dot :: t) = true →
      c.reg.defined (s' ++ dot :: t) = true) :
    ∃ r'', OneOfBranch.type p (Client.exec ⟨r', c.pool⟩ ops).reg = (.ok (some n), r'') := by
  have hfile : p.file < c.reg.heap.length := kind_file hk
  have hce : CacheExt c.reg r' := by have := (RO.branchType p).ext c.reg; rw [h] at this; exact this
  obtain ⟨i, hpool⟩ := List.getElem?_of_mem hm
  have hr1 : Reachable WFFile ⟨r', c.pool ++ [n]⟩ := by
    have := reachable_exec hr [.query i (.plain .branchType)] (by simp [Op.Sat])
    have he : c.exec [.query i (.plain .branchType)] = ⟨r', c.pool ++ [n]⟩ := by
      simp [Client.exec, Client.step, Op.run, hpool, Query.run, PlainQ.run, h]
    rw [he] at this; exact this
  obtain ⟨o, hi, hg⟩ := reachable_inv hr
  obtain ⟨o1, hi1, hg1⟩ := reachable_inv hr1
  have hg1' : GoodL o1 r' c.pool := fun x hx => hg1 x (List.mem_append_left _ hx)
  obtain ⟨o2, hx, hi2, hg2⟩ := exec_inv ops (c := ⟨r', c.pool⟩) hi1 hg1'
  have hl : Later r' (Client.exec ⟨r', c.pool⟩ ops).reg := exec_later ops ⟨r', c.pool⟩
  have hsound : Sound (Client.exec ⟨r', c.pool⟩ ops).reg :=
    exec_sound ops hs ((reachable_sound hr).cacheExt hce)
  have hstable : ∀ name q, c.reg.registry name = some q →
      (Client.exec ⟨r', c.pool⟩ ops).reg.registry name = some q := by
    intro name q hq
    obtain ⟨q', hq'⟩ := hx.names _ _ (by rw [hce.registry]; exact hq)
    have h1 := hsound.names _ _ hq'
    have h0 := (reachable_sound hr).names _ _ hq
    have h2 : Declared (Client.exec ⟨r', c.pool⟩ ops).reg name q := by
      apply HeapLe.declared hx.heap
      obtain ⟨f, hf, hn⟩ := h0
      exact ⟨f, by simp only [hce.heap]; exact hf, hn⟩
    rw [hq', hu name _ _ h1 h2]
  have hsc : (Client.exec ⟨r', c.pool⟩ ops).reg.scope (.at p) = c.reg.scope (.at p) := by
    rw [hl.scope (by rw [hce.heap]; exact hfile)]
    unfold Reg.scope; rw [hce.scopes]
  refine branch_kept hr hm hk h (fun x hx => List.mem_append_left _ hx) fun q hq => ?_
  rw [hsc]
  unfold Refers at hq ⊢
  split at hq
  · next hd => rw [if_pos hd]; exact hstable _ _ hq
  · next hd =>
    rw [if_neg hd]
    obtain ⟨x, ⟨s', h1, h2, h3, h4⟩, hx⟩ := hq
    have hx' := hstable _ _ hx
    refine ⟨x, ⟨s', h1, h2, by simp [Reg.defined, hx'], ?_⟩, hx'⟩
    intro s'' h5 h6
    cases hdef : (Client.exec ⟨r', c.pool⟩ ops).reg.defined (s'' ++ dot :: t) with
    | false => rfl
    | true => have := hno s'' h5 hdef; rw [h4 s'' h5 h6] at this; cases this

/-- Loading the first example world's files does not disturb the branch of the unrelated schema. -/
example : Refers unClient.reg (unClient.reg.scope (.at ⟨1, [0, 0, 2]⟩)) b!"T" ⟨2, [1]⟩ ∧
    UniqueNames (unClient.exec [.proto Ex.W 5 Ex.pa]).reg ∧
    LoadsOK unClient [.proto Ex.W 5 Ex.pa] :=
  ⟨resolve_refers (c := b!".u.T") (by decide +kernel) (by decide +kernel),
    Ex.uniqueB_spec (by decide +kernel), Ex.loadsB_spec (by decide +kernel)⟩

/-! ### C61 -/

/-- C61, end to end: in a registry whose loads did not panic and whose declarations have distinct names, the
    declaration a field's type name denotes is determined by the source files alone: it is the declaration
    whose fully qualified name is the type name prefixed with the innermost enclosing scope of the field for
    which there is any. -/
theorem C61_type_from_source {c p fieldName t q} (hc : CleanReachable WFFile c) (hu : UniqueNames c.reg)
    (hd : Declared c.reg fieldName p) (hne : ∀ s v, c.reg.kind p ≠ some (.enumField s v))
    (ht : hasDotPrefix t = false) :
    Refers c.reg (c.reg.scope (.at p)) t q ↔
      ∃ s', Encloses s' fieldName ∧ Declared c.reg (s' ++ dot :: t) q ∧
        ∀ s'', Encloses s'' fieldName → s'.length < s''.length → ∀ q', ¬ Declared c.reg (s'' ++ dot :: t) q' := by
  have hsound := reachable_sound (clean_reachable hc)
  have hcomp := clean_complete hc
  have hdef : ∀ name, c.reg.defined name = true ↔ ∃ q, Declared c.reg name q := by
    intro name
    constructor
    · intro h
      obtain ⟨q, hq⟩ := Option.isSome_iff_exists.mp h
      exact ⟨q, hsound.names _ _ hq⟩
    · rintro ⟨q, f, hf, hq⟩
      exact (hcomp _ f (Nat.zero_le _) hf).names _ _ hq
  have hreg : ∀ name q, c.reg.registry name = some q ↔ Declared c.reg name q := by
    intro name q
    constructor
    · exact hsound.names _ _
    · intro h
      obtain ⟨q', hq'⟩ := Option.isSome_iff_exists.mp ((hdef name).mpr ⟨q, h⟩)
      rw [hq', hu name _ _ (hsound.names _ _ hq') h]
  have hscope : c.reg.scope (.at p) = fieldName := by
    obtain ⟨f, hf, hq⟩ := hd
    have hs := (hcomp p.file f (Nat.zero_le _) hf).scopes p.path fieldName hq (by
      intro e he s v hk
      apply hne s v
      unfold Reg.kind Reg.elem
      rw [hf]
      simp [he, hk])
    obtain ⟨s, hs⟩ := Option.isSome_iff_exists.mp hs
    have hpath : p.path ≠ [] := by intro h0; rw [h0] at hq; simp [ProtoFile.fqn] at hq
    obtain ⟨g, hg', hq'⟩ := hsound.scopes p s hs hpath
    rw [hf] at hg'
    cases hg'
    rw [hq] at hq'
    cases hq'
    simp [Reg.scope, hs]
  have hdot : dotted fieldName = fieldName := by
    obtain ⟨f, hf, hq⟩ := hd
    obtain ⟨t, ht⟩ := fqn_prefix f _ _ hq
    rw [← ht]
    unfold packageDot
    split <;> simp [dotted]
  rw [hscope]
  unfold Refers
  rw [if_neg (by simp [ht]), hdot]
  constructor
  · rintro ⟨x, ⟨s', h1, rfl, h3, h4⟩, hx⟩
    refine ⟨s', h1, (hreg _ _).mp hx, ?_⟩
    intro s'' h5 h6 q' hq'
    have := (hdef _).mpr ⟨q', hq'⟩
    rw [h4 s'' h5 h6] at this
    cases this
  · rintro ⟨s', h1, h2, h3⟩
    refine ⟨_, ⟨s', h1, rfl, (hdef _).mpr ⟨q, h2⟩, ?_⟩, (hreg _ _).mpr h2⟩
    intro s'' h5 h6
    cases hx : c.reg.defined (s'' ++ dot :: t) with
    | false => rfl
    | true =>
      obtain ⟨q', hq'⟩ := (hdef _).mp hx
      exact absurd hq' (h3 s'' h5 h6 q')

example : CleanReachable WFFile Ex.c2 ∧ UniqueNames Ex.c2.reg ∧
    Declared Ex.c2.reg b!".p.q.M.t" ⟨1, [0, 4]⟩ ∧
    Refers Ex.c2.reg (Ex.c2.reg.scope (.at ⟨1, [0, 4]⟩)) b!"T" ⟨2, [3]⟩ :=
  ⟨Ex.c2_clean, Ex.c2_unique, ⟨⟨Ex.pa, Ex.fileA⟩, by rfl, by decide +kernel⟩,
    resolve_refers (c := b!".p.T") (by decide +kernel) (by decide +kernel)⟩

end Protoast.Props
