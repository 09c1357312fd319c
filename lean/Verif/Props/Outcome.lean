import Verif.Props.Names2
import Verif.Proof.HeapSat
/-
  C64: the outcome of Proto, exactly.
-/
namespace Protoast.Props
open Protoast

/-! ### Panics name a reachable file that is missing -/

theorem runActs_panic_at {imp : Str → M Unit} {Q : Reg → Prop} {R : Panic → Prop}
    (hQ : ∀ r r', Q r → LExt r r' → Q r') : ∀ (as : List Act),
    (∀ f, Act.imp f ∈ as → ∀ r, Q r → LExt r (imp f r).2 ∧ ∀ p r', imp f r = (.panic p, r') → R p) →
    ∀ r, Q r → ∀ p r', runActs imp as r = (.panic p, r') → R p := by
  intro as
  induction as with
  | nil => intro _ r _ p r' h; cases h
  | cons a as ih =>
    intro himp r hq p r' h
    simp only [runActs, M.bind_apply] at h
    have hx : LExt r (a.run imp r).2 := by
      cases a with
      | name s p => exact LExt.setName s p r
      | scope v s => exact LExt.setScope v s r
      | imp f => exact (himp f (by simp) r hq).1
    rcases hr : a.run imp r with ⟨res, r1⟩
    rw [hr] at h hx
    cases res with
    | ok u => exact ih (fun f hf => himp f (List.mem_cons_of_mem _ hf)) r1 (hQ _ _ hq hx) p r' h
    | panic q =>
      cases h
      cases a with
      | name s p => cases hr
      | scope v s => cases hr
      | imp f => exact (himp f (by simp) r hq).2 _ _ hr
    | timeout => cases h

theorem notPackage_or (k : Kind) : k.notPackage = true ∨ ∃ n, k = .packageK n := by
  cases k <;> simp [Kind.notPackage]

theorem acts_flat_noImp {key : Vis} : (e : Elem) → (p : Ptr) → (s g : Str) → e.flat = true →
    Act.imp g ∈ (acts key e p s).1 → e.kind = .importK g := by
  have key1 : ∀ (e : Elem), e.flat = true → ∀ p s g, (∀ f, e.kind ≠ .importK f) → Act.imp g ∉ (acts key e p s).1 := by
    intro e
    induction e using Elem.ind with
    | h pos c k cs ih =>
      intro hfl p s g hni
      have hall : ∀ (es : List Elem), (∀ e ∈ es, e ∈ cs) → flatAll es = true → ∀ n s,
          Act.imp g ∉ (actsAll key es p n s).1 := by
        intro es
        induction es with
        | nil => intro _ _ n s; simp [actsAll]
        | cons e es ihe =>
          intro hmem hf n s
          simp only [flatAll, Bool.and_eq_true] at hf
          simp only [actsAll, List.mem_append, not_or]
          refine ⟨ih e (hmem e (by simp)) hf.1.2 _ _ g ?_, ihe (fun e he => hmem e (by simp [he])) hf.2 _ _⟩
          intro f hk
          rw [hk] at hf
          simp at hf
      have hcs := hall cs (fun _ h => h) (by simpa [Elem.flat] using hfl)
      cases k <;> simp [acts]
      case message name ext => cases ext <;> simp [hcs]
      case importK f => exact absurd rfl (hni f)
      all_goals exact hcs _ _
  intro e p s g hfl h
  by_cases hni : ∀ f, e.kind ≠ .importK f
  · exact absurd h (key1 e hfl p s g hni)
  · obtain ⟨f, hf⟩ := Classical.not_forall.mp hni
    rw [Classical.not_not] at hf
    rcases e with ⟨pos, c, k, cs⟩
    simp only [Elem.kind_mk] at hf
    subst hf
    simp [acts] at h
    simp [h]

/-- Every import the visitor follows is an import statement of the file. -/
theorem fileActs_topImports {key : Vis} {i : Nat} {elems : List Elem} (hfl : ∀ e ∈ elems, e.flat = true) {g : Str}
    (h : Act.imp g ∈ fileActs key i elems) : g ∈ topImports elems := by
  have : ∀ (es : List Elem), (∀ e ∈ es, e.flat = true) → ∀ n s,
      Act.imp g ∈ (actsAll key es ⟨i, []⟩ n s).1 → g ∈ topImports es := by
    intro es
    induction es with
    | nil => intro _ n s h; simp [actsAll] at h
    | cons e es ih =>
      intro hfl n s h
      simp only [actsAll, List.mem_append] at h
      rcases h with h | h
      · have := acts_flat_noImp e _ _ _ (hfl e (by simp)) h
        simp [topImports, this]
      · have := ih (fun e he => hfl e (by simp [he])) _ _ h
        simp only [topImports, List.mem_filterMap, List.mem_cons] at this ⊢
        obtain ⟨x, hx, hx'⟩ := this
        exact ⟨x, .inr hx, hx'⟩
  exact this elems hfl 0 [] h

theorem readable_protoFile {W : World} {path elems} {r : Reg} (hn : r.protos path = none)
    (h : Readable W path elems) :
    protoFile W path r = (.ok (.ok r.heap.length), addFile r path elems) := by
  obtain ⟨loc, h1, h2, h3⟩ := readable_locate h
  unfold protoFile addFile
  simp [hn, h1, h2, h3]

/-- A panic of the visitor is about a file that is reachable through imports and has no contents. -/
def MissingImport (r0 : Reg) (W : World) (path : Str) (p : Panic) : Prop :=
  ∃ m e, p = .importFailed m e ∧ WorldReach r0 W path m ∧ m ≠ path ∧ ∀ elems, ¬ Contents r0 W m elems

theorem visitImport_missing {W : World} (hW : W.Sat WFFile) {r0 : Reg} {path : Str} : ∀ n g r,
    LExt r0 r → (r.protos path).isSome = true → WorldReach r0 W path g → ∀ p r',
    visitImport W n g r = (.panic p, r') → MissingImport r0 W path p := by
  intro n
  induction n with
  | zero => intro g r _ _ _ p r' h; cases h
  | succ n ih =>
    intro g r hx hpath hg p r' h
    unfold visitImport at h
    simp only [M.bind_apply, M.get_apply] at h
    cases hp : r.protos g with
    | some i => rw [hp] at h; cases h
    | none =>
      have hp0 : r0.protos g = none := by
        cases h0 : r0.protos g with
        | none => rfl
        | some i => rw [hx.protos _ _ h0] at hp; cases hp
      rw [hp] at h
      simp only [M.bind_apply] at h
      rcases protoFile_cases W g r with ⟨i, hi, e⟩ | ⟨_, e', e⟩ | ⟨hn, nm, elems, hloc, hload, e⟩
      · rw [hi] at hp; cases hp
      · rw [e] at h
        cases h
        refine ⟨_, _, rfl, hg, ?_, ?_⟩
        · intro heq; subst heq; rw [hp] at hpath; cases hpath
        rintro elems (⟨i, f, h1, _⟩ | ⟨_, h2⟩)
        · rw [hp0] at h1; cases h1
        · rw [readable_protoFile hp h2] at e
          cases e
      · have hread : Readable W g elems := protoFile_readable hp e
        rw [e] at h
        simp only at h
        rw [acceptFile_eq (f := ⟨g, elems⟩) (by simp [Protoast.addFile])] at h
        refine runActs_panic_at (Q := fun r => LExt r0 r ∧ (r.protos path).isSome = true) (R := MissingImport r0 W path)
          (fun a b h1 h2 => ⟨h1.1.trans h2, protos_isSome h2.protos h1.2⟩) _ ?_ _
          ⟨hx.trans (LExt.addFile hn), protos_isSome (LExt.addFile (elems := elems) hn).protos hpath⟩ p r' h
        intro f hf r1 hr1
        refine ⟨visitImport_lext W n f r1, ih f r1 hr1.1 hr1.2 ?_⟩
        exact .step hg (.inr ⟨hp0, hread⟩) (fileActs_topImports (hW _ _ _ hload).1 hf)

theorem proto_panic {W : World} (hW : W.Sat WFFile) {r0 : Reg} {path : Str} {fuel : Nat} {e : Panic} {r' : Reg}
    (h : proto W fuel path r0 = (.panic e, r')) :
    (∃ elems, Contents r0 W path elems) ∧ MissingImport r0 W path e := by
  rcases proto_cases W path r0 with ⟨j, _, e'⟩ | ⟨_, _, e'⟩ | ⟨hn, nm, elems, hloc, hload, e'⟩
  · rw [e'] at h; cases h
  · rw [e'] at h; cases h
  · have hpf : protoFile W path r0 = (.ok (.ok r0.heap.length), addFile r0 path elems) := by
      rcases protoFile_cases W path r0 with ⟨i, hi, e⟩ | ⟨_, e2, e⟩ | ⟨_, nm', elems', hloc', hload', e⟩
      · rw [hi] at hn; cases hn
      · exfalso
        have h3 : proto W fuel path r0 = (.ok (.error (.wrap (b!"resolve proto file " ++ path) e2)), r0) := by
          unfold proto demarkFile
          simp only [M.bind_apply, M.get_apply, hn, e, M.pure_apply]
        rw [h3] at h; cases h
      · rw [hloc] at hloc'; cases hloc'
        rw [hload] at hload'; cases hload'
        exact e
    have hread : Readable W path elems := protoFile_readable hn hpf
    have hcont : Contents r0 W path elems := .inr ⟨hn, hread⟩
    refine ⟨⟨elems, hcont⟩, ?_⟩
    rw [e'] at h
    unfold protoNew at h
    split at h
    · cases h
    · next p r1 hrun =>
      have := runActs_panic_at (Q := fun r => LExt r0 r ∧ (r.protos path).isSome = true)
        (R := MissingImport r0 W path) (fun a b h1 h2 => ⟨h1.1.trans h2, protos_isSome h2.protos h1.2⟩) _ (by
          intro f hf r1 hr1
          refine ⟨visitImport_lext W fuel f r1, visitImport_missing hW fuel f r1 hr1.1 hr1.2 ?_⟩
          exact .step (.refl _) hcont (fileActs_topImports (hW _ _ _ hload).1 hf)) _
        ⟨LExt.addFile hn, by simp [Protoast.addFile, upd]⟩ _ _ hrun
      cases h; exact this
    · cases h

/-- C64, the exact outcome of `Proto(path)`, for a finite set `U` of files closed under imports: it returns an error
    iff there is no (readable, parsable) file for `path`; it panics iff there is one but some other file in its
    import closure has none; it returns the file iff the whole closure can be read. There is no fourth outcome. -/
theorem C64_outcome {c W U path fuel} (hc : CleanReachable WFFile c) (hW : W.Sat WFFile) (hU : ImportClosed W U)
    (hp : path ∈ U) (hf : U.length ≤ fuel) :
    ((∃ e r', proto W fuel path c.reg = (.ok (.error e), r')) ↔ ∀ elems, ¬ Contents c.reg W path elems) ∧
    ((∃ e r', proto W fuel path c.reg = (.panic e, r')) ↔ (∃ elems, Contents c.reg W path elems) ∧
      ∃ q, WorldReach c.reg W path q ∧ ∀ elems, ¬ Contents c.reg W q elems) ∧
    ((∃ n r', proto W fuel path c.reg = (.ok (.ok n), r')) ↔
      ∀ q, WorldReach c.reg W path q → ∃ elems, Contents c.reg W q elems) := by
  have ht := (proto_fuel hU hp c.reg hf).1
  -- a returned file has its closure
  have hok : ∀ n r', proto W fuel path c.reg = (.ok (.ok n), r') → ∀ q, WorldReach c.reg W path q →
      ∃ elems, Contents c.reg W q elems := by
    intro n r' h q hq
    by_cases hno : ∃ elems, Contents c.reg W q elems
    · exact hno
    exfalso
    have hl : c.reg.protos q = none := by
      cases hl : c.reg.protos q with
      | none => rfl
      | some i =>
        obtain ⟨o, hi, -⟩ := reachable_inv (clean_reachable hc)
        obtain ⟨f, hf, _⟩ := hi.protosHeap _ _ hl
        exact absurd ⟨f.elems, .inl ⟨i, f, hl, hf, rfl⟩⟩ hno
    rcases C15_partial hc hW hq hl (fun elems hr => hno ⟨elems, .inr ⟨hl, hr⟩⟩) ht with ⟨e, he⟩ | ⟨m, e, r'', he⟩
    · rw [he] at h; cases h
    · rw [he] at h; cases h
  have herr : ∀ e r', proto W fuel path c.reg = (.ok (.error e), r') → ∀ elems, ¬ Contents c.reg W path elems := by
    intro e r' h elems hcont
    rcases hcont with ⟨i, f, h1, _⟩ | ⟨h1, h2⟩
    · rcases proto_cases W path c.reg with ⟨j, _, e'⟩ | ⟨hn, _⟩ | ⟨hn, _⟩
      · rw [e'] at h; cases h
      · rw [h1] at hn; cases hn
      · rw [h1] at hn; cases hn
    · rw [proto_new h1 (readable_protoFile h1 h2)] at h
      unfold protoNew at h
      split at h <;> cases h
  have hpan : ∀ e r', proto W fuel path c.reg = (.panic e, r') → (∃ elems, Contents c.reg W path elems) ∧
      ∃ q, WorldReach c.reg W path q ∧ ∀ elems, ¬ Contents c.reg W q elems := by
    intro e r' h
    obtain ⟨h1, m, _, _, h2, _, h3⟩ := proto_panic hW h
    exact ⟨h1, m, h2, h3⟩
  -- the three outcomes exclude each other
  rcases hres : proto W fuel path c.reg with ⟨res, r'⟩
  rw [hres] at ht
  cases res with
  | timeout => exact absurd rfl ht
  | panic e =>
    obtain ⟨h1, h2⟩ := hpan e r' hres
    refine ⟨⟨fun ⟨_, _, h⟩ => (by cases h), fun h => ?_⟩, ⟨fun _ => ⟨h1, h2⟩, fun _ => ⟨e, r', rfl⟩⟩,
      ⟨fun ⟨_, _, h⟩ => (by cases h), fun h => ?_⟩⟩
    · obtain ⟨elems, h1⟩ := h1; exact absurd h1 (h elems)
    · obtain ⟨q, hq, hn⟩ := h2
      obtain ⟨elems, he⟩ := h q hq
      exact absurd he (hn elems)
  | ok x =>
    cases x with
    | error e =>
      have h1 := herr e r' hres
      refine ⟨⟨fun _ => h1, fun _ => ⟨e, r', rfl⟩⟩, ⟨fun ⟨_, _, h⟩ => (by cases h), fun h => ?_⟩,
        ⟨fun ⟨_, _, h⟩ => (by cases h), fun h => ?_⟩⟩
      · obtain ⟨elems, h2⟩ := h.1; exact absurd h2 (h1 elems)
      · obtain ⟨elems, h2⟩ := h path (.refl _); exact absurd h2 (h1 elems)
    | ok n =>
      have h1 := hok n r' hres
      refine ⟨⟨fun ⟨_, _, h⟩ => (by cases h), fun h => ?_⟩, ⟨fun ⟨_, _, h⟩ => (by cases h), fun h => ?_⟩,
        ⟨fun _ => h1, fun _ => ⟨n, r', rfl⟩⟩⟩
      · obtain ⟨elems, h2⟩ := h1 path (.refl _); exact absurd h2 (h elems)
      · obtain ⟨q, hq, hn⟩ := h.2
        obtain ⟨elems, h2⟩ := h1 q hq; exact absurd h2 (hn elems)

/-- C64, whom to blame: if `Proto` panics, in any state, the panic names a file that is reachable from `path` through
    imports, is not `path` itself, and is neither loaded nor readable. -/
theorem C64_panic_names_import {c : Client} {W : World} {path : Str} {fuel : Nat} {p : Panic} {r' : Reg}
    (hW : W.Sat WFFile) (h : proto W fuel path c.reg = (.panic p, r')) :
    ∃ m e, p = .importFailed m e ∧ WorldReach c.reg W path m ∧ m ≠ path ∧ ∀ elems, ¬ Contents c.reg W m elems :=
  (proto_panic hW h).2

/-- The world of `bad.proto`, which imports a file that does not exist: closed under imports, and the second case
    applies. -/
example : ImportClosed badWorld [b!"bad.proto", b!"missing.proto"] ∧
    (∃ e r', proto badWorld 2 b!"bad.proto" Ex.r0 = (.panic e, r')) := by
  have hU : ImportClosed badWorld [b!"bad.proto", b!"missing.proto"] := by
    intro path hp name elems hloc hload g hg
    simp only [List.mem_cons, List.not_mem_nil, or_false] at hp
    rcases hp with rfl | rfl
    · have : elems = badFile := by
        have h : badWorld.load name b!"bad.proto" = .ok badFile := rfl
        rw [h] at hload; cases hload; rfl
      subst this
      have h : importsAll badFile = [b!"missing.proto"] := by decide +kernel
      rw [h] at hg
      simp only [List.mem_singleton] at hg
      simp [hg]
    · have : badWorld.load name b!"missing.proto" = .error .notExist := rfl
      rw [this] at hload; cases hload
  refine ⟨hU, ((C64_outcome (c := ⟨Ex.r0, []⟩) ex_start_clean badWorld_wf hU (by simp) (by simp)).2.1).mpr ?_⟩
  refine ⟨⟨badFile, .inr ⟨by decide +kernel, badReadable⟩⟩, b!"missing.proto", bad_reach, ?_⟩
  rintro elems (⟨i, f, h1, _⟩ | ⟨_, h2⟩)
  · have : Ex.r0.protos b!"missing.proto" = none := by decide +kernel
    simp only at h1
    rw [this] at h1; cases h1
  · exact missing_unreadable _ h2

/-! ### NewRegistry -/

/-- `NewRegistry` ends like `Proto` of the descriptor file would in an empty registry. -/
theorem new_proto (W : World) (fuel : Nat) :
    (∀ r, newRegistry W fuel = (.ok (.ok ()), r) → ∃ n r', proto W fuel descriptorPath Reg.empty = (.ok (.ok n), r')) ∧
    (∀ e r, newRegistry W fuel = (.ok (.error e), r) → ∃ e' r', proto W fuel descriptorPath Reg.empty = (.ok (.error e'), r')) ∧
    (∀ p r, newRegistry W fuel = (.panic p, r) → proto W fuel descriptorPath Reg.empty = (.panic p, r)) := by
  have h0 : Reg.empty.protos descriptorPath = none := rfl
  unfold newRegistry proto demarkFile
  simp only [M.bind_apply, M.get_apply, h0]
  rcases protoFile_cases W descriptorPath Reg.empty with ⟨i, hi, e⟩ | ⟨_, er, e⟩ | ⟨hn, nm, elems, hloc, hload, e⟩
  · rw [h0] at hi; cases hi
  · rw [e]
    refine ⟨?_, ?_, ?_⟩ <;> intros <;> simp_all
  · rw [e]
    simp only [M.bind_apply]
    have hac := acceptFile_eq (f := ⟨descriptorPath, elems⟩) (imp := visitImport W fuel)
      (key := .at ⟨Reg.empty.heap.length, []⟩) (i := Reg.empty.heap.length)
      (r := addFile Reg.empty descriptorPath elems) (by simp [Protoast.addFile])
    rw [hac]
    have hl := runActs_lext (fileActs (.at ⟨Reg.empty.heap.length, []⟩) Reg.empty.heap.length elems)
      (fun g _ => visitImport_lext W fuel g) (addFile Reg.empty descriptorPath elems)
    rcases hr : runActs (visitImport W fuel) (fileActs (.at ⟨Reg.empty.heap.length, []⟩) Reg.empty.heap.length elems)
      (addFile Reg.empty descriptorPath elems) with ⟨res, r1⟩
    rw [hr] at hl
    have h1 : r1.protos descriptorPath = some 0 := hl.protos _ _ (by simp [addFile, upd, Reg.empty])
    cases res with
    | ok u =>
      simp only [M.pure_apply, M.get_apply, M.bind_apply, h1]
      refine ⟨fun r h => ⟨_, _, rfl⟩, ?_, ?_⟩
      · intro e r h; cases h
      · intro e r h; cases h
    | panic p =>
      simp only
      refine ⟨?_, ?_, ?_⟩
      · intro r h; cases h
      · intro e r h; cases h
      · intro e r h; cases h; rfl
    | timeout =>
      simp only
      refine ⟨?_, ?_, ?_⟩
      · intro r h; cases h
      · intro e r h; cases h
      · intro e r h; cases h

theorem empty_contents {W path elems} : Contents Reg.empty W path elems ↔ Readable W path elems := by
  unfold Contents
  simp [Reg.empty]

theorem new_registry_ends {W U fuel} (hW : W.Sat WFFile) (hU : ImportClosed W U) (hp : descriptorPath ∈ U)
    (hf : U.length ≤ fuel) :
    ((∃ e r, newRegistry W fuel = (.ok (.error e), r)) ↔ ∀ elems, ¬ Readable W descriptorPath elems) ∧
    ((∃ e r, newRegistry W fuel = (.panic e, r)) ↔ (∃ elems, Readable W descriptorPath elems) ∧
      ∃ q, WorldReach Reg.empty W descriptorPath q ∧ ∀ elems, ¬ Readable W q elems) ∧
    ((∃ r, newRegistry W fuel = (.ok (.ok ()), r)) ↔
      ∀ q, WorldReach Reg.empty W descriptorPath q → ∃ elems, Readable W q elems) := by
  obtain ⟨n1, n2, n3⟩ := new_proto W fuel
  have ht := (newRegistry_fuel hU hp hf).1
  have hok : ∀ r, newRegistry W fuel = (.ok (.ok ()), r) → ∀ q, WorldReach Reg.empty W descriptorPath q →
      ∃ elems, Readable W q elems := by
    intro r h q hq
    have hc : CleanReachable WFFile ⟨r, []⟩ := ⟨W, fuel, r, [], hW, h, by simp, trivial, rfl⟩
    have hnew := newRegistry_newFrom h
    obtain ⟨o, hi, -⟩ := reachable_inv (clean_reachable hc)
    have key : ∀ s i, r.protos s = some i → ∃ f, r.heap[i]? = some f ∧ Readable W s f.elems := by
      intro s i hs
      obtain ⟨f, hf, hfn⟩ := hi.protosHeap _ _ hs
      exact ⟨f, hf, by rw [← hfn]; exact hnew i f (Nat.zero_le _) hf⟩
    have : ∃ i, r.protos q = some i := by
      induction hq with
      | refl =>
        obtain ⟨nm, elems, _, _, hr⟩ := newRegistry_ok h
        have hl := runActs_lext (imp := visitImport W fuel) (fileActs (.at ⟨0, []⟩) 0 elems)
          (fun f _ r => visitImport_lext W fuel f r) (addFile Reg.empty descriptorPath elems)
        rw [hr] at hl
        exact ⟨0, hl.protos _ _ (by simp [addFile, Reg.empty, upd])⟩
      | step _ hcont himp ih =>
        obtain ⟨i, hs⟩ := ih
        obtain ⟨f, hf, hrd⟩ := key _ _ hs
        have := readable_unique (empty_contents.mp hcont) hrd
        subst this
        exact Option.isSome_iff_exists.mp ((clean_complete hc _ _ (Nat.zero_le _) hf).imports _ himp)
    obtain ⟨i, hs⟩ := this
    obtain ⟨f, _, hrd⟩ := key _ _ hs
    exact ⟨_, hrd⟩
  have herr : ∀ e r, newRegistry W fuel = (.ok (.error e), r) → ∀ elems, ¬ Readable W descriptorPath elems := by
    intro e r h elems hrd
    obtain ⟨e', r', hpr⟩ := n2 e r h
    rw [proto_new rfl (readable_protoFile rfl hrd)] at hpr
    unfold protoNew at hpr
    split at hpr <;> cases hpr
  have hpan : ∀ e r, newRegistry W fuel = (.panic e, r) → (∃ elems, Readable W descriptorPath elems) ∧
      ∃ q, WorldReach Reg.empty W descriptorPath q ∧ ∀ elems, ¬ Readable W q elems := by
    intro e r h
    obtain ⟨⟨elems, h1⟩, m, _, _, h2, _, h3⟩ := proto_panic hW (n3 e r h)
    exact ⟨⟨elems, empty_contents.mp h1⟩, m, h2, fun elems h => h3 elems (empty_contents.mpr h)⟩
  rcases hres : newRegistry W fuel with ⟨res, r'⟩
  rw [hres] at ht
  cases res with
  | timeout => exact absurd rfl ht
  | panic e =>
    obtain ⟨h1, h2⟩ := hpan e r' hres
    refine ⟨⟨fun ⟨_, _, h⟩ => (by cases h), fun h => ?_⟩, ⟨fun _ => ⟨h1, h2⟩, fun _ => ⟨e, r', rfl⟩⟩,
      ⟨fun ⟨_, h⟩ => (by cases h), fun h => ?_⟩⟩
    · obtain ⟨elems, h1⟩ := h1; exact absurd h1 (h elems)
    · obtain ⟨q, hq, hn⟩ := h2
      obtain ⟨elems, he⟩ := h q hq
      exact absurd he (hn elems)
  | ok x =>
    cases x with
    | error e =>
      have h1 := herr e r' hres
      refine ⟨⟨fun _ => h1, fun _ => ⟨e, r', rfl⟩⟩, ⟨fun ⟨_, _, h⟩ => (by cases h), fun h => ?_⟩,
        ⟨fun ⟨_, h⟩ => (by cases h), fun h => ?_⟩⟩
      · obtain ⟨elems, h2⟩ := h.1; exact absurd h2 (h1 elems)
      · obtain ⟨elems, h2⟩ := h _ (.refl _); exact absurd h2 (h1 elems)
    | ok u =>
      have h1 := hok r' hres
      refine ⟨⟨fun ⟨_, _, h⟩ => (by cases h), fun h => ?_⟩, ⟨fun ⟨_, _, h⟩ => (by cases h), fun h => ?_⟩,
        ⟨fun _ => h1, fun _ => ⟨r', rfl⟩⟩⟩
      · obtain ⟨elems, h2⟩ := h1 _ (.refl _); exact absurd h2 (h elems)
      · obtain ⟨q, hq, hn⟩ := h.2
        obtain ⟨elems, h2⟩ := h1 q hq; exact absurd h2 (hn elems)

/-- C64 for `NewRegistry`: with `U` closed under imports, it returns an error iff there is no (readable, parsable)
    descriptor.proto; it panics iff there is one but some file in its import closure cannot be read; it returns a
    registry iff the whole closure can be read. -/
theorem C64_new_registry {W U fuel} (hW : W.Sat WFFile) (hU : ImportClosed W U) (hp : b!"google/protobuf/descriptor.proto" ∈ U)
    (hf : U.length ≤ fuel) :
    ((∃ e r, newRegistry W fuel = (.ok (.error e), r)) ↔ ∀ elems, ¬ Readable W b!"google/protobuf/descriptor.proto" elems) ∧
    ((∃ e r, newRegistry W fuel = (.panic e, r)) ↔ (∃ elems, Readable W b!"google/protobuf/descriptor.proto" elems) ∧
      ∃ q, WorldReach Reg.empty W b!"google/protobuf/descriptor.proto" q ∧ ∀ elems, ¬ Readable W q elems) ∧
    ((∃ r, newRegistry W fuel = (.ok (.ok ()), r)) ↔
      ∀ q, WorldReach Reg.empty W b!"google/protobuf/descriptor.proto" q → ∃ elems, Readable W q elems) := new_registry_ends hW hU hp hf

/-- A world whose descriptor.proto imports a file that does not exist. -/
def noImportWorld : World :=
  Ex.worldOf [(descriptorPath, Ex.el descriptorPath 1 (.importK b!"missing.proto") :: Ex.descriptor)]

/-- Non-vacuity of `C64_new_registry`: here the third case applies, and `NewRegistry` panics. -/
example : noImportWorld.Sat WFFile ∧ ImportClosed noImportWorld [descriptorPath, b!"missing.proto"] ∧
    (∃ e r, newRegistry noImportWorld 2 = (.panic e, r)) ∧
    ∃ q, WorldReach Reg.empty noImportWorld descriptorPath q ∧ ∀ elems, ¬ Readable noImportWorld q elems := by
  have hW : noImportWorld.Sat WFFile := by
    apply Ex.worldOf_sat
    intro x hx
    apply Ex.wfb_spec
    simp only [List.mem_cons, List.not_mem_nil, or_false] at hx
    subst hx
    decide +kernel
  have hU : ImportClosed noImportWorld [descriptorPath, b!"missing.proto"] := by
    intro path hp name elems hloc hload g hg
    simp only [List.mem_cons, List.not_mem_nil, or_false] at hp
    rcases hp with rfl | rfl
    · have : elems = Ex.el descriptorPath 1 (.importK b!"missing.proto") :: Ex.descriptor := by
        have h : noImportWorld.load name descriptorPath =
          .ok (Ex.el descriptorPath 1 (.importK b!"missing.proto") :: Ex.descriptor) := rfl
        rw [h] at hload; cases hload; rfl
      subst this
      have h : importsAll (Ex.el descriptorPath 1 (.importK b!"missing.proto") :: Ex.descriptor) =
        [b!"missing.proto"] := by decide +kernel
      rw [h] at hg
      simp only [List.mem_singleton] at hg
      simp [hg]
    · have : noImportWorld.load name b!"missing.proto" = .error .notExist := rfl
      rw [this] at hload; cases hload
  have hpan : ∃ e r, newRegistry noImportWorld 2 = (.panic e, r) := by
    have h : (match (newRegistry noImportWorld 2).1 with | .panic _ => true | _ => false) = true := by decide +kernel
    rcases hn : newRegistry noImportWorld 2 with ⟨res, r⟩
    rw [hn] at h
    cases res with
    | panic e => exact ⟨e, r, rfl⟩
    | _ => cases h
  exact ⟨hW, hU, hpan, ((C64_new_registry hW hU List.mem_cons_self (by simp)).2.1.mp hpan).2⟩

end Protoast.Props
