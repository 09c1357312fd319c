import Verif.Proof.Whole
import Verif.Props.Stuck
/-
  C123: of every file exactly the declarations of its first so many statements are known, whatever loads failed.
-/
namespace Protoast.Props
open Protoast

/-- C123: in every reachable state, however many loads have failed half way before, there is for every file a number of
    statements, namely all of them or those in front of one of its imports, such that the imports among them are loaded
    and exactly the declarations in them are known, from then on and whatever calls follow: looking one of them up by its
    full name finds it (or another one of that name) and its handles have its name as index; a declaration behind is never
    found by name, and the index of its handles is empty. In particular a top-level declaration is known with everything
    inside it or not at all. -/
theorem C123_known {c} (hr : Reachable WFFile c) :
    ∃ known : Nat → Nat,
      (∀ (i : Nat) f, c.reg.heap[i]? = some f → (known i = f.elems.length ∨ ∃ m, ImportAt f (known i) m) ∧
        ∀ j q, j < known i → ImportAt f j q → (c.reg.protos q).isSome = true) ∧
      ∀ ops, (∀ op ∈ ops, Op.Sat WFFile op) → ∀ c2, c2 = c.exec ops → ∀ name p, Declared c.reg name p →
        (InFront p.path (known p.file) →
          (∃ d a k r', Declared c2.reg name d ∧ nodeByFullName name c2.reg = (.ok (some (.wrapped a k d)), r') ∧
            (UniqueNames c2.reg → d = p)) ∧
          ∀ n ∈ c2.pool, n.decl = some p → (∀ s v, c.reg.kind p ≠ some (.enumField s v)) →
            nodeIndex n c2.reg = (.ok name, c2.reg)) ∧
        (¬ InFront p.path (known p.file) →
          (∀ s n r', nodeByFullName s c2.reg = (.ok (some n), r') → n.decl ≠ some p) ∧
          ∀ n ∈ c2.pool, n.decl = some p → nodeIndex n c2.reg = (.ok [], c2.reg)) := by
  have hsound := reachable_sound hr
  have hstand := reachable_stand hr
  have hk : ∀ i : Nat, ∃ k, ∀ f, c.reg.heap[i]? = some f →
      HalfDone c.reg i f k ∧ (k = f.elems.length ∨ ∃ m, ImportAt f k m) := by
    intro i
    cases hf : c.reg.heap[i]? with
    | none => exact ⟨0, fun f h => by cases h⟩
    | some f =>
      obtain ⟨k, hk⟩ := hstand i f hf
      exact ⟨k, fun g hg => by cases hg; exact hk⟩
  refine ⟨fun i => (hk i).choose, fun i f hf => ?_, ?_⟩
  · obtain ⟨h1, h2⟩ := (hk i).choose_spec f hf
    exact ⟨h2, fun j q hj hq => h1.imports j q hj hq⟩
  intro ops hops c2 hc2 name p hd
  obtain ⟨f, hf, hq⟩ := hd
  obtain ⟨hh, _⟩ := (hk p.file).choose_spec f hf
  have hd : Declared c.reg name p := ⟨f, hf, hq⟩
  have hl2 : Later c.reg c2.reg := by rw [hc2]; exact exec_later ops c
  have hn2 : OldNames c.reg c2.reg := by rw [hc2]; exact exec_names ops c
  have hreach2 : Reachable WFFile c2 := by rw [hc2]; exact reachable_exec hr ops hops
  obtain ⟨o, hi, hg⟩ := reachable_inv hreach2
  have hs2 := reachable_sound hreach2
  have hfile : p.file < c.reg.heap.length := (List.getElem?_eq_some_iff.mp hf).1
  have hd2 : Declared c2.reg name p := ⟨f, by rw [hl2.file hfile]; exact hf, hq⟩
  have hpath : p.path ≠ [] := by
    intro h0
    rw [h0] at hq
    simp [ProtoFile.fqn] at hq
  refine ⟨?_, ?_⟩
  · intro hfr
    have w1 := hh.names p.path name hq hfr
    have w2 := fun hne => hh.scopes p.path name hq hne hfr
    have hsome : (c2.reg.registry name).isSome = true := by rw [hc2]; exact exec_nameSome name ops c w1
    obtain ⟨d, hdreg⟩ := Option.isSome_iff_exists.mp hsome
    obtain ⟨a, k, kd, r'', e', _, _⟩ := byName_reg hi hdreg
    have hdec := hs2.names _ _ hdreg
    refine ⟨⟨d, a, k, r'', hdec, e', fun hu => hu name _ _ hdec hd2⟩, fun n hn hnp hne => ?_⟩
    have hne' : ∀ e, f.elemAt p.path = some e → ∀ n v, e.kind ≠ .enumField n v := by
      intro e he s v hkd
      apply hne s v
      unfold Reg.kind Reg.elem
      rw [hf]
      simp [he, hkd]
    have := w2 hne'
    obtain ⟨s, hs⟩ := Option.isSome_iff_exists.mp this
    rw [← hl2.scopes p hfile] at hs
    rcases nodeIndex_scope (hg n hn) hnp with h' | h'
    · rw [h']
      obtain ⟨f', hf', hq'⟩ := hs2.scopes p s hs hpath
      obtain ⟨g, hg', hq2⟩ := hd2
      rw [hf'] at hg'
      cases hg'
      rw [hq'] at hq2
      cases hq2
      simp [Reg.scope, hs]
    · exact absurd hd2 (h' name)
  · intro hfr
    refine ⟨fun s n r'' hn hnp => ?_, fun n hn hnp => ?_⟩
    · cases hreg : c2.reg.registry s with
      | some d =>
        obtain ⟨a, k, kd, r3, e', _, _⟩ := byName_reg hi hreg
        rw [e'] at hn
        cases hn
        cases hnp
        exact hfr (hh.noName p.path s (hn2 _ _ hreg hfile))
      | none =>
        rcases (C28_partial hreach2 s).2 hreg with ⟨r3, e'⟩ | e'
        · rw [e'] at hn; cases hn
        · rw [e'] at hn; cases hn
    · rcases nodeIndex_scope (hg n hn) hnp with h' | h'
      · rw [h']
        cases hs : c2.reg.scopes (.at p) with
        | none => simp [Reg.scope, hs]
        | some s =>
          rw [hl2.scopes p hfile] at hs
          exact absurd (hh.noScope p.path s hs hpath) hfr
      · exact absurd hd2 (h' name)

/-! ### An example: two loads fail, at different imports -/

def wholeOth : List Elem :=
  [Ex.el b!"oth.proto" 1 (.packageK b!"x"), Ex.el b!"oth.proto" 2 (.message b!"X" false),
   Ex.el b!"oth.proto" 3 (.importK b!"mid.proto"), Ex.el b!"oth.proto" 4 (.message b!"Y" false),
   Ex.el b!"oth.proto" 5 (.importK b!"away.proto"), Ex.el b!"oth.proto" 6 (.message b!"Z" false)]
def wholeWorld : World :=
  Ex.worldOf [(b!"top.proto", stuckTop), (b!"mid.proto", stuckMid), (b!"ok.proto", stuckOk), (b!"oth.proto", wholeOth)]
theorem wholeWorld_wf : wholeWorld.Sat WFFile := by
  apply Ex.worldOf_sat
  intro x hx
  apply Ex.wfb_spec
  simp only [List.mem_cons, List.not_mem_nil, or_false] at hx
  rcases hx with rfl | rfl | rfl | rfl <;> decide +kernel

/-- top.proto gets stuck in mid.proto at gone.proto; oth.proto then passes its import of mid.proto, which counts as
    loaded, and gets stuck at away.proto. -/
def wholeClient : Client :=
  Client.exec ⟨Ex.r0, []⟩ [.proto wholeWorld 5 b!"top.proto", .proto wholeWorld 5 b!"oth.proto"]

/-- The state is reachable although both loads panicked; known are First, O, X and Y, and not Last, M and Z. -/
example : Reachable WFFile wholeClient ∧
    (∃ e r', proto wholeWorld 5 b!"top.proto" Ex.r0 = (.panic (.importFailed b!"gone.proto" e), r') ∧
      ∃ e2 r2, proto wholeWorld 5 b!"oth.proto" r' = (.panic (.importFailed b!"away.proto" e2), r2)) ∧
    (Declared wholeClient.reg b!".t.First" ⟨1, [1]⟩ ∧ (wholeClient.reg.registry b!".t.First") = some ⟨1, [1]⟩) ∧
    (Declared wholeClient.reg b!".x.Y" ⟨4, [3]⟩ ∧ (wholeClient.reg.registry b!".x.Y") = some ⟨4, [3]⟩) ∧
    (Declared wholeClient.reg b!".t.Last" ⟨1, [4]⟩ ∧ (wholeClient.reg.registry b!".t.Last") = none) ∧
    (Declared wholeClient.reg b!".m.M" ⟨3, [2]⟩ ∧ (wholeClient.reg.registry b!".m.M") = none) ∧
    (Declared wholeClient.reg b!".x.Z" ⟨4, [5]⟩ ∧ (wholeClient.reg.registry b!".x.Z") = none) := by
  refine ⟨reachable_exec (clean_reachable ex_start_clean) _ ?_, ⟨_, _, rfl, _, _, rfl⟩, ?_, ?_, ?_, ?_, ?_⟩
  · intro op ho
    simp only [List.mem_cons, List.not_mem_nil, or_false] at ho
    rcases ho with rfl | rfl <;> exact wholeWorld_wf
  · exact ⟨⟨⟨b!"top.proto", stuckTop⟩, rfl, by decide +kernel⟩, by decide +kernel⟩
  · exact ⟨⟨⟨b!"oth.proto", wholeOth⟩, rfl, by decide +kernel⟩, by decide +kernel⟩
  · exact ⟨⟨⟨b!"top.proto", stuckTop⟩, rfl, by decide +kernel⟩, by decide +kernel⟩
  · exact ⟨⟨⟨b!"mid.proto", stuckMid⟩, rfl, by decide +kernel⟩, by decide +kernel⟩
  · exact ⟨⟨⟨b!"oth.proto", wholeOth⟩, rfl, by decide +kernel⟩, by decide +kernel⟩

end Protoast.Props
