import Verif.Proof.Stuck
import Verif.Props.Names2
import Verif.Props.Identity
import Verif.Props.Again
/-
  C106: what a load leaves behind that panics because an import cannot be read.
-/
namespace Protoast.Props
open Protoast

/-- C106: if `Proto(path)` panics, it does so because some import `m` cannot be read, and there is a way of newly loaded
    files from `path` to that import statement such that, from then on and whatever calls follow (loads, repeated loads of
    the same files, queries), exactly the declarations that the load came past are known: looking one up by its full name
    finds it (or another one of that name) and its handles have its name as index; a declaration behind the import
    statement in one of the files on the way is never found by name, and the index of its handles is empty. -/
theorem C106_left_behind {c W fuel path x r'} (hc : CleanReachable WFFile c) (hW : W.Sat WFFile)
    (h : proto W fuel path c.reg = (.panic x, r')) :
    ∃ m e way, x = .importFailed m e ∧ BrokenOff c.reg r' path m way ∧
      ∀ ops, (∀ op ∈ ops, Op.Sat WFFile op) → ∀ c2, c2 = (c.step (.proto W fuel path)).exec ops →
        ∀ name p, Declared r' name p →
          (ReachedIn way p → ∃ d a k r'', Declared c2.reg name d ∧
            nodeByFullName name c2.reg = (.ok (some (.wrapped a k d)), r'') ∧ (UniqueNames c2.reg → d = p)) ∧
          (¬ ReachedIn way p → ∀ n r'', nodeByFullName name c2.reg = (.ok (some n), r'') → n.decl ≠ some p) ∧
          ∀ n ∈ c2.pool, n.decl = some p →
            (ReachedIn way p → (∀ s v, r'.kind p ≠ some (.enumField s v)) →
              nodeIndex n c2.reg = (.ok name, c2.reg)) ∧
            (¬ ReachedIn way p → nodeIndex n c2.reg = (.ok [], c2.reg)) := by
  have hsound := reachable_sound (clean_reachable hc)
  have hcomp := clean_complete hc
  obtain ⟨m, e, way, hx, hb⟩ := proto_broken hW hsound h
  have hlat : Later c.reg r' := by have := proto_later W fuel path c.reg; rw [h] at this; exact this
  have hstep : c.step (.proto W fuel path) = ⟨r', c.pool⟩ := by
    unfold Client.step
    simp [Op.run, h]
  have hnsome : ∀ s, (c.reg.registry s).isSome = true → (r'.registry s).isSome = true := fun s hs => by
    have := proto_nameSome W fuel path c.reg s hs
    rw [h] at this
    exact this
  -- what is reached is registered
  have hreached : ∀ name p, Declared r' name p → ReachedIn way p → (r'.registry name).isSome = true ∧
      ((∀ s v, r'.kind p ≠ some (.enumField s v)) → (r'.scopes (.at p)).isSome = true) := by
    rintro name ⟨i, p⟩ ⟨f, hf, hq⟩ hr
    simp only at hf hq
    have hne : (∀ s v, r'.kind ⟨i, p⟩ ≠ some (.enumField s v)) →
        ∀ e, f.elemAt p = some e → ∀ n v, e.kind ≠ .enumField n v := by
      intro hne e he s v hk
      apply hne s v
      unfold Reg.kind Reg.elem
      simp only
      rw [hf]
      simp [he, hk]
    by_cases hold : i < c.reg.heap.length
    · have hf0 := hf
      rw [hlat.file hold] at hf0
      have hd := hcomp i f (Nat.zero_le _) hf0
      refine ⟨hnsome _ (hd.names _ _ hq), fun hk => ?_⟩
      rw [hlat.scopes ⟨i, p⟩ hold]
      exact hd.scopes p name hq (hne hk)
    · by_cases hw : i ∈ way.map (·.1)
      · obtain ⟨y, hy, hyi⟩ := List.mem_map.mp hw
        obtain ⟨g, hg, hh⟩ := hb.half y hy
        rw [hyi, hf] at hg
        cases hg
        have hfr := hr y hy hyi
        refine ⟨hh.names p name hq hfr, fun hk => ?_⟩
        have := hh.scopes p name hq (hne hk) hfr
        rw [hyi] at this
        exact this
      · have hd := hb.done i f (by omega) hf hw
        exact ⟨hd.names _ _ hq, fun hk => hd.scopes p name hq (hne hk)⟩
  have hnot : ∀ name p, Declared r' name p → ¬ ReachedIn way p →
      (∀ s, r'.registry s ≠ some p) ∧ r'.scopes (.at p) = none := by
    rintro name ⟨i, p⟩ ⟨f, hf, hq⟩ hr
    have : ∃ y ∈ way, y.1 = i ∧ ¬ InFront p y.2 := by
      apply Classical.byContradiction
      intro hno
      exact hr fun y hy hyi => Classical.byContradiction fun hfr => hno ⟨y, hy, hyi, hfr⟩
    obtain ⟨y, hy, hyi, hfr⟩ := this
    obtain ⟨g, hg, hh⟩ := hb.half y hy
    subst hyi
    refine ⟨fun s hs => hfr (hh.noName p s hs), ?_⟩
    cases hs : r'.scopes (.at ⟨y.1, p⟩) with
    | none => rfl
    | some s =>
      refine absurd (hh.noScope p s hs ?_) hfr
      rintro rfl
      simp [ProtoFile.fqn] at hq
  refine ⟨m, e, way, hx, ⟨hb.isWay, hb.new, hb.nodup, hb.missing, ?_⟩, ?_⟩
  · intro i f k q hf hk hfr
    have hmem : q ∈ topImports f.elems := by
      obtain ⟨e, he, hek⟩ := hk
      simp only [topImports, List.mem_filterMap]
      exact ⟨e, List.mem_of_getElem? he, by simp [hek]⟩
    by_cases hold : i < c.reg.heap.length
    · have hf0 := hf
      rw [hlat.file hold] at hf0
      exact protos_isSome hlat.protos ((hcomp i f (Nat.zero_le _) hf0).imports q hmem)
    · by_cases hw : i ∈ way.map (·.1)
      · obtain ⟨y, hy, hyi⟩ := List.mem_map.mp hw
        obtain ⟨g, hg, hh⟩ := hb.half y hy
        rw [hyi, hf] at hg
        cases hg
        exact hh.imports k q (hfr y hy hyi) hk
      · exact (hb.done i f (by omega) hf hw).imports q hmem
  · intro ops hops c2 hc2 name p hd
    have hops' : ∀ op ∈ (Op.proto W fuel path :: ops), Op.Sat WFFile op := by
      intro op ho
      rcases List.mem_cons.mp ho with rfl | ho
      · exact hW
      · exact hops op ho
    have hreach2 : Reachable WFFile c2 := by
      rw [hc2]
      exact reachable_exec (clean_reachable hc) (.proto W fuel path :: ops) hops'
    have hl2 : Later r' c2.reg := by
      have := exec_later ops (c.step (.proto W fuel path))
      rw [← hc2, hstep] at this
      exact this
    have hn2 : OldNames r' c2.reg := by
      have := exec_names ops (c.step (.proto W fuel path))
      rw [← hc2, hstep] at this
      exact this
    have hfile : p.file < r'.heap.length := by
      obtain ⟨f, hf, _⟩ := hd
      exact (List.getElem?_eq_some_iff.mp hf).1
    have hd2 : Declared c2.reg name p := by
      obtain ⟨f, hf, hq⟩ := hd
      exact ⟨f, by rw [hl2.file hfile]; exact hf, hq⟩
    obtain ⟨o, hi, hg⟩ := reachable_inv hreach2
    have hs2 := reachable_sound hreach2
    have hpath : p.path ≠ [] := by
      obtain ⟨f, _, hq⟩ := hd
      intro h0; rw [h0] at hq; simp [ProtoFile.fqn] at hq
    refine ⟨fun hr => ?_, fun hr n r'' hn hnp => ?_, fun n hn hnp => ⟨fun hr hk => ?_, fun hr => ?_⟩⟩
    · have hsome : (c2.reg.registry name).isSome = true := by
        rw [hc2]
        refine exec_nameSome name ops _ ?_
        rw [hstep]
        exact (hreached name p hd hr).1
      obtain ⟨d, hdreg⟩ := Option.isSome_iff_exists.mp hsome
      obtain ⟨a, k, kd, r'', e', _, _⟩ := byName_reg hi hdreg
      have hdec := hs2.names _ _ hdreg
      exact ⟨d, a, k, r'', hdec, e', fun hu => hu name _ _ hdec hd2⟩
    · cases hreg : c2.reg.registry name with
      | some d =>
        obtain ⟨a, k, kd, r3, e', _, _⟩ := byName_reg hi hreg
        rw [e'] at hn
        cases hn
        cases hnp
        exact (hnot name p hd hr).1 name (hn2 _ _ hreg hfile)
      | none =>
        rcases (C28_partial hreach2 name).2 hreg with ⟨r3, e'⟩ | e'
        · rw [e'] at hn; cases hn
        · rw [e'] at hn; cases hn
    · rcases nodeIndex_scope (hg n hn) hnp with h' | h'
      · rw [h']
        have := (hreached name p hd hr).2 hk
        obtain ⟨s, hs⟩ := Option.isSome_iff_exists.mp this
        rw [← hl2.scopes p hfile] at hs
        obtain ⟨f, hf, hq⟩ := hs2.scopes p s hs hpath
        obtain ⟨g, hg', hq'⟩ := hd2
        rw [hf] at hg'
        cases hg'
        rw [hq] at hq'
        cases hq'
        simp [Reg.scope, hs]
      · exact absurd hd2 (h' name)
    · rcases nodeIndex_scope (hg n hn) hnp with h' | h'
      · rw [h']
        have := (hnot name p hd hr).2
        rw [← hl2.scopes p hfile] at this
        simp [Reg.scope, this]
      · exact absurd hd2 (h' name)

/-- C106, trying again: after the panic, `Proto` of the same path, in any world (the missing file may be there now or not)
    and after any further calls, returns the file without error and loads nothing. -/
theorem C106_again {c W fuel path x r'} (hc : CleanReachable WFFile c) (hW : W.Sat WFFile)
    (h : proto W fuel path c.reg = (.panic x, r')) (ops : List Op) (W' : World) (fuel' : Nat) :
    ∃ i r2, proto W' fuel' path ((c.step (.proto W fuel path)).exec ops).reg =
        (.ok (.ok (.wrapped ((c.step (.proto W fuel path)).exec ops).reg.next .file ⟨i, []⟩)), r2) ∧
      SameTables ((c.step (.proto W fuel path)).exec ops).reg r2 := by
  obtain ⟨m, e, way, hx, hb⟩ := proto_broken hW (reachable_sound (clean_reachable hc)) h
  have hstep : c.step (.proto W fuel path) = ⟨r', c.pool⟩ := by
    unfold Client.step
    simp [Op.run, h]
  have hp : ∃ i, r'.protos path = some i := by
    cases hb.isWay with
    | last h1 _ _ => exact ⟨_, h1⟩
    | next h1 _ _ _ => exact ⟨_, h1⟩
  obtain ⟨i, hi⟩ := hp
  have hl := exec_later ops (c.step (.proto W fuel path))
  have hi2 : ((c.step (.proto W fuel path)).exec ops).reg.protos path = some i := by
    refine hl.protos _ _ ?_
    rw [hstep]
    exact hi
  rcases proto_cases W' path ((c.step (.proto W fuel path)).exec ops).reg with ⟨j, hj, e⟩ | ⟨hn, _⟩ | ⟨hn, _⟩
  · exact ⟨j, _, e fuel', rfl, rfl, rfl, rfl, rfl, rfl⟩
  · rw [hi2] at hn; cases hn
  · rw [hi2] at hn; cases hn

/-! ### An example: top.proto imports ok.proto and mid.proto; mid.proto imports a file that does not exist -/

def stuckTop : List Elem :=
  [Ex.el b!"top.proto" 1 (.packageK b!"t"), Ex.el b!"top.proto" 2 (.message b!"First" false),
   Ex.el b!"top.proto" 3 (.importK b!"ok.proto"), Ex.el b!"top.proto" 4 (.importK b!"mid.proto"),
   Ex.el b!"top.proto" 5 (.message b!"Last" false)]
def stuckMid : List Elem :=
  [Ex.el b!"mid.proto" 1 (.packageK b!"m"), Ex.el b!"mid.proto" 2 (.importK b!"gone.proto"),
   Ex.el b!"mid.proto" 3 (.message b!"M" false)]
def stuckOk : List Elem :=
  [Ex.el b!"ok.proto" 1 (.packageK b!"o"), Ex.el b!"ok.proto" 2 (.message b!"O" false)]
def stuckWorld : World :=
  Ex.worldOf [(b!"top.proto", stuckTop), (b!"mid.proto", stuckMid), (b!"ok.proto", stuckOk)]
theorem stuckWorld_wf : stuckWorld.Sat WFFile := by
  apply Ex.worldOf_sat
  intro x hx
  apply Ex.wfb_spec
  simp only [List.mem_cons, List.not_mem_nil, or_false] at hx
  rcases hx with rfl | rfl | rfl <;> decide +kernel

/-- After the panic the same call is made again; it returns the file. -/
def stuckClient : Client :=
  (Client.step ⟨Ex.r0, []⟩ (.proto stuckWorld 5 b!"top.proto")).exec [.proto stuckWorld 5 b!"top.proto"]

/-- The way to the missing file: the fourth statement of top.proto, the second of mid.proto. First and O were reached, Last
    and M were not. -/
example : CleanReachable WFFile ⟨Ex.r0, []⟩ ∧ stuckWorld.Sat WFFile ∧
    (∃ e r', proto stuckWorld 5 b!"top.proto" Ex.r0 = (.panic (.importFailed b!"gone.proto" e), r') ∧
      Way r' b!"gone.proto" b!"top.proto" [(1, 3), (3, 1)] ∧
      Declared r' b!".t.First" ⟨1, [1]⟩ ∧ Declared r' b!".o.O" ⟨2, [1]⟩ ∧
      Declared r' b!".t.Last" ⟨1, [4]⟩ ∧ Declared r' b!".m.M" ⟨3, [2]⟩) ∧
    ReachedIn [(1, 3), (3, 1)] ⟨1, [1]⟩ ∧ ReachedIn [(1, 3), (3, 1)] ⟨2, [1]⟩ ∧
    ¬ ReachedIn [(1, 3), (3, 1)] ⟨1, [4]⟩ ∧ ¬ ReachedIn [(1, 3), (3, 1)] ⟨3, [2]⟩ ∧
    Node.wrapped 0 .file ⟨1, []⟩ ∈ stuckClient.pool := by
  refine ⟨ex_start_clean, stuckWorld_wf, ⟨_, _, rfl, ?_, ?_⟩, ?_, ?_, ?_, ?_, ?_⟩
  · exact .next (f := ⟨b!"top.proto", stuckTop⟩) (by decide +kernel) rfl
      ⟨Ex.el b!"top.proto" 4 (.importK b!"mid.proto"), rfl, rfl⟩
      (.last (f := ⟨b!"mid.proto", stuckMid⟩) (by decide +kernel) rfl
        ⟨Ex.el b!"mid.proto" 2 (.importK b!"gone.proto"), rfl, rfl⟩)
  · exact ⟨⟨⟨b!"top.proto", stuckTop⟩, rfl, by decide +kernel⟩, ⟨⟨b!"ok.proto", stuckOk⟩, rfl, by decide +kernel⟩,
      ⟨⟨b!"top.proto", stuckTop⟩, rfl, by decide +kernel⟩, ⟨⟨b!"mid.proto", stuckMid⟩, rfl, by decide +kernel⟩⟩
  · intro x hx e
    simp only [List.mem_cons, List.not_mem_nil, or_false] at hx
    rcases hx with rfl | rfl
    · exact ⟨1, rfl, by decide⟩
    · cases e
  · intro x hx e
    simp only [List.mem_cons, List.not_mem_nil, or_false] at hx
    rcases hx with rfl | rfl <;> cases e
  · intro h
    obtain ⟨j, hj, hlt⟩ := h (1, 3) (by simp) rfl
    cases hj
    simp at hlt
  · intro h
    obtain ⟨j, hj, hlt⟩ := h (3, 1) (by simp) rfl
    cases hj
    simp at hlt
  · exact Ex.hasA_spec (i := 0) (by decide +kernel)

end Protoast.Props
