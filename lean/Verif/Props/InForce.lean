import Verif.Proof.InForce
import Verif.Props.Names2
/-
  C75: names in files with package statements at any place.
-/
namespace Protoast.Props
open Protoast

/-- `NodeIndex` of a handle reads the recorded scope, unless the handle is of a statement that declares nothing. -/
theorem nodeIndex_or {o r} {n : Node} (g : Good o r n) {p : Ptr} (hd : n.decl = some p) :
    nodeIndex n r = (.ok (r.scope (.at p)), r) ∨ ∃ kd, r.kind p = some kd ∧ kd.declName = none := by
  cases n with
  | oneof a q => simp only [Node.decl, Option.some.injEq] at hd; subst hd; exact .inl rfl
  | map a q => simp only [Node.decl, Option.some.injEq] at hd; subst hd; exact .inl rfl
  | wrapped a k q =>
    simp only [Node.decl, Option.some.injEq] at hd
    subst hd
    have ht := g.target
    cases hp : q.path with
    | nil =>
      have : k = .file := by
        rcases q with ⟨qi, path⟩; simp only at hp; subst hp
        simp only [Reg.wrapTarget] at ht
        split at ht
        · cases ht; rfl
        · cases ht
      subst this
      exact .inl rfl
    | cons j rest =>
      have ht' : ((r.kind q).bind wrapKind) = some k := by
        rcases q with ⟨qi, path⟩; simp only at hp; subst hp
        simp only [Reg.wrapTarget, Option.map_eq_some_iff] at ht
        obtain ⟨k', h1, h2⟩ := ht
        cases h2; exact h1
      rw [Option.bind_eq_some_iff] at ht'
      obtain ⟨kd, hk, hw⟩ := ht'
      cases kd <;> simp only [wrapKind, Option.some.injEq, reduceCtorEq] at hw <;>
        (subst hw; first
          | (left; unfold nodeIndex; simp [hk]; done)
          | (right; exact ⟨_, hk, rfl⟩))
  | _ => cases hd

theorem nameInForce_kind {r : Reg} {f : ProtoFile} {p : Ptr} {name : Str} (hf : r.heap[p.file]? = some f)
    (h : f.nameInForce p.path = some name) : ∃ kd, r.kind p = some kd ∧ kd.declName ≠ none := by
  unfold ProtoFile.nameInForce at h
  split at h
  · next s n _ hn =>
    rw [Option.bind_eq_some_iff] at hn
    obtain ⟨e, he, hn⟩ := hn
    exact ⟨e.kind, by simp [Reg.kind, Reg.elem, hf, he], by rw [hn]; simp⟩
  · cases h

/-- C75, names: in every reachable state, whatever is registered under a name is a declaration that has this name by
    the last package statement above it. -/
theorem C75_names {c name p} (hr : Reachable FlatFile c) (h : c.reg.registry name = some p) :
    DeclaredInForce c.reg name p := (reachable_inForce hr).names name p h

/-- C75, index: `NodeIndex` of every declaration handle that is not an enum value is its name by the last package
    statement above it. -/
theorem C75_index {c n p name} (hc : CleanReachable FlatFile c) (hn : n ∈ c.pool) (hp : n.decl = some p)
    (hd : DeclaredInForce c.reg name p) (hne : ∀ s v, c.reg.kind p ≠ some (.enumField s v)) :
    nodeIndex n c.reg = (.ok name, c.reg) := by
  obtain ⟨o, hi, hg⟩ := reachable_inv (clean_reachable hc)
  obtain ⟨f, hf, hq⟩ := hd
  rcases nodeIndex_or (hg n hn) hp with h | ⟨kd, hk, hkd⟩
  · rw [h]
    have hs := (clean_names hc hf hq).2 (by
      intro e he s v hk
      apply hne s v
      unfold Reg.kind Reg.elem
      rw [hf]
      simp [he, hk])
    rw [Option.isSome_iff_exists] at hs
    obtain ⟨s, hs⟩ := hs
    have hpath : p.path ≠ [] := by
      intro h0; rw [h0] at hq; simp [ProtoFile.nameInForce, ProtoFile.placeScope] at hq
    obtain ⟨g, hg', hq'⟩ := (reachable_inForce (clean_reachable hc)).scopes p s hs hpath
    rw [hf] at hg'
    cases hg'
    rw [hq] at hq'
    cases hq'
    simp [Reg.scope, hs]
  · obtain ⟨kd', hk', hne'⟩ := nameInForce_kind hf hq
    rw [hk] at hk'
    cases hk'
    exact absurd hkd hne'

/-- C75, lookup: a node found by name stands for a declaration that has this name by the last package statement above
    it; and if these names are distinct, every declaration is found by it. -/
theorem C75_lookup {c} (hc : CleanReachable FlatFile c) :
    (∀ name n r', nodeByFullName name c.reg = (.ok (some n), r') →
      ∃ p, n.decl = some p ∧ DeclaredInForce c.reg name p) ∧
    ((∀ s p q, DeclaredInForce c.reg s p → DeclaredInForce c.reg s q → p = q) →
      ∀ name p, DeclaredInForce c.reg name p → ∃ a k r', nodeByFullName name c.reg = (.ok (some (.wrapped a k p)), r')) := by
  obtain ⟨o, hi, hg⟩ := reachable_inv (clean_reachable hc)
  have hsound := reachable_inForce (clean_reachable hc)
  refine ⟨?_, ?_⟩
  · intro name n r' h
    cases hreg : c.reg.registry name with
    | some p =>
      obtain ⟨a, k, kd, r'', e, h1, h2⟩ := byName_reg hi hreg
      rw [e] at h
      cases h
      exact ⟨p, rfl, hsound.names _ _ hreg⟩
    | none =>
      unfold nodeByFullName at h
      simp only [M.bind_apply, M.get_apply, hreg] at h
      unfold wrap at h
      split at h
      · next x hx =>
        cases h
        obtain ⟨a, k, p, h1, _⟩ := hi.cacheSome _ _ hx
        cases h1
      · simp [Reg.wrapTarget] at h
  · rintro hu name p ⟨f, hf, hq⟩
    have hs := (clean_names hc hf hq).1
    rw [Option.isSome_iff_exists] at hs
    obtain ⟨q, hs⟩ := hs
    have hqp : q = p := hu name _ _ (hsound.names _ _ hs) ⟨f, hf, hq⟩
    subst hqp
    obtain ⟨a, k, kd, r'', e, h1, h2⟩ := byName_reg hi hs
    exact ⟨a, k, r'', e⟩

/-- In files whose package statement comes first, the name by the package statement above is the fully qualified
    name. -/
theorem inForce_fqn {path : Str} {f : ProtoFile} (hw : WFFile path f.elems) (p : List Nat) :
    f.nameInForce p = f.fqn p := by
  have hplace : ∀ (rest : List Nat) (j : Nat), (∀ e, f.elemAt (j :: rest) = some e →
      e.kind.declName ≠ none ∨ (∃ s s', e.kind.memberScope s = some s')) →
      (∃ e, f.elemAt (j :: rest) = some e) → f.placeScope (j :: rest) = f.scopeAt rest := by
    intro rest
    induction rest with
    | nil =>
      intro j hk ⟨e, he⟩
      simp only [ProtoFile.placeScope, ProtoFile.scopeAt, Option.some.injEq]
      have hd := hk e he
      simp only [ProtoFile.elemAt, ProtoFile.childrenAt, Option.bind_some] at he
      have hnp : ∀ (l : List Elem) s, (∀ e ∈ l, e.kind.notPackage = true) → lastPackageDot l s = s := by
        intro l
        induction l with
        | nil => intro s _; rfl
        | cons x l ih =>
          intro s h
          have hx := h x (by simp)
          simp only [lastPackageDot]
          rw [ih _ fun y hy => h y (List.mem_cons_of_mem _ hy)]
          split
          · next n hn => rw [hn] at hx; simp [Kind.notPackage] at hx
          · rfl
      have happ : ∀ (l l' : List Elem) s, lastPackageDot (l ++ l') s = lastPackageDot l' (lastPackageDot l s) := by
        intro l
        induction l with
        | nil => intro l' s; rfl
        | cons x l ih => intro l' s; simp only [List.cons_append, lastPackageDot, ih]
      rcases hw.2 with hnone | ⟨pre, pos, cm, n, cs, post, hel, hn, hdp, hpre, hpost⟩
      · rw [hnp _ _ fun e he => hnone e (List.mem_of_mem_take he)]
        simp [packageDot, ← firstPackage_eq, firstPackage_none hnone]
      · rw [hel] at he ⊢
        have hp : packageDot (pre ++ .mk pos cm (.packageK n) cs :: post) = dot :: n := by
          unfold packageDot
          rw [← firstPackage_eq, firstPackage_append (fun e he => preamble_notPackage (hpre e he))]
          simp only [firstPackage, Elem.kind_mk]
          cases n with
          | nil => exact absurd rfl hn
          | cons c cs => rfl
        rw [hp]
        have hj : pre.length < j := by
          refine Nat.lt_of_not_le fun hlt => ?_
          by_cases h0 : j = pre.length
          · subst h0
            simp at he
            subst he
            rcases hd with h | ⟨s, s', h⟩
            · exact h rfl
            · simp [Kind.memberScope] at h
          · rw [List.getElem?_append_left (by omega)] at he
            have := hpre e (List.mem_of_getElem? he)
            rcases hd with h | ⟨s, s', h⟩
            · apply h; cases hk : e.kind <;> simp_all [Kind.preamble, Kind.declName]
            · cases hk : e.kind <;> simp_all [Kind.preamble, Kind.memberScope]
        rw [List.take_append, List.take_of_length_le (by omega), happ,
          hnp pre _ fun e he => preamble_notPackage (hpre e he)]
        obtain ⟨m, hm⟩ : ∃ m, j - pre.length = m + 1 := ⟨j - pre.length - 1, by omega⟩
        rw [hm]
        simp only [List.take_succ_cons, lastPackageDot, Elem.kind_mk]
        exact hnp _ _ fun e he => hpost e (List.mem_of_mem_take he)
    | cons m rest ih =>
      intro j hk ⟨e, he⟩
      simp only [ProtoFile.placeScope, ProtoFile.scopeAt]
      cases he0 : f.elemAt (m :: rest) with
      | none => simp
      | some e0 =>
        by_cases hex : ∃ s s', e0.kind.memberScope s = some s'
        · rw [ih m (fun e' h => by rw [he0] at h; cases h; exact .inr hex) ⟨e0, he0⟩]
          cases f.scopeAt rest <;> rfl
        · have hno : ∀ s, e0.kind.memberScope s = none := by
            intro s
            cases h : e0.kind.memberScope s with
            | none => rfl
            | some s' => exact absurd ⟨s, s', h⟩ hex
          cases f.placeScope (m :: rest) <;> cases f.scopeAt rest <;> simp [hno]
  cases p with
  | nil => simp [ProtoFile.nameInForce, ProtoFile.placeScope, ProtoFile.fqn]
  | cons j rest =>
    simp only [ProtoFile.nameInForce, ProtoFile.fqn]
    cases hn : (f.elemAt (j :: rest)).bind (·.kind.declName) with
    | none => cases f.placeScope (j :: rest) <;> cases f.scopeAt rest <;> simp
    | some n =>
      rw [Option.bind_eq_some_iff] at hn
      obtain ⟨e, he, hn⟩ := hn
      rw [hplace rest j (fun e' h => by rw [he] at h; cases h; exact .inl (by rw [hn]; simp)) ⟨e, he⟩]
      cases f.scopeAt rest <;> rfl

/-- Non-vacuity: a file with a declaration before, between and behind two package statements. -/
def twoPackages : List Elem :=
  [Ex.el b!"two.proto" 1 (.message b!"A" false), Ex.el b!"two.proto" 2 (.packageK b!"x"),
   Ex.el b!"two.proto" 3 (.message b!"B" false) [Ex.el b!"two.proto" 4 (.normalField b!"f" b!"int32" 1 false false)],
   Ex.el b!"two.proto" 5 (.packageK b!"y.z"), Ex.el b!"two.proto" 6 (.enum b!"C")]
def twoWorld : World := Ex.worldOf [(b!"two.proto", twoPackages)]
def twoOps : List Op := [.proto twoWorld 5 b!"two.proto", .byName b!".A", .byName b!".x.B.f", .byName b!".y.z.C"]
def twoClient : Client := Client.exec ⟨Ex.r0, []⟩ twoOps

theorem wf_flat {path elems} (h : WFFile path elems) : FlatFile path elems := by
  refine ⟨h.1, ?_⟩
  rcases h.2 with hnone | ⟨pre, pos, cm, n, cs, post, rfl, hn, hd, hpre, hpost⟩
  · intro e he n hk
    have := hnone e he
    rw [hk] at this; simp [Kind.notPackage] at this
  · intro e he n' hk
    rcases List.mem_append.mp he with he | he
    · have := hpre e he
      rw [hk] at this; simp [Kind.preamble] at this
    · rcases List.mem_cons.mp he with rfl | he
      · cases hk; exact ⟨hn, hd⟩
      · have := hpost e he
        rw [hk] at this; simp [Kind.notPackage] at this

theorem two_flat : twoWorld.Sat FlatFile := by
  apply Ex.worldOf_sat
  intro x hx
  simp only [List.mem_cons, List.not_mem_nil, or_false] at hx
  subst hx
  refine ⟨by decide +kernel, ?_⟩
  intro e he n hk
  simp only [twoPackages, List.mem_cons, List.not_mem_nil, or_false] at he
  rcases he with rfl | rfl | rfl | rfl | rfl <;> simp only [Ex.el, Elem.kind_mk, Kind.packageK.injEq, reduceCtorEq] at hk <;>
    (subst hk; decide)

theorem two_clean : CleanReachable FlatFile twoClient :=
  ⟨Ex.W, 5, Ex.r0, _, fun a b c d => wf_flat (Ex.W_wf a b c d), Ex.W_ok, (by
    intro op hop
    simp only [twoOps, List.mem_cons, List.not_mem_nil, or_false] at hop
    rcases hop with rfl | rfl | rfl | rfl
    · exact two_flat
    · trivial
    · trivial
    · trivial), Ex.loadsB_spec (by decide +kernel), rfl⟩

example : CleanReachable FlatFile twoClient ∧ (∃ a, Node.wrapped a .messageField ⟨1, [0, 2]⟩ ∈ twoClient.pool) ∧
    DeclaredInForce twoClient.reg b!".A" ⟨1, [0]⟩ ∧ DeclaredInForce twoClient.reg b!".x.B.f" ⟨1, [0, 2]⟩ ∧
    DeclaredInForce twoClient.reg b!".y.z.C" ⟨1, [4]⟩ :=
  ⟨two_clean, Ex.hasW_spec (i := 2) (by decide +kernel), ⟨⟨b!"two.proto", twoPackages⟩, by rfl, by decide +kernel⟩,
    ⟨⟨b!"two.proto", twoPackages⟩, by rfl, by decide +kernel⟩, ⟨⟨b!"two.proto", twoPackages⟩, by rfl, by decide +kernel⟩⟩

end Protoast.Props
