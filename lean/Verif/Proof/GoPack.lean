import Verif.Proof.Whole
import Verif.Proof.Sane
/-
  `GoPackage` only asks for the field go_package when it is known.
-/
namespace Protoast

/-- The same tables as `r0`, and the wrapper cache holds wrappers only. -/
structure AsIn (r0 r : Reg) : Prop where
  heap : r.heap = r0.heap
  registry : r.registry = r0.registry
  scopes : r.scopes = r0.scopes
  cache : ∀ v n, r.cache v = some (some n) → ∃ a k p, n = .wrapped a k p

theorem AsIn.alloc {r0 r : Reg} (h : AsIn r0 r) : AsIn r0 { r with next := r.next + 1 } :=
  ⟨h.heap, h.registry, h.scopes, h.cache⟩

theorem AsIn.kind {r0 r : Reg} (h : AsIn r0 r) (p : Ptr) : r.kind p = r0.kind p := by
  unfold Reg.kind Reg.elem; rw [h.heap]

/-- From every state that differs from `r0` in caches only, the computation does not panic because go_package is not
    known, and its result satisfies `Q`. -/
structure NG {α : Type} (r0 : Reg) (m : M α) (Q : α → Prop) : Prop where
  run : ∀ r, AsIn r0 r → AsIn r0 (m r).2 ∧ (m r).1 ≠ .panic .noGoPackage ∧ ∀ a, (m r).1 = .ok a → Q a

theorem NG.bind {α β} {r0 : Reg} {m : M α} {f : α → M β} {Q : α → Prop} {R : β → Prop} (hm : NG r0 m Q)
    (hf : ∀ a, Q a → NG r0 (f a) R) : NG r0 (m >>= f) R := by
  refine ⟨fun r hr => ?_⟩
  obtain ⟨h0, h1, h2⟩ := hm.run r hr
  show AsIn r0 ((M.bind m f) r).2 ∧ ((M.bind m f) r).1 ≠ _ ∧ ∀ b, ((M.bind m f) r).1 = _ → _
  unfold M.bind
  rcases e : m r with ⟨res, r1⟩
  rw [e] at h0 h1 h2
  cases res with
  | ok a => exact (hf a (h2 a rfl)).run r1 h0
  | panic p => exact ⟨h0, by simpa using h1, fun b hb => by cases hb⟩
  | timeout => exact ⟨h0, by simp, fun b hb => by cases hb⟩

theorem NG.pure {α} {r0 : Reg} {a : α} {Q : α → Prop} (h : Q a) : NG r0 (pure a : M α) Q :=
  ⟨fun r hr => ⟨hr, (by intro h; cases h), (fun b hb => by cases hb; exact h)⟩⟩

theorem NG.runSteps {α σ} {r0 : Reg} {Q : α → Prop} {body : σ → α → M (σ × Bool)}
    (hb : ∀ s a, Q a → NG r0 (body s a) fun _ => True) :
    ∀ (ms : List (M α)) (s : σ), (∀ m ∈ ms, NG r0 m Q) → NG r0 (runSteps body ms s) fun _ => True
  | [], s, _ => by unfold Protoast.runSteps; exact NG.pure trivial
  | m :: ms, s, hs => by
    unfold Protoast.runSteps
    refine NG.bind (hs m (by simp)) fun a ha => NG.bind (hb s a ha) fun x _ => ?_
    obtain ⟨s', go⟩ := x
    dsimp only
    split
    · exact NG.runSteps hb ms s' fun m hm => hs m (List.mem_cons_of_mem _ hm)
    · exact NG.pure trivial

/-- If a message is known under its full name, then so are its fields. -/
theorem field_known {r : Reg} (hs : Sound r) (hst : Stand r) {cn n : Str} {cls f : Ptr} {t sq rep opt}
    (hcls : r.registry cn = some cls) (hk : ∃ m x, r.kind cls = some (.message m x)) (hp : f.parent = .at cls)
    (hf : r.kind f = some (.normalField n t sq rep opt)) : (r.registry (cn ++ dot :: n)).isSome = true := by
  obtain ⟨g, hg, hq⟩ := hs.names _ _ hcls
  obtain ⟨k, hh, _⟩ := hst _ _ hg
  have hfr := hh.noName cls.path cn hcls
  rcases f with ⟨fi, fp⟩
  rcases cls with ⟨ci, cp⟩
  obtain ⟨m, x, hk⟩ := hk
  cases fp with
  | nil => cases hp
  | cons j rest =>
    simp only [Ptr.parent, Vis.at.injEq, Ptr.mk.injEq] at hp
    obtain ⟨rfl, rfl⟩ := hp
    simp only at hg hq hfr
    cases rest with
    | nil => simp [ProtoFile.fqn] at hq
    | cons j2 rest =>
      unfold Reg.kind Reg.elem at hf hk
      simp only at hf hk
      rw [hg] at hf hk
      simp only [Option.bind_some, Option.map_eq_some_iff] at hf hk
      obtain ⟨e, he, hek⟩ := hf
      obtain ⟨e2, he2, hek2⟩ := hk
      refine hh.names (j :: j2 :: rest) _ ?_ ?_
      · have h1 : g.scopeAt (j2 :: rest) = some cn := by
          simp only [ProtoFile.fqn] at hq
          simp only [ProtoFile.scopeAt]
          rw [he2] at hq ⊢
          cases hsc : g.scopeAt rest with
          | none => rw [hsc] at hq; simp at hq
          | some s =>
            rw [hsc] at hq
            cases x with
            | true => simp [hek2, Kind.declName] at hq
            | false =>
              simp only [hek2, Kind.declName, Option.bind_some, Option.some.injEq] at hq
              simp only [hek2, Kind.memberScope, hq]
        simp only [ProtoFile.fqn]
        rw [h1, he]
        simp [hek, Kind.declName]
      · obtain ⟨i, hi, hlt⟩ := hfr
        exact ⟨i, by simpa [List.getLast?_cons_cons] using hi, hlt⟩

/-- The option does not have the name of go_package, unless go_package is known. -/
def NotGo (r0 : Reg) (x : Option Node) : Prop :=
  r0.registry goPackageField = none → ∀ a o c f, x = some (.option a o c f) → ∀ r, AsIn r0 r →
    ∀ s, (Option.name o c f r).1 = .ok s → s ≠ b!"(.google.protobuf.FileOptions).go_package"

/-- `newOption`, as a result and a state. -/
def newOption' (r : Reg) (scope : Str) (cls opt : Ptr) : Res Node × Reg :=
  match r.kind opt with
  | some (.option oname _) =>
    match resolveNameRaw r.defined scope (stripParens oname) with
    | (resolved, true) =>
      match r.registry resolved with
      | some f =>
        match r.kind f with
        | some (.normalField _ _ _ _ _) => (.ok (.option r.next opt cls f), { r with next := r.next + 1 })
        | _ => (.panic .typeAssertion, r)
      | none => (.panic .typeAssertion, r)
    | (_, false) =>
      match builtinOptionField r cls oname with
      | some f => (.ok (.option r.next opt cls f), { r with next := r.next + 1 })
      | none => (.panic .optionFieldNotFound, r)
  | _ => (.panic .illTyped, r)

theorem newOption_pair (r : Reg) (scope : Str) (cls opt : Ptr) :
    newOption scope cls opt r = newOption' r scope cls opt := by
  unfold newOption newOption'
  change (match r.kind opt with | some (.option oname _) => _ | _ => _ : M Node) r = _
  split
  · split
    · split
      · split <;> (simp only [*]; try rfl)
      · simp only [*]; rfl
    · split <;> (simp only [*]; try rfl)
  · rfl

theorem newOption_notGo {r0 : Reg} (hs : Sound r0) (hst : Stand r0)
    {cls opt : Ptr} (hcls : r0.registry registryOptionsFile = some cls)
    (hck : ∃ m x, r0.kind cls = some (.message m x)) (scope : Str) :
    NG r0 (newOption scope cls opt) fun n => NotGo r0 (some n) := by
  refine ⟨fun r hr => ?_⟩
  have hkind := hr.kind
  have hfin : ∀ a f, (r0.registry goPackageField = none → f.parent ≠ .at cls → ∀ n lit, r0.kind opt = some (.option n lit) →
      n ≠ b!"(.google.protobuf.FileOptions).go_package") → NotGo r0 (some (.option a opt cls f)) := by
    intro a f hcase hno a' o c f' e r' hr' s hname heq
    cases e
    subst heq
    have hkind' := hr'.kind
    change ((if f.parent = .at cls then _ else _ : M Str) r').1 = _ at hname
    split at hname
    · next hp =>
      cases hk : r'.kind f with
      | none => rw [hk] at hname; cases hname
      | some k =>
        rw [hk] at hname
        obtain ⟨n, t, sq, rep, op, rfl⟩ : ∃ n t sq rep op, k = .normalField n t sq rep op := by
          cases k <;> first | exact ⟨_, _, _, _, _, rfl⟩ | cases hname
        have hname' : b!"(" ++ r'.scope (.at cls) ++ b!")." ++ n = b!"(.google.protobuf.FileOptions).go_package" := by
          injection hname
        rw [hkind'] at hk
        have hsc : r'.scopes (.at cls) = r0.scopes (.at cls) := by rw [hr'.scopes]
        cases hsx : r0.scopes (.at cls) with
        | none =>
          rw [hsx] at hsc
          have : r'.scope (.at cls) = [] := by simp [Reg.scope, hsc]
          rw [this] at hname'
          simp at hname'
        | some sc =>
          rw [hsx] at hsc
          have h1 : r'.scope (.at cls) = sc := by simp [Reg.scope, hsc]
          obtain ⟨g, hg, hq⟩ := hs.names _ _ hcls
          have hne : cls.path ≠ [] := by
            intro h0; rw [h0] at hq; simp [ProtoFile.fqn] at hq
          obtain ⟨g', hg', hq'⟩ := hs.scopes _ _ hsx hne
          rw [hg] at hg'
          cases hg'
          rw [hq] at hq'
          cases hq'
          rw [h1] at hname'
          have hn : n = b!"go_package" := by
            have e2 : b!"(.google.protobuf.FileOptions).go_package" =
                b!"(" ++ registryOptionsFile ++ b!")." ++ b!"go_package" := by decide
            rw [e2] at hname'
            exact List.append_cancel_left hname'
          have hkn := field_known hs hst hcls hck hp hk
          have e3 : registryOptionsFile ++ dot :: n = goPackageField := by rw [hn]; decide
          rw [e3, hno] at hkn
          cases hkn
    · next hp =>
      cases hk : r'.kind opt with
      | none => rw [hk] at hname; cases hname
      | some k =>
        rw [hk] at hname
        obtain ⟨n, lit, rfl⟩ : ∃ n lit, k = .option n lit := by
          cases k <;> first | exact ⟨_, _, rfl⟩ | cases hname
        have hname' : n = b!"(.google.protobuf.FileOptions).go_package" := by injection hname
        rw [hkind'] at hk
        exact hcase hno hp n lit hk hname'
  rw [newOption_pair]
  unfold newOption'
  split
  · next oname lit hko =>
    split
    · next resolved hres =>
      split
      · next f hf =>
        split
        · refine ⟨hr.alloc, (by intro h; cases h), fun n hn => ?_⟩
          cases hn
          refine hfin _ _ fun hno _ n lit' hk heq => ?_
          rw [hkind, hk] at hko
          cases hko
          subst heq
          have e1 : stripParens b!"(.google.protobuf.FileOptions).go_package" = goPackageField := by decide
          rw [e1] at hres
          have e2 : hasDotPrefix goPackageField = true := by decide
          unfold resolveNameRaw at hres
          rw [e2] at hres
          simp only [if_true, Prod.mk.injEq] at hres
          obtain ⟨rfl, _⟩ := hres
          rw [hr.registry, hno] at hf
          cases hf
        · exact ⟨hr, (by intro h; cases h), (fun n hn => by cases hn)⟩
      · exact ⟨hr, (by intro h; cases h), (fun n hn => by cases hn)⟩
    · split
      · next f hf =>
        refine ⟨hr.alloc, (by intro h; cases h), fun n hn => ?_⟩
        cases hn
        refine hfin _ _ fun _ hp => absurd ?_ hp
        unfold builtinOptionField at hf
        rw [Option.map_eq_some_iff] at hf
        obtain ⟨⟨q, e⟩, h1, h2⟩ := hf
        dsimp only at h2
        subst h2
        obtain ⟨i, rfl, _⟩ := kids_mem (List.mem_of_find?_eq_some h1)
        rfl
      · exact ⟨hr, (by intro h; cases h), (fun n hn => by cases hn)⟩
  · exact ⟨hr, (by intro h; cases h), (fun n hn => by cases hn)⟩

theorem optionClass_ng {r0 : Reg} (cn : Str) :
    NG r0 (optionClass cn) fun cls => r0.registry cn = some cls ∧ ∃ m x, r0.kind cls = some (.message m x) := by
  refine ⟨fun r hr => ?_⟩
  have hkind := hr.kind
  have hun : optionClass cn r = (match r.registry cn with
    | some p =>
      match r.kind p with
      | some (.message _ _) => (.ok p, r)
      | _ => (.panic .typeAssertion, r)
    | none => (.panic .typeAssertion, r)) := by
    clear hkind
    unfold optionClass
    change (match r.registry cn with | some p => _ | none => _ : M Ptr) r = _
    split
    · split <;> (simp only [*]; try rfl)
    · simp only [*]; rfl
  rw [hun]
  split
  · next p hp =>
    split
    · next m x hk =>
      refine ⟨hr, (by intro h; cases h), fun n hn => ?_⟩
      cases hn
      exact ⟨by rw [← hr.registry]; exact hp, _, _, by rw [← hkind]; exact hk⟩
    · exact ⟨hr, (by intro h; cases h), (fun n hn => by cases hn)⟩
  · exact ⟨hr, (by intro h; cases h), (fun n hn => by cases hn)⟩

theorem wrap_notGo {r0 : Reg} (v : Vis) : NG r0 (wrap v) (NotGo r0) := by
  refine ⟨fun r hr => ?_⟩
  unfold Protoast.wrap
  split
  · next n hn =>
    refine ⟨hr, (by intro h; cases h), fun x hx => ?_⟩
    cases hx
    intro _ a o c f e
    subst e
    obtain ⟨_, _, _, h⟩ := hr.cache _ _ hn
    cases h
  · split
    · refine ⟨⟨hr.heap, hr.registry, hr.scopes, fun v' n h => ?_⟩, (by intro h; cases h), fun x hx => ?_⟩
      · dsimp only at h
        unfold upd at h
        split at h
        · cases h; exact ⟨_, _, _, rfl⟩
        · exact hr.cache _ _ h
      · cases hx
        intro _ a o c f e
        cases e
    · refine ⟨⟨hr.heap, hr.registry, hr.scopes, fun v' n h => ?_⟩, (by intro h; cases h), fun x hx => by cases hx⟩
      dsimp only at h
      unfold upd at h
      split at h
      · cases h
      · exact hr.cache _ _ h

theorem body_ng {r0 : Reg} (s) (x : Option Node) (hx : NotGo r0 x) : NG r0 (goPackageBody s x) fun _ => True := by
  unfold Protoast.goPackageBody
  split
  · next ad o c f =>
    refine ⟨fun r hr => ?_⟩
    have hn := fun h => hx h ad o c f rfl r hr
    have hst : (Option.name o c f r).2 = r ∧ (Option.name o c f r).1 ≠ .panic .noGoPackage := by
      have : Option.name o c f r = (if f.parent = .at c then
          match r.kind f with
          | some (.normalField n _ _ _ _) => (pure (b!"(" ++ r.scope (.at c) ++ b!")." ++ n) : M Str) r
          | _ => (M.panic .illTyped : M Str) r
        else
          match r.kind o with
          | some (.option n _) => (pure n : M Str) r
          | _ => (M.panic .illTyped : M Str) r) := by
        unfold Option.name
        change (if f.parent = .at c then _ else _ : M Str) r = _
        split
        · split <;> (simp only [*]; try rfl)
        · split <;> (simp only [*]; try rfl)
      rw [this]
      split
      · split
        · exact ⟨rfl, by intro h; cases h⟩
        · exact ⟨rfl, by intro h; cases h⟩
      · split
        · exact ⟨rfl, by intro h; cases h⟩
        · exact ⟨rfl, by intro h; cases h⟩
    change AsIn r0 ((M.bind (Option.name o c f) _) r).2 ∧ ((M.bind (Option.name o c f) _) r).1 ≠ _ ∧ _
    unfold M.bind
    rcases e : Option.name o c f r with ⟨res, r1⟩
    rw [e] at hn hst
    obtain ⟨h1, h2⟩ := hst
    simp only at h1 h2 hn
    subst h1
    cases res with
    | ok nm =>
      cases hreg : r0.registry goPackageField with
      | none =>
        simp only [ne_eq, hn hreg nm rfl, not_false_eq_true, if_true]
        exact ⟨hr, (by intro h; cases h), fun _ _ => trivial⟩
      | some d =>
        dsimp only
        split
        · exact ⟨hr, (by intro h; cases h), fun _ _ => trivial⟩
        · have hgo : NG r0 (goPackageOption (.option ad o c f)) fun _ => True := ?_
          · have := (NG.bind (R := fun _ => True) hgo fun g _ => NG.pure (a := (some g, false)) trivial).run r1 hr
            exact ⟨this.1, this.2.1, fun _ _ => trivial⟩
          refine ⟨fun r hr => ?_⟩
          have hd : r.registry goPackageField = some d := by rw [hr.registry, hreg]
          change AsIn r0 ((match r.registry goPackageField with | none => _ | some _ => _ : M _) r).2 ∧
            ((match r.registry goPackageField with | none => _ | some _ => _ : M _) r).1 ≠ _ ∧ _
          rw [hd]
          dsimp only
          split
          · exact ⟨hr, (by intro h; cases h), fun _ _ => trivial⟩
          · cases r.kind o with
            | none => exact ⟨hr, (by intro h; cases h), fun _ _ => trivial⟩
            | some k => cases k <;> exact ⟨hr, (by intro h; cases h), fun _ _ => trivial⟩
    | panic p => exact ⟨hr, by simpa using h2, fun _ _ => trivial⟩
    | timeout => exact ⟨hr, by simp, fun _ _ => trivial⟩
  · exact NG.pure trivial

theorem everything_ng {r0 : Reg} (hs : Sound r0) (hst : Stand r0) (p : Ptr) :
    NG r0 (File.everything p) fun ms => ∀ m ∈ ms, NG r0 m (NotGo r0) := by
  refine ⟨fun r hr => ⟨hr, (by intro h; cases h), fun ms hms m hm => ?_⟩⟩
  cases hms
  obtain ⟨⟨q, e⟩, _, hm⟩ := List.mem_filterMap.mp hm
  simp only [everythingStep] at hm
  split at hm
  · cases hm
    refine NG.bind (optionClass_ng _) fun cls hcls => NG.bind (Q := fun n => NotGo r0 (some n)) ?_ fun n hn => NG.pure hn
    obtain ⟨h1, h2⟩ := hcls
    unfold Protoast.wrapOption
    refine ⟨fun r hr => ?_⟩
    exact (newOption_notGo hs hst h1 h2 _).run r hr
  · cases hm
    exact wrap_notGo _

theorem filePanics_go : ∀ n : Node, Panic.noGoPackage ∉ n.filePanics
  | .repeated _ (some t) => by unfold Node.filePanics; exact filePanics_go t
  | .repeated _ none | .mapItem _ _ | .wrapped _ _ _ | .option _ _ _ _ | .oneof _ _ | .map _ _ | .builtin _ => by
    simp [Node.filePanics]
  | .value v => by unfold Node.filePanics; split <;> simp

/-- `GoPackage` never panics because the field go_package is not known. -/
theorem goPackage_known {c : Client} {n : Node} (hr : Reachable WFFile c) (hn : n ∈ c.pool) :
    (goPackage n c.reg).1 ≠ .panic .noGoPackage := by
  obtain ⟨o, hi, hg⟩ := reachable_inv hr
  have hs := reachable_sound hr
  have hst := reachable_stand hr
  have j := J.of_inv hi
  obtain ⟨j1, h1, -⟩ := (SQ.nodeFile n (NodeOK.of_good n (hg n hn))).run c.reg j
  have hx := (RO.nodeFile n).ext c.reg
  have hfp := filePanics_go n
  change (M.bind (nodeFile n) _ c.reg).1 ≠ _
  unfold M.bind
  rcases e : nodeFile n c.reg with ⟨res, r1⟩
  rw [e] at j1 h1 hx
  cases res with
  | panic p =>
    intro h
    cases h
    exact hfp (h1.2 _ rfl)
  | timeout => intro h; cases h
  | ok x =>
    have ha : AsIn c.reg r1 := ⟨hx.heap, hx.registry, hx.scopes, fun v n h => by
      obtain ⟨a, k, p, _, h2, _⟩ := j1.cache v n h
      exact ⟨a, k, p, h2⟩⟩
    dsimp only
    split
    · refine (NG.run (r0 := c.reg) (Q := fun _ => True) (NG.bind (Q := fun _ => True) ?_ fun s _ => ?_) r1 ha).2.1
      · unfold Seq.run
        exact NG.bind (everything_ng hs hst _) fun ms hms => NG.runSteps body_ng ms _ hms
      · split <;> exact NG.pure trivial
    · intro h; cases h

end Protoast
