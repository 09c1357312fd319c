import Verif.Props.Protoc
import Verif.Props.Iter
import Verif.Props.Parents
import Verif.Props.Options
/-
  C68-C73: exact behaviour where the documented behaviour does not hold (C40, C42, C32, C31, C37, C11).
-/
namespace Protoast.Props
open Protoast

theorem declared_split {r : Reg} {x : Str} {p : Ptr} (h : Declared r x p) :
    ∃ s n kd, x = s ++ dot :: n ∧ r.kind p = some kd ∧ kd.declName = some n := by
  obtain ⟨f, hf, hq⟩ := h
  rcases p with ⟨i, path⟩
  cases path with
  | nil => simp [ProtoFile.fqn] at hq
  | cons j rest =>
    simp only [ProtoFile.fqn] at hq
    cases hs : f.scopeAt rest with
    | none => rw [hs] at hq; cases hq
    | some s =>
      cases he : f.elemAt (j :: rest) with
      | none => rw [hs, he] at hq; cases hq
      | some e =>
        rw [hs, he] at hq
        cases hn : e.kind.declName with
        | none => simp [hn] at hq
        | some n =>
          simp only [hn, Option.bind_some, Option.some.injEq] at hq
          exact ⟨s, n, e.kind, hq.symm, by simp [Reg.kind, Reg.elem, hf, he], hn⟩

/-! ### C68: map values -/

/-- The name is written without leading dot and a message or enum at `q` has it as full name, package included. -/
def TopLevelType (r : Reg) (typ : Str) (q : Ptr) : Prop :=
  hasDotPrefix typ = false ∧ Declared r (dot :: typ) q ∧ DeclaresType r q

/-- C68: `Value` of a map knows the keywords and the full names (without the leading dot) of messages and enums; it
    gives the builtin type or the node of that declaration; for everything else it panics. -/
theorem C68_map_value {c p n kt typ s} (hc : CleanReachable WFFile c) (hu : UniqueNames c.reg)
    (hk : c.reg.kind p = some (.mapField n kt typ s)) :
    (∀ b : Builtin, typ = b.toStr → Map.value p c.reg = (.ok (.builtin b), c.reg)) ∧
    (∀ q, ¬ IsKeyword typ → TopLevelType c.reg typ q →
      ∃ a k r', Map.value p c.reg = (.ok (.wrapped a k q), r')) ∧
    (¬ IsKeyword typ → (∀ q, ¬ TopLevelType c.reg typ q) →
      Map.value p c.reg = (.panic .badMapValue, c.reg)) := by
  have hr := clean_reachable hc
  obtain ⟨o, hi, hg⟩ := reachable_inv hr
  have hs := reachable_sound hr
  have hreg : ∀ x q, c.reg.registry x = some q ↔ Declared c.reg x q := by
    intro x q
    refine ⟨hs.names x q, fun h => ?_⟩
    obtain ⟨f, hf, hq⟩ := h
    obtain ⟨q', hq2⟩ := Option.isSome_iff_exists.mp ((clean_complete hc _ f (Nat.zero_le _) hf).names _ _ hq)
    rw [hq2, hu x _ _ (hs.names _ _ hq2) ⟨f, hf, hq⟩]
  refine ⟨fun b hb => ?_, fun q hkw ht => ?_, fun hkw hno => ?_⟩
  · unfold Map.value
    simp [hk, (builtin_iff _ _).mpr hb]
  · have hb := (not_keyword_iff _).mp hkw
    obtain ⟨h1, h2, nm, h3⟩ := ht
    have h4 := (hreg _ _).mpr h2
    have hname : mapValueName typ = dot :: typ := by simp [mapValueName, h1]
    have hund := (hi.regRooted _ _ h4).under
    rcases h3 with h3 | h3
    · obtain ⟨a, _, r', hw, _⟩ := wrap_full hi (target_of_kind h3 (k := .message) rfl) hund
      refine ⟨a, .message, r', ?_⟩
      unfold Map.value
      simp [hk, hb, hname, h4, h3, wrapAs, assertKind, hw]
    · obtain ⟨a, _, r', hw, _⟩ := wrap_full hi (target_of_kind h3 (k := .enum) rfl) hund
      refine ⟨a, .enum, r', ?_⟩
      unfold Map.value
      simp [hk, hb, hname, h4, h3, wrapAs, assertKind, hw]
  · have hb := (not_keyword_iff _).mp hkw
    unfold Map.value
    simp only [M.bind_apply, M.get_apply, hk, hb]
    cases hx : c.reg.registry (mapValueName typ) with
    | none => rfl
    | some q =>
      have hd := hs.names _ _ hx
      have hnd : hasDotPrefix typ = false := by
        cases hh : hasDotPrefix typ with
        | false => rfl
        | true =>
          exfalso
          simp only [mapValueName, hh, if_true] at hd
          obtain ⟨s', n', _, h0, _⟩ := declared_split hd
          simp at h0
      have hname : mapValueName typ = dot :: typ := by simp [mapValueName, hnd]
      rw [hname] at hd
      have hkind : ∀ kd, c.reg.kind q = some kd → kd.declName.isSome = true := by
        intro kd hkd
        obtain ⟨_, _, kd', _, h1, h2⟩ := declared_split hd
        rw [hkd] at h1; cases h1; simp [h2]
      simp only
      cases hkq : c.reg.kind q with
      | none => rfl
      | some kd =>
        cases kd with
        | message nm ext =>
          cases ext with
          | false => exact absurd ⟨hnd, hd, nm, .inl hkq⟩ (hno q)
          | true => have := hkind _ hkq; simp [Kind.declName] at this
        | enum nm => exact absurd ⟨hnd, hd, nm, .inr hkq⟩ (hno q)
        | _ => rfl

/-- Non-vacuity: the map field of the example, whose value type is the message around it, written in full; and a map
    whose value type is written relative to the message, which panics. -/
example : CleanReachable WFFile Ex.c2 ∧ UniqueNames Ex.c2.reg ∧
    Ex.c2.reg.kind ⟨1, [4, 4]⟩ = some (.mapField b!"dict" b!"string" b!"p.q.M" 6) ∧
    TopLevelType Ex.c2.reg b!"p.q.M" ⟨1, [4]⟩ :=
  ⟨Ex.c2_clean, Ex.c2_unique, by rfl, by decide +kernel, declared_intro (by decide +kernel), b!"M", .inl (by rfl)⟩

example : CleanReachable WFFile cM ∧ UniqueNames cM.reg ∧
    cM.reg.kind ⟨1, [2, 1]⟩ = some (.mapField b!"y" b!"string" b!"K" 2) ∧ ∀ q, ¬ TopLevelType cM.reg b!"K" q := by
  have hu : UniqueNames cM.reg := Ex.uniqueB_spec (by decide +kernel)
  refine ⟨cM_clean, hu, by rfl, ?_⟩
  rintro q ⟨_, h, _⟩
  obtain ⟨f, hf, hq⟩ := h
  have := (clean_complete cM_clean _ f (Nat.zero_le _) hf).names _ _ hq
  revert this
  show ¬ _
  decide +kernel

/-! ### C69: TypeName -/

/-- The types that have a printed name: all but enum values, maps, unresolved repeated types, and repeated types of
    these. -/
def Node.printable : Node → Bool
  | .wrapped _ .message _ => true
  | .wrapped _ .enum _ => true
  | .builtin _ => true
  | .oneof _ _ => true
  | .repeated _ (some t) => Node.printable t
  | _ => false

/-- C69: TypeName succeeds exactly for the printable types and panics for all other nodes; for a message or enum it is
    always the same as NodeIndex. -/
theorem C69_type_name : (t : Node) → (r : Reg) →
    (if Node.printable t then ∃ s, typeName t r = (.ok s, r) else ∃ e, typeName t r = (.panic e, r)) ∧
    (∀ a k p, t = .wrapped a k p → (k = .message ∨ k = .enum) → typeName t r = nodeIndex t r)
  | .wrapped a k p, r => by
    refine ⟨?_, ?_⟩
    · cases k <;> first | exact ⟨_, rfl⟩
    · rintro _ _ _ ⟨rfl⟩ (rfl | rfl) <;> rfl
  | .repeated a (some t), r => by
    refine ⟨?_, by intro _ _ _ h; cases h⟩
    have ih := (C69_type_name t r).1
    unfold Node.printable
    by_cases hp : Node.printable t = true
    · rw [if_pos hp] at ih
      obtain ⟨s, hs⟩ := ih
      rw [if_pos hp]
      exact ⟨_, by unfold typeName; simp only [M.bind_apply, hs]; rfl⟩
    · rw [if_neg hp] at ih
      obtain ⟨e, he⟩ := ih
      rw [if_neg hp]
      exact ⟨e, by unfold typeName; simp only [M.bind_apply, he]⟩
  | .builtin b, r => ⟨⟨_, rfl⟩, by intro _ _ _ h; cases h⟩
  | .oneof _ _, r => ⟨⟨_, rfl⟩, by intro _ _ _ h; cases h⟩
  | .repeated _ none, r => ⟨⟨_, rfl⟩, by intro _ _ _ h; cases h⟩
  | .option _ _ _ _, r => ⟨⟨_, rfl⟩, by intro _ _ _ h; cases h⟩
  | .map _ _, r => ⟨⟨_, rfl⟩, by intro _ _ _ h; cases h⟩
  | .value _, r => ⟨⟨_, rfl⟩, by intro _ _ _ h; cases h⟩
  | .mapItem _ _, r => ⟨⟨_, rfl⟩, by intro _ _ _ h; cases h⟩

/-! ### C70: Everything -/

/-- The element at index `i` of the object `p`. -/
def childPtr (p : Ptr) (i : Nat) : Ptr := ⟨p.file, i :: p.path⟩

theorem everythingStep_some (cls : Str) (q : Ptr) (k : Kind) : ∃ m, everythingStep cls q k = some m := by
  unfold everythingStep
  split <;> exact ⟨_, rfl⟩

theorem filterMap_total {α β} {f : α → Option β} (h : ∀ a, ∃ b, f a = some b) : ∀ (l : List α) (i : Nat) (a : α),
    l[i]? = some a → (l.filterMap f)[i]? = f a := by
  intro l
  induction l with
  | nil => intro i a hi; simp at hi
  | cons x xs ih =>
    intro i a hi
    obtain ⟨b, hb⟩ := h x
    rw [List.filterMap_cons, hb]
    cases i with
    | zero => simp at hi; subst hi; simp [hb]
    | succ i => simpa using ih i a (by simpa using hi)

theorem kids_get {r : Reg} {p : Ptr} {i : Nat} {e : Elem} (he : ((r.children p).getD [])[i]? = some e) :
    (r.kids p)[i]? = some (childPtr p i, e) := by
  rw [kids_zipIdx, List.getElem?_map, List.getElem?_zipIdx, he]
  simp [childPtr, Ptr.child]

theorem everything_nth {cls : Str} {p : Ptr} {i : Nat} {e : Elem} {r : Reg}
    (he : ((r.children p).getD [])[i]? = some e) :
    ∃ m, everythingStep cls (childPtr p i) e.kind = some m ∧
      Seq.nth (overKids p (everythingStep cls)) i r = (m >>= fun a => pure (some a)) r := by
  obtain ⟨m, hm⟩ := everythingStep_some cls (childPtr p i) e.kind
  refine ⟨m, hm, ?_⟩
  have h1 := filterMap_total (f := fun x : Ptr × Elem => everythingStep cls x.1 x.2.kind)
    (fun x => everythingStep_some cls x.1 x.2.kind) (r.kids p) i _ (kids_get he)
  rw [hm] at h1
  unfold Seq.nth overKids
  simp only [M.bind_apply, M.get_apply, M.pure_apply]
  have h2 : (List.filterMap (fun x : Ptr × Elem => match x with | (q, e) => everythingStep cls q e.kind)
      (r.kids p))[i]? = some m := h1
  rw [h2]
  rfl

theorem everythingOf_eq {n seq cls p} (he : everythingOf n = some (seq, cls, p)) :
    seq = overKids p (everythingStep cls) ∧ ∃ a k, n = .wrapped a k p := by
  unfold everythingOf at he
  split at he <;> cases he <;> exact ⟨rfl, _, _, rfl⟩

/-- The computation never runs out of steps. -/
def NT {α : Type} (m : M α) : Prop := ∀ r, (m r).1 ≠ .timeout

theorem NT.pure {α} (a : α) : NT (Pure.pure a : M α) := fun _ => by simp [M.pure_apply]
theorem NT.panic {α} (p : Panic) : NT (M.panic p : M α) := fun _ => by simp [M.panic_apply]
theorem NT.get : NT M.get := fun _ => by simp [M.get_apply]
theorem NT.alloc : NT M.alloc := fun _ => by simp [M.alloc_apply]
theorem NT.bind {α β} {m : M α} {f : α → M β} (hm : NT m) (hf : ∀ a, NT (f a)) : NT (m >>= f) := by
  intro r
  simp only [M.bind_apply]
  rcases h : m r with ⟨res, r'⟩
  cases res with
  | ok a => exact hf a r'
  | panic p => simp
  | timeout => exact absurd (congrArg Prod.fst h) (hm r)

theorem optionClass_no_timeout (n : Str) : NT (optionClass n) := by
  unfold optionClass
  refine NT.bind NT.get fun r => ?_
  repeat' split
  all_goals first | exact NT.pure _ | exact NT.panic _

theorem newOption_no_timeout (s : Str) (a b : Ptr) : NT (newOption s a b) := by
  unfold newOption
  refine NT.bind NT.get fun r => ?_
  repeat' split
  all_goals first | exact NT.pure _ | exact NT.panic _ | exact NT.bind NT.alloc fun _ => NT.pure _

/-- C70: the `i`-th element of `Everything`, in any state. An element with a node type, or an option bound at top
    level, is delivered as its node; an option that is not bound there makes the call panic, always; an element without
    node type (comment, group, extension range, edition) makes the call panic or is delivered as nil. -/
theorem C70_everything {c n seq cls p i e} (hr : Reachable WFFile c) (hn : n ∈ c.pool)
    (he : everythingOf n = some (seq, cls, p)) (hi : ((c.reg.children p).getD [])[i]? = some e) :
    (Representable c.reg cls e → ∃ x r', Seq.nth seq i c.reg = (.ok (some (some x)), r') ∧
      x.place = some (childPtr p i)) ∧
    (¬ Representable c.reg cls e → (∃ w l, e.kind = .option w l) →
      ∃ er r', Seq.nth seq i c.reg = (.panic er, r')) ∧
    (¬ Representable c.reg cls e → (∀ w l, e.kind ≠ .option w l) →
      (∃ r', Seq.nth seq i c.reg = (.panic .unsupportedType, r')) ∨
        Seq.nth seq i c.reg = (.ok (some none), c.reg)) := by
  obtain ⟨rfl, a, k, rfl⟩ := everythingOf_eq he
  obtain ⟨o, hinv, hg⟩ := reachable_inv hr
  have hs := reachable_sound hr
  have hroot := GoodW.rooted (hg _ hn)
  obtain ⟨m, hm, hnth⟩ := everything_nth (cls := cls) hi
  rw [hnth]
  obtain ⟨hel, hund⟩ := present_kids hroot _ (List.mem_of_getElem? (kids_get hi))
  have hkd : c.reg.kind (childPtr p i) = some e.kind := by simp [Reg.kind, hel]
  refine ⟨fun hrep => ?_, fun hrep hopt => ?_, fun hrep hopt => ?_⟩
  · obtain ⟨m', x, o', r', h1, h2, h3, _⟩ := everything_step hinv hs hel hund hrep
    rw [hm] at h1; cases h1
    exact ⟨x, r', by simp [M.bind_apply, h2], h3⟩
  · obtain ⟨w, l, hk⟩ := hopt
    rw [hk] at hm hkd
    simp only [everythingStep, Option.some.injEq] at hm
    subst hm
    simp only [M.bind_apply]
    rcases hx : optionClass cls c.reg with ⟨res, r1⟩
    cases res with
    | panic er => exact ⟨er, r1, rfl⟩
    | timeout => exact absurd (congrArg Prod.fst hx) (optionClass_no_timeout _ _)
    | ok cp =>
      obtain ⟨hc, rfl⟩ := optionClass_classAt hx
      simp only [wrapOption, M.bind_apply, M.get_apply, option_scope hs hkd]
      rcases hy : newOption [] cp (childPtr p i) c.reg with ⟨res, r2⟩
      cases res with
      | panic er => exact ⟨er, r2, rfl⟩
      | timeout => exact absurd (congrArg Prod.fst hy) (newOption_no_timeout _ _ _ _)
      | ok x =>
        exfalso
        obtain ⟨w', l', f, h1, h2, _⟩ := newOption_ok hy
        rw [hkd] at h1; cases h1
        exact hrep (.inr ⟨w, l, cp, f, hk, hc, h2⟩)
  · have hnn : wrapKind e.kind = none := by
      cases hk : e.kind <;> first | rfl | (exfalso; exact hrep (.inl (by simp [hk, Kind.hasNode])))
    have hmw : m = wrap (.at (childPtr p i)) := by
      unfold everythingStep at hm
      split at hm
      · next w l hk => exact absurd hk (hopt w l)
      · cases hm; rfl
    subst hmw
    have ht : c.reg.wrapTarget (.at (childPtr p i)) = none := by
      unfold Reg.wrapTarget childPtr
      simp only
      show ((c.reg.kind (childPtr p i)).bind wrapKind).map _ = none
      rw [hkd]; simp [hnn]
    simp only [M.bind_apply]
    unfold wrap
    cases hc : c.reg.cache (.at (childPtr p i)) with
    | none => left; exact ⟨_, by simp [ht]; rfl⟩
    | some x =>
      right
      cases x with
      | none => rfl
      | some y =>
        obtain ⟨a', k', p', h1, h2, h3, _⟩ := hinv.cacheSome _ _ hc
        rw [ht] at h3; cases h3

/-- C70, afterwards: once it has panicked at an element without node type, it delivers nil there for ever. -/
theorem C70_nil_later {c n seq cls p i e r'} (hr : Reachable WFFile c) (hn : n ∈ c.pool)
    (he : everythingOf n = some (seq, cls, p)) (hi : ((c.reg.children p).getD [])[i]? = some e)
    (hopt : ∀ w l, e.kind ≠ .option w l)
    (hpanic : Seq.nth seq i c.reg = (.panic .unsupportedType, r')) (ops : List Op) :
    let c2 := Client.exec ⟨r', c.pool⟩ ops
    Seq.nth seq i c2.reg = (.ok (some none), c2.reg) := by
  intro c2
  obtain ⟨rfl, a, k, rfl⟩ := everythingOf_eq he
  obtain ⟨o, hinv, hg⟩ := reachable_inv hr
  obtain ⟨m, hm, hnth⟩ := everything_nth (cls := cls) hi
  have hmw : m = wrap (.at (childPtr p i)) := by
    unfold everythingStep at hm
    split at hm
    · next w l hk => exact absurd hk (hopt w l)
    · cases hm; rfl
  subst hmw
  rw [hnth] at hpanic
  simp only [M.bind_apply] at hpanic
  have hc' : r'.cache (.at (childPtr p i)) = some none ∧ CacheExt c.reg r' := by
    have hro := (RO.wrap (.at (childPtr p i))).ext c.reg
    rcases hw : wrap (.at (childPtr p i)) c.reg with ⟨res, r1⟩
    rw [hw] at hpanic hro
    cases res with
    | ok x => simp [M.pure_apply] at hpanic
    | timeout => simp at hpanic
    | panic er =>
      simp only [Prod.mk.injEq] at hpanic
      obtain ⟨_, rfl⟩ := hpanic
      refine ⟨?_, hro⟩
      unfold wrap at hw
      cases hc : c.reg.cache (.at (childPtr p i)) with
      | some x => rw [hc] at hw; simp at hw
      | none =>
        rw [hc] at hw
        simp only at hw
        split at hw
        · simp at hw
        · simp only [Prod.mk.injEq] at hw
          rw [← hw.2]; simp [upd]
  have hl := exec_later ops ⟨r', c.pool⟩
  have hch : ((c2.reg.children p).getD [])[i]? = some e := by
    have hlen : c2.reg.children p = c.reg.children p := by
      have hlt : p.file < c.reg.heap.length := by
        cases hh : c.reg.heap[p.file]? with
        | none => simp [Reg.children, hh] at hi
        | some f => exact (List.getElem?_eq_some_iff.mp hh).1
      have hheap : c2.reg.heap[p.file]? = c.reg.heap[p.file]? := by
        obtain ⟨l, h⟩ := hl.heap
        show (Client.exec ⟨r', c.pool⟩ ops).reg.heap[p.file]? = _
        rw [h, hc'.2.heap, List.getElem?_append_left hlt]
      unfold Reg.children
      rw [hheap]
    rw [hlen]; exact hi
  obtain ⟨m', hm', hnth'⟩ := everything_nth (cls := cls) hch
  rw [hm] at hm'; cases hm'
  rw [hnth']
  simp only [M.bind_apply]
  unfold wrap
  rw [hl.cache _ _ hc'.1]
  rfl

/-- Non-vacuity of both: the file with a comment, first panicking, then nil. -/
example : Reachable WFFile commentClient ∧ (∃ a, Node.wrapped a .file ⟨1, []⟩ ∈ commentClient.pool) ∧
    ((commentClient.reg.children ⟨1, []⟩).getD [])[0]? = some (Ex.el Ex.pa 1 .comment) ∧
    (∃ r', Seq.nth (File.everything ⟨1, []⟩) 0 commentClient.reg = (.panic .unsupportedType, r')) :=
  ⟨commentClient_wf, Ex.hasW_spec (i := 0) (by decide +kernel), by rfl, _, rfl⟩

/-! ### C71: File.Message and File.Type -/

/-- `i` is the first index of the list with property `P`. -/
def FirstAt (l : List Elem) (P : Kind → Prop) (i : Nat) : Prop :=
  (∃ e, l[i]? = some e ∧ P e.kind) ∧ ∀ j, j < i → ∀ e, l[j]? = some e → ¬ P e.kind

theorem find_first {l : List Elem} {f : Kind → Bool} {P : Kind → Prop} (hf : ∀ k, f k = true ↔ P k) (r : Reg) (p : Ptr)
    (hl : (r.children p).getD [] = l) :
    (∀ i, FirstAt l P i → ∃ e, (r.kids p).find? (fun x => f x.2.kind) = some (childPtr p i, e) ∧ P e.kind) ∧
    ((∀ e ∈ l, ¬ P e.kind) → (r.kids p).find? (fun x => f x.2.kind) = none) := by
  have hk : ∀ i, (r.kids p)[i]? = (l[i]?).map fun e => (childPtr p i, e) := by
    intro i
    rw [kids_zipIdx, List.getElem?_map, List.getElem?_zipIdx, hl]
    cases l[i]? <;> simp [childPtr, Ptr.child]
  refine ⟨?_, ?_⟩
  · rintro i ⟨⟨e, he, hp⟩, hmin⟩
    refine ⟨e, ?_, hp⟩
    rw [List.find?_eq_some_iff_getElem]
    refine ⟨(hf _).mpr hp, i, ?_, ?_, ?_⟩
    · have := hk i; rw [he] at this
      exact (List.getElem?_eq_some_iff.mp this).1
    · have := hk i; rw [he] at this
      exact (List.getElem?_eq_some_iff.mp this).2
    · intro j hj
      have hjl : j < (r.kids p).length := by
        have := hk i; rw [he] at this
        have := (List.getElem?_eq_some_iff.mp this).1
        omega
      have h1 := hk j
      rw [List.getElem?_eq_getElem hjl] at h1
      cases hlj : l[j]? with
      | none => rw [hlj] at h1; cases h1
      | some e' =>
        rw [hlj] at h1
        simp only [Option.map_some, Option.some.injEq] at h1
        rw [h1]
        have := hmin j hj e' hlj
        simp only [Bool.not_eq_true', Bool.eq_false_iff, ne_eq]
        exact fun h => this ((hf _).mp h)
  · intro h
    rw [List.find?_eq_none]
    rintro ⟨q, e⟩ hx hc
    obtain ⟨i, hi⟩ := List.getElem?_of_mem hx
    rw [hk i] at hi
    cases hli : l[i]? with
    | none => rw [hli] at hi; cases hi
    | some e' =>
      rw [hli] at hi
      cases hi
      exact h e (List.mem_of_getElem? hli) ((hf _).mp hc)

/-- C71 for `File.Message`: the first statement of the file that declares a message of that name or extends a message
    under that name; nil if there is none. Never a panic. -/
theorem C71_file_message {P c a p name} (hr : Reachable P c) (hn : Node.wrapped a .file p ∈ c.pool) :
    (∀ i, FirstAt ((c.reg.children p).getD []) (fun k => ∃ ext, k = .message name ext) i →
      ∃ a' r', File.message p name c.reg = (.ok (some (.wrapped a' .message (childPtr p i))), r')) ∧
    ((∀ e ∈ (c.reg.children p).getD [], ∀ ext, e.kind ≠ .message name ext) →
      File.message p name c.reg = (.ok none, c.reg)) := by
  obtain ⟨o, hi, hg⟩ := reachable_inv hr
  have hroot := GoodW.rooted (hg _ hn)
  have hf : ∀ k : Kind, (match k with | .message n _ => n == name | _ => false) = true ↔ ∃ ext, k = .message name ext := by
    intro k; cases k <;> simp
  obtain ⟨h1, h2⟩ := find_first hf c.reg p rfl
  refine ⟨fun i h => ?_, fun h => ?_⟩
  · obtain ⟨e, he, ext, hk⟩ := h1 i h
    obtain ⟨hel, hund⟩ := present_kids hroot _ (List.mem_of_find?_eq_some he)
    have hkd : c.reg.kind (childPtr p i) = some (.message name ext) := by
      have : c.reg.elem (childPtr p i) = some e := hel
      simp [Reg.kind, this, hk]
    obtain ⟨a', _, r', hw, _⟩ := wrap_full hi (target_of_kind hkd (k := .message) rfl) hund
    refine ⟨a', r', ?_⟩
    unfold File.message firstKid
    simp only [M.bind_apply, M.get_apply]
    erw [he]
    simp [wrapAs, assertKind, hw]
  · unfold File.message firstKid
    simp only [M.bind_apply, M.get_apply]
    erw [h2 (fun e he ⟨ext, hx⟩ => h e he ext hx)]
    rfl

/-- C71 for `File.Type`: the first statement of the file that declares a message or an enum of that name or extends a
    message under that name. -/
theorem C71_file_type {P c a p name} (hr : Reachable P c) (hn : Node.wrapped a .file p ∈ c.pool) :
    (∀ i, FirstAt ((c.reg.children p).getD []) (fun k => (∃ ext, k = .message name ext) ∨ k = .enum name) i →
      ∃ a' k r', File.type p name c.reg = (.ok (some (.wrapped a' k (childPtr p i))), r')) ∧
    ((∀ e ∈ (c.reg.children p).getD [], (∀ ext, e.kind ≠ .message name ext) ∧ e.kind ≠ .enum name) →
      File.type p name c.reg = (.ok none, c.reg)) := by
  obtain ⟨o, hi, hg⟩ := reachable_inv hr
  have hroot := GoodW.rooted (hg _ hn)
  have hf : ∀ k : Kind, (match k with | .message n _ => n == name | .enum n => n == name | _ => false) = true ↔
      ((∃ ext, k = .message name ext) ∨ k = .enum name) := by
    intro k; cases k <;> simp
  obtain ⟨h1, h2⟩ := find_first hf c.reg p rfl
  refine ⟨fun i h => ?_, fun h => ?_⟩
  · obtain ⟨e, he, hk⟩ := h1 i h
    obtain ⟨hel, hund⟩ := present_kids hroot _ (List.mem_of_find?_eq_some he)
    have hkd : c.reg.kind (childPtr p i) = some e.kind := by
      have : c.reg.elem (childPtr p i) = some e := hel
      simp [Reg.kind, this]
    unfold File.type
    simp only [M.bind_apply, M.get_apply]
    erw [he]
    rcases hk with ⟨ext, hk⟩ | hk
    · rw [hk] at hkd
      obtain ⟨a', _, r', hw, _⟩ := wrap_full hi (target_of_kind hkd (k := .message) rfl) hund
      exact ⟨a', .message, r', by simp [hk, wrapAs, assertKind, hw]⟩
    · rw [hk] at hkd
      obtain ⟨a', _, r', hw, _⟩ := wrap_full hi (target_of_kind hkd (k := .enum) rfl) hund
      exact ⟨a', .enum, r', by simp [hk, wrapAs, assertKind, hw]⟩
  · unfold File.type
    simp only [M.bind_apply, M.get_apply]
    erw [h2 (fun e he hx => hx.elim (fun ⟨ext, hx⟩ => (h e he).1 ext hx) (h e he).2)]
    rfl

/-- Non-vacuity: a file in which an extend block is the only statement with that name. -/
example : Reachable WFFile extClient ∧ (∃ a, Node.wrapped a .file ⟨1, []⟩ ∈ extClient.pool) ∧
    ∃ i, FirstAt ((extClient.reg.children ⟨1, []⟩).getD [])
      (fun k => ∃ ext, k = .message b!"google.protobuf.FieldOptions" ext) i := by
  refine ⟨extClient_wf, Ex.hasW_spec (i := 0) (by decide +kernel), 4, ⟨_, rfl, true, rfl⟩, ?_⟩
  intro j hj e he
  have : e.kind ∈ (Ex.fileB.take 4).map Elem.kind :=
    List.mem_map.mpr ⟨e, List.mem_of_getElem? (i := j) (by
      rw [List.getElem?_take, if_pos hj, ← he]; rfl), rfl⟩
  simp only [Ex.fileB, List.take, List.map, List.mem_cons, List.not_mem_nil, or_false] at this
  rintro ⟨ext, hk⟩
  rw [hk] at this
  rcases this with h | h | h | h <;> revert h <;> simp [Ex.el, Elem.kind] <;> decide

/-! ### C72: Pos -/

/-- The nodes without position: builtin types, repeated types, array values and items of map values. -/
def Unplaced : Node → Prop
  | .builtin _ => True
  | .repeated _ _ => True
  | .mapItem _ _ => True
  | .value v => v.isArray = true
  | _ => False

/-- C72: `Pos` succeeds for every handle of something written in a file and never for a builtin type, a repeated type,
    an array value or an item of a map value, in no state and however long one waits. (For the other option values see
    C37_partial.) -/
theorem C72_pos {c n} (hr : Reachable Positioned c) (hn : n ∈ c.pool) :
    (∀ p, n.origin = some p → ∀ fuel, ∃ x, pos fuel n c.reg = (.ok x, c.reg)) ∧
    (Unplaced n → ∀ fuel r x r', pos fuel n r ≠ (.ok x, r')) ∧
    (n.origin.isSome = true ∨ Unplaced n ∨ ∃ v, n = .value v ∧ v.isArray = false) := by
  refine ⟨fun p hp fuel => ?_, fun h fuel r x r' => ?_, ?_⟩
  · obtain ⟨x, _, h, _⟩ := (C37_partial hr).1 n hn p hp fuel
    exact ⟨x, h⟩
  · cases n with
    | builtin _ => exact pos_panics (e := .unsupportedNode) (s := r) rfl
    | repeated _ _ => exact pos_panics (e := .unsupportedNode) (s := r) rfl
    | mapItem _ _ => exact pos_panics (e := .nilDeref) (s := r) rfl
    | value v =>
      cases v with
      | array _ _ => exact pos_panics (e := .nilDeref) (s := r) rfl
      | _ => cases h
    | _ => cases h
  · cases n with
    | value v => cases h : v.isArray <;> simp [Unplaced, h]
    | _ => simp [Unplaced, Node.origin]

/-- Both cases occur. -/
example : Reachable Positioned Ex.c2 ∧ (∃ n ∈ Ex.c2.pool, n.origin.isSome = true) ∧
    Reachable Positioned cTags ∧ (∃ n ∈ cTags.pool, Unplaced n) := by
  refine ⟨c2_positioned, ?_, cTags_reach, ?_⟩
  · obtain ⟨a, h⟩ := Ex.hasW_spec (c := Ex.c2) (i := 1) (k := .message) (p := ⟨1, [4]⟩) (by decide +kernel)
    exact ⟨_, h, rfl⟩
  · have h25 : isArrayNode (cTags.pool[25]?) = true := by decide +kernel
    cases hn : cTags.pool[25]? with
    | none => rw [hn] at h25; cases h25
    | some n =>
      rw [hn] at h25
      refine ⟨n, List.mem_of_getElem? hn, ?_⟩
      cases n <;> first | exact h25 | cases h25

/-! ### C73: NodeIndex of enum values -/

/-- C73: `NodeIndex` of an enum value is the empty string in every reachable state; so it never gives back the name
    under which NodeByFullName finds the value. -/
theorem C73_enum_value_index {c a p} (hr : Reachable WFFile c) (hn : Node.wrapped a .enumValue p ∈ c.pool) :
    nodeIndex (.wrapped a .enumValue p) c.reg = (.ok [], c.reg) ∧ c.reg.registry [] = none := by
  obtain ⟨o, hi, hg⟩ := reachable_inv hr
  have hs := reachable_sound hr
  refine ⟨?_, ?_⟩
  · have hk : ∃ n v, c.reg.kind p = some (.enumField n v) := by
      have ht := GoodW.target (hg _ hn)
      rcases p with ⟨i, path⟩
      cases path with
      | nil => have := file_of_path (hg _ hn); cases this
      | cons j rest =>
        unfold Reg.wrapTarget at ht
        simp only at ht
        cases hk : c.reg.kind ⟨i, j :: rest⟩ with
        | none => rw [hk] at ht; simp at ht
        | some kd =>
          rw [hk] at ht
          cases kd <;> simp [wrapKind] at ht
          exact ⟨_, _, rfl⟩
    obtain ⟨n, v, hk⟩ := hk
    have hne : p.path ≠ [] := by
      intro h0
      rcases p with ⟨i, path⟩
      cases h0
      simp [Reg.kind, Reg.elem, ProtoFile.elemAt] at hk
    show (Res.ok (c.reg.scope (.at p)), c.reg) = _
    unfold Reg.scope
    cases hsc : c.reg.scopes (.at p) with
    | none => rfl
    | some s =>
      obtain ⟨f, e, hf, he, h⟩ := hs.holders p s hsc hne
      simp [Reg.kind, Reg.elem, hf, he] at hk
      rw [hk] at h
      cases h
  · cases h : c.reg.registry [] with
    | none => rfl
    | some q =>
      obtain ⟨s, n, _, h0, _⟩ := declared_split (hs.names _ _ h)
      simp at h0

/-- Non-vacuity: a handle of the enum value `ZERO`. -/
example : Reachable WFFile enumValueClient ∧ ∃ a, Node.wrapped a .enumValue ⟨1, [0, 6, 4]⟩ ∈ enumValueClient.pool :=
  ⟨clean_reachable enumValueClient_clean, 1, Ex.hasA_spec (i := 1) (by decide +kernel)⟩

end Protoast.Props
