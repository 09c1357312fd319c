import Verif.Props.Names2
import Verif.Props.OptionsExact
/-
  C90: exactly when files loaded later change the meaning of a reference (the exact form of C20).
  C91: exactly when a predefined option is captured by another declaration (the exact form of C46).
-/
namespace Protoast.Props
open Protoast

/-- Somewhere the name is declared in a scope around `place` that is closer than the scope `s`. -/
def CloserDeclared (r : Reg) (place s t : Str) : Prop :=
  ∃ s' x, Encloses s' place ∧ s.length < s'.length ∧ Declared r (s' ++ dot :: t) x

theorem declared_once {r : Reg} {a b : Str} {p : Ptr} (h : Declared r a p) (g : Declared r b p) : a = b := by
  obtain ⟨f, h1, h2⟩ := h
  obtain ⟨f', g1, g2⟩ := g
  rw [h1] at g1; cases g1
  rw [h2] at g2; cases g2
  rfl

/-- C90, for references: a relative name that denotes the declaration `s.t` keeps denoting it after any further calls if
    and only if none of the files loaded by then declares the name in a closer scope. -/
theorem C90_reference {c ops p place s t q} (hc : CleanReachable WFFile c) (hs : ∀ op ∈ ops, Op.Sat WFFile op)
    (hl : LoadsOK c ops) (hu : UniqueNames (c.exec ops).reg) (hd : Declared c.reg place p)
    (hne : ∀ s v, c.reg.kind p ≠ some (.enumField s v)) (ht : hasDotPrefix t = false)
    (hq : Refers c.reg (c.reg.scope (.at p)) t q) (hn : Declared c.reg (s ++ dot :: t) q) :
    Refers (c.exec ops).reg ((c.exec ops).reg.scope (.at p)) t q ↔ ¬ CloserDeclared (c.exec ops).reg place s t := by
  have hlat : Later c.reg (c.exec ops).reg := exec_later ops c
  have hlt : ∀ {n x}, Declared c.reg n x → x.file < c.reg.heap.length := by
    rintro n x ⟨f, hf, _⟩
    exact (List.getElem?_eq_some_iff.mp hf).1
  obtain ⟨o, hi, hg⟩ := reachable_inv (clean_reachable hc)
  obtain ⟨o2, hx, _, _⟩ := exec_inv ops hi hg
  have keep : ∀ {n x}, Declared c.reg n x → Declared (c.exec ops).reg n x := fun h => HeapLe.declared hx.heap h
  have hu0 : UniqueNames c.reg := fun n x y h1 h2 => hu n x y (keep h1) (keep h2)
  have hk2 : ∀ s v, (c.exec ops).reg.kind p ≠ some (.enumField s v) := by
    intro s v
    rw [hlat.kind (hlt hd)]
    exact hne s v
  rw [C61_type_from_source hc hu0 hd hne ht] at hq
  obtain ⟨s0, e1, e2, _⟩ := hq
  have : s0 = s := by
    have := declared_once e2 hn
    exact List.append_cancel_right this
  subst this
  rw [C61_type_from_source (clean_exec hc ops hs hl) hu (keep hd) hk2 ht]
  constructor
  · rintro ⟨s1, f1, f2, f3⟩ ⟨s', x, g1, g2, g3⟩
    have : s1 = s0 := List.append_cancel_right (declared_once f2 (keep e2))
    subst this
    exact f3 s' g1 g2 x g3
  · intro h
    exact ⟨s0, e1, keep e2, fun s' g1 g2 x g3 => h ⟨s', x, g1, g2, g3⟩⟩

/-- C90 at the API: `Type` of a oneof branch gave the node `n` of the declaration `s.t`. After any further calls it gives
    the identical node if and only if none of the files loaded by then declares the name in a closer scope. -/
theorem C90_branch {c a p nm t sq ops b k q r' place s} (hc : CleanReachable WFFile c)
    (hm : Node.wrapped a .oneofBranch p ∈ c.pool) (hk : c.reg.kind p = some (.oneofField nm t sq))
    (h : OneOfBranch.type p c.reg = (.ok (some (.wrapped b k q)), r')) (ht : hasDotPrefix t = false)
    (hd : Declared c.reg place p) (hn : Declared c.reg (s ++ dot :: t) q) (hs : ∀ op ∈ ops, Op.Sat WFFile op) :
    let c' := Client.exec ⟨r', c.pool ++ [.wrapped b k q]⟩ ops
    LoadsOK ⟨r', c.pool ++ [.wrapped b k q]⟩ ops → UniqueNames c'.reg →
    ((∃ r'', OneOfBranch.type p c'.reg = (.ok (some (.wrapped b k q)), r'')) ↔ ¬ CloserDeclared c'.reg place s t) := by
  intro c' hl hu
  obtain ⟨i, hpool⟩ := List.getElem?_of_mem hm
  have he : c.exec [.query i (.plain .branchType)] = ⟨r', c.pool ++ [.wrapped b k q]⟩ := by
    simp [Client.exec, Client.step, Op.run, hpool, Query.run, PlainQ.run, h]
  have hc1 : CleanReachable WFFile ⟨r', c.pool ++ [.wrapped b k q]⟩ := by
    rw [← he]
    exact clean_exec hc _ (by simp [Op.Sat]) (by simp [LoadsOK])
  have hc2 := clean_exec hc1 ops hs hl
  have hce : CacheExt c.reg r' := by have := (RO.branchType p).ext c.reg; rw [h] at this; exact this
  have hlat : Later r' c'.reg := exec_later ops ⟨r', c.pool ++ [.wrapped b k q]⟩
  have hfile : p.file < c.reg.heap.length := kind_file hk
  have hkr : r'.kind p = some (.oneofField nm t sq) := by
    unfold Reg.kind Reg.elem at hk ⊢; rw [hce.heap]; exact hk
  have hk2 : c'.reg.kind p = some (.oneofField nm t sq) := by
    rw [hlat.kind (by rw [hce.heap]; exact hfile)]; exact hkr
  have hsr : r'.scope (.at p) = c.reg.scope (.at p) := by unfold Reg.scope; rw [hce.scopes]
  have decl : ∀ {n x}, Declared c.reg n x → Declared r' n x := by
    rintro n x ⟨f, hf, g⟩
    exact ⟨f, by rw [hce.heap]; exact hf, g⟩
  obtain ⟨o, hi, hg⟩ := reachable_inv (clean_reachable hc)
  obtain ⟨o2, hi2, hg2⟩ := reachable_inv (clean_reachable hc2)
  have hb : builtinType t = none := by
    cases hb : builtinType t with
    | none => rfl
    | some x =>
      rw [branch_type_eq hk, lookupType_builtin hb] at h
      cases h
  -- the branch refers to q
  have hq : Refers c.reg (c.reg.scope (.at p)) t q := by
    rw [branch_type_eq hk] at h
    rcases refers_or c.reg (c.reg.scope (.at p)) t with ⟨q', hq'⟩ | hun
    · obtain ⟨kd, k', _, _, e3, e4⟩ := lookupType_refers hi hb hq'
      cases hty : kd.isType with
      | false => obtain ⟨_, e⟩ := e4 hty; rw [e] at h; cases h
      | true =>
        obtain ⟨a1, r1, e⟩ := e3 hty
        rw [e] at h
        cases h
        exact hq'
    · rw [lookupType_unresolved hb hun] at h
      cases h
  have hqr : Refers r' (r'.scope (.at p)) t q := by
    rw [hsr]
    unfold Refers Reg.defined at *
    rw [hce.registry]
    exact hq
  have key := C90_reference (p := p) (place := place) (s := s) (t := t) (q := q) hc1 hs hl hu (decl hd)
    (by intro s v; rw [hkr]; intro h; cases h) ht hqr (decl hn)
  rw [← key]
  constructor
  · rintro ⟨r'', h2⟩
    rw [branch_type_eq hk2] at h2
    rcases refers_or c'.reg (c'.reg.scope (.at p)) t with ⟨q', hq'⟩ | hun
    · obtain ⟨kd, k', _, _, e3, e4⟩ := lookupType_refers hi2 hb hq'
      cases hty : kd.isType with
      | false => obtain ⟨_, e⟩ := e4 hty; rw [e] at h2; cases h2
      | true =>
        obtain ⟨a1, r1, e⟩ := e3 hty
        rw [e] at h2
        cases h2
        exact hq'
    · rw [lookupType_unresolved hb hun] at h2
      cases h2
  · intro hkeep
    refine branch_kept (clean_reachable hc) hm hk h (fun x hx => hx) fun q' hq' => ?_
    have : q' = q := refers_unique hq' hq
    subst this
    exact hkeep

/-- The C20 counterexample meets the hypotheses: the branch `.u.v.M.x` refers to `.u.T`, until the unrelated file that
    declares `.u.v.T` is loaded. -/
example : CleanReachable WFFile unClient ∧ Node.wrapped 1 .oneofBranch ⟨1, [0, 0, 2]⟩ ∈ unClient.pool ∧
    (∃ r', OneOfBranch.type ⟨1, [0, 0, 2]⟩ unClient.reg = (.ok (some (.wrapped 2 .message ⟨2, [1]⟩)), r')) ∧
    Declared unClient.reg b!".u.v.M.x" ⟨1, [0, 0, 2]⟩ ∧ Declared unClient.reg (b!".u" ++ dot :: b!"T") ⟨2, [1]⟩ ∧
    CloserDeclared (unClient.exec [.proto unWorld 5 b!"uc.proto"]).reg b!".u.v.M.x" b!".u" b!"T" :=
  ⟨unClient_clean, Ex.hasA_spec (i := 1) (by decide +kernel), ⟨_, rfl⟩, declared_intro (by decide +kernel),
    declared_intro (by decide +kernel), b!".u.v", ⟨3, [1]⟩, .inr ⟨b!"M.x", by decide⟩, by decide,
    declared_intro (by decide +kernel)⟩

/-! ### C91 -/

/-- `x` is the declaration of the name in the closest scope around `place` that declares it. -/
def Nearest (r : Reg) (place w : Str) (x : Ptr) : Prop :=
  ∃ s', Encloses s' (dotted place) ∧ Declared r (s' ++ dot :: w) x ∧
    ∀ s'', Encloses s'' (dotted place) → s'.length < s''.length → ∀ y, ¬ Declared r (s'' ++ dot :: w) y

theorem clean_registry {c name q} (hc : CleanReachable WFFile c) (hu : UniqueNames c.reg) :
    c.reg.registry name = some q ↔ Declared c.reg name q := by
  have hsound := reachable_sound (clean_reachable hc)
  constructor
  · exact hsound.names _ _
  · intro h
    obtain ⟨f, hf, hq⟩ := h
    obtain ⟨q', hq'⟩ := Option.isSome_iff_exists.mp (((clean_complete hc) _ f (Nat.zero_le _) hf).names _ _ hq)
    rw [hq', hu name _ _ (hsound.names _ _ hq') ⟨f, hf, hq⟩]

theorem clean_defined {c name} (hc : CleanReachable WFFile c) (hu : UniqueNames c.reg) :
    c.reg.defined name = false ↔ ∀ q, ¬ Declared c.reg name q := by
  unfold Reg.defined
  constructor
  · intro h q hq
    rw [(clean_registry hc hu).mpr hq] at h
    cases h
  · intro h
    cases hx : c.reg.registry name with
    | none => rfl
    | some q => exact absurd ((clean_registry hc hu).mp hx) (h q)

theorem refers_nearest {c place w q} (hc : CleanReachable WFFile c) (hu : UniqueNames c.reg)
    (hw : hasDotPrefix w = false) : Refers c.reg place w q ↔ Nearest c.reg place w q := by
  unfold Refers Nearest Innermost
  rw [if_neg (by simp [hw])]
  constructor
  · rintro ⟨x, ⟨s', h1, rfl, _, h4⟩, hx⟩
    exact ⟨s', h1, (clean_registry hc hu).mp hx, fun s'' g1 g2 => (clean_defined hc hu).mp (h4 s'' g1 g2)⟩
  · rintro ⟨s', h1, h2, h4⟩
    have := (clean_registry hc hu).mpr h2
    exact ⟨_, ⟨s', h1, rfl, by simp [Reg.defined, this], fun s'' g1 g2 => (clean_defined hc hu).mpr (h4 s'' g1 g2)⟩, this⟩

theorem unresolved_nearest {c place w} (hc : CleanReachable WFFile c) (hu : UniqueNames c.reg)
    (hw : hasDotPrefix w = false) : Unresolved c.reg place w ↔ ∀ q, ¬ Nearest c.reg place w q := by
  constructor
  · intro h q hq
    have hr := (refers_nearest hc hu hw).mpr hq
    obtain ⟨x, e, _⟩ := refers_resolve hr
    have := unresolved_iff.mp h
    rw [e] at this
    cases this
  · intro h
    rcases refers_or c.reg place w with ⟨q, hq⟩ | hun
    · exact absurd ((refers_nearest hc hu hw).mp hq) (h q)
    · exact hun

/-- C91: an option written like a field of the option message (`deprecated`, say) is bound to the nearest declaration of
    that name in the scopes around the node, if there is one, and to the field of the option message if there is none. -/
theorem C91_predefined {c n p className s cls} (hc : CleanReachable WFFile c) (hu : UniqueNames c.reg) (hn : n ∈ c.pool)
    (ho : optionClassOf c.reg n = some (p, className)) (hs : LookupScope c.reg n s)
    (hcl : ClassAt c.reg className cls) {w f} (hf : FieldNamed c.reg cls w f) (hw : hasDotPrefix (optionRef w) = false)
    {ns r'} (he : collectOptions n c.reg = (.ok ns, r'))
    {a q g lit} (hm : Node.option a q cls g ∈ ns) (hk : c.reg.kind q = some (.option w lit)) :
    (∀ x, Nearest c.reg s (optionRef w) x → g = x) ∧ ((∀ x, ¬ Nearest c.reg s (optionRef w) x) → g = f) ∧
    (g = f ↔ ∀ x, Nearest c.reg s (optionRef w) x → x = f) := by
  obtain ⟨x, hx, a', f', e, hb⟩ := matching_mem ((C76_options hc hn ho hs hcl).1 ns r' he) _ hm
  cases e
  obtain ⟨lit', hk'⟩ := optionsOf_kind hx
  rw [hk] at hk'
  cases hk'
  have h1 : ∀ y, Nearest c.reg s (optionRef x.2) y → g = y := by
    intro y hy
    have hr := (refers_nearest hc hu hw).mpr hy
    rcases hb with ⟨hb, _⟩ | ⟨hb, _⟩
    · exact refers_unique hb hr
    · exact absurd hy ((unresolved_nearest hc hu hw).mp hb y)
  have h2 : (∀ y, ¬ Nearest c.reg s (optionRef x.2) y) → g = f := by
    intro hy
    rcases hb with ⟨hb, _⟩ | ⟨hb, hb'⟩
    · exact absurd ((refers_nearest hc hu hw).mp hb) (hy g)
    · exact (show Binds c.reg s cls x.2 g from .inr ⟨hb, hb'⟩).unique (.inr ⟨hb, hf⟩)
  refine ⟨h1, h2, ?_, ?_⟩
  · rintro rfl y hy
    exact (h1 y hy).symm
  · intro h
    by_cases hy : ∃ y, Nearest c.reg s (optionRef x.2) y
    · obtain ⟨y, hy⟩ := hy
      rw [h1 y hy, h y hy]
    · exact h2 fun y hy' => hy ⟨y, hy'⟩

/-- C91, when the enumeration fails: the option cannot be bound if and only if the nearest declaration of the name is
    something else than a normal field. -/
theorem C91_unbound {c s cls w f} (hc : CleanReachable WFFile c) (hu : UniqueNames c.reg)
    (hf : FieldNamed c.reg cls w f) (hw : hasDotPrefix (optionRef w) = false) :
    (∀ g, ¬ Binds c.reg s cls w g) ↔
      ∃ x, Nearest c.reg s (optionRef w) x ∧ ∀ n t sq rep opt, c.reg.kind x ≠ some (.normalField n t sq rep opt) := by
  constructor
  · intro h
    by_cases hy : ∃ y, Nearest c.reg s (optionRef w) y
    · obtain ⟨y, hy⟩ := hy
      refine ⟨y, hy, fun n t sq rep opt hk => h y (.inl ⟨(refers_nearest hc hu hw).mpr hy, _, _, _, _, _, hk⟩)⟩
    · exact absurd (.inr ⟨(unresolved_nearest hc hu hw).mpr fun y hy' => hy ⟨y, hy'⟩, hf⟩) (h f)
  · rintro ⟨x, hx, hk⟩ g (⟨hb, _, _, _, _, _, hg⟩ | ⟨hb, _⟩)
    · have := refers_unique hb ((refers_nearest hc hu hw).mpr hx)
      subst this
      exact hk _ _ _ _ _ hg
    · exact (unresolved_nearest hc hu hw).mp hb x hx

/-- The C46 counterexample meets the hypotheses: the field `.v.M.deprecated` with the option `deprecated`. -/
example : CleanReachable WFFile cV ∧ UniqueNames cV.reg ∧
    (∃ a, Node.wrapped a .messageField ⟨1, [1, 6]⟩ ∈ cV.pool) ∧
    ClassAt cV.reg b!".google.protobuf.FieldOptions" ⟨0, [4]⟩ ∧
    FieldNamed cV.reg ⟨0, [4]⟩ b!"deprecated" ⟨0, [0, 4]⟩ ∧
    (∃ x, Nearest cV.reg b!".v.M.deprecated" b!"deprecated" x ∧ x ≠ ⟨0, [0, 4]⟩) ∧
    Ex.isOk (collectOptions (.wrapped 0 .messageField ⟨1, [1, 6]⟩) cV.reg).1 = true := by
  refine ⟨cV_clean, Ex.uniqueB_spec (by decide +kernel), Ex.hasW_spec (i := 4) (by decide +kernel),
    ⟨by decide +kernel, _, _, rfl⟩, builtin_named.mp (by decide +kernel), ?_, by decide +kernel⟩
  refine ⟨⟨1, [1, 6]⟩, (refers_nearest cV_clean (Ex.uniqueB_spec (by decide +kernel)) (by decide)).mp
    (resolve_refers (c := b!".v.M.deprecated") (by decide +kernel) (by decide +kernel)), by decide⟩

end Protoast.Props
