import Verif.Props.SoundSchema
/-
  A checker for the conditions of C114, and the example.
-/
namespace Protoast.Props
open Protoast

/-- The scope the library has for the statements of what is declared at `p`. -/
def scopeAt (r : Reg) (p : Ptr) : Str :=
  if p.path = [] then firstPackage ((r.children p).getD [])
  else match r.kind p with
    | some (.enumField _ _) => []
    | _ => r.scope (.at p)

theorem placeScope_at {c} (hc : CleanReachable WFFile c) {p : Ptr} {s : Str} (h : PlaceScope c.reg p s)
    (hk : p.path ≠ [] → ∃ kd, c.reg.kind p = some kd) : dotted (scopeAt c.reg p) = dotted s := by
  have hso := reachable_sound (clean_reachable hc)
  unfold PlaceScope at h
  unfold scopeAt
  split at h
  · next hp =>
    rw [if_pos hp]
    obtain ⟨es, h1, rfl⟩ := h
    rw [h1, Option.getD_some]
    unfold Reg.children at h1
    rw [hp] at h1
    rcases hf : c.reg.heap[p.file]? with _ | f
    · rw [hf] at h1; cases h1
    · rw [hf] at h1
      cases h1
      exact (dotted_packageDot (wf_package (hso.wf _ _ hf))).symm
  · next hp =>
    rw [if_neg hp]
    obtain ⟨kd, hkd⟩ := hk hp
    by_cases he : ∃ a b, kd = .enumField a b
    · obtain ⟨a, b, rfl⟩ := he
      simp only [hkd] at h ⊢
      rw [h]
    · have hne : ∀ a b, c.reg.kind p ≠ some (.enumField a b) := by
        intro a b e
        rw [hkd] at e
        cases e
        exact he ⟨_, _, rfl⟩
      split at h
      · next e => exact absurd e (hne _ _)
      split
      · next e => exact absurd e (hne _ _)
      rcases h with h | ⟨rfl, h⟩
      · rw [scope_declared hc h hne]
      · unfold Reg.scope
        cases e : c.reg.scopes (.at p) with
        | none => rfl
        | some s' => exact absurd (hso.scopes p s' e hp) (h s')

def messageAtB (r : Reg) (p : Ptr) : Bool :=
  match r.kind p with
  | some (.message _ _) => true
  | _ => false

def classB (r : Reg) (cn : Str) : Bool :=
  match r.registry cn with
  | some q => messageAtB r q
  | none => false

def optionClasses : List Str :=
  [b!".google.protobuf.FileOptions", b!".google.protobuf.MessageOptions", b!".google.protobuf.FieldOptions",
   b!".google.protobuf.OneofOptions", b!".google.protobuf.EnumOptions", b!".google.protobuf.EnumValueOptions",
   b!".google.protobuf.ServiceOptions", b!".google.protobuf.MethodOptions"]

def looksB (r : Reg) (p : Ptr) : Bool :=
  p.path.isEmpty || match r.kind p with
    | some (.message _ _) | some (.enum _) | some (.service _) | some (.rpc _ _ _ _ _) => true
    | _ => false

def supportedB (r : Reg) (p : Ptr) : Bool :=
  !looksB r p || ((r.children p).getD []).all fun e => e.kind.hasNode || match e.kind with
    | .option _ _ => true
    | _ => false

def boundB (r : Reg) (s : Str) (p : Ptr) : Bool :=
  match (ownerClass r p).bind r.registry with
  | some cls => (optionsOf r p).all fun x => Ex.isOk (newOption s cls x.1 r).1
  | none => true

/-- The type name denotes a type or nothing. -/
def typeB (r : Reg) (s typ : Str) : Bool :=
  (builtinType typ).isSome || match resolveNameRaw r.defined s typ with
    | (c, true) => match r.registry c with
      | some q => match r.kind q with
        | some kd => kd.isType
        | none => true
      | none => true
    | _ => true

def messageB (r : Reg) (s typ : Str) : Bool :=
  (builtinType typ).isNone && match resolveNameRaw r.defined s typ with
    | (c, true) => match r.registry c with
      | some q => messageAtB r q
      | none => false
    | _ => false

def mapValueB (r : Reg) (typ : Str) : Bool :=
  (builtinType typ).isSome || (!hasDotPrefix typ && match r.registry (dot :: typ) with
    | some q => match r.kind q with
      | some (.message _ false) | some (.enum _) => true
      | _ => false
    | none => false)

def declB (r : Reg) (p : Ptr) : Bool :=
  match r.kind p with
  | some (.normalField _ typ _ _ _) => typeB r (r.scope (.at p)) typ
  | some (.oneofField _ typ _) => typeB r (r.scope (.at p)) typ
  | some (.rpc _ req ret _ _) => messageB r (r.scope (.at p)) req && messageB r (r.scope (.at p)) ret
  | some (.mapField _ kt typ _) => (builtinComparableType kt).isSome && mapValueB r typ
  | _ => true

/-- The checker. -/
def soundB (r : Reg) : Bool :=
  Ex.uniqueB r && optionClasses.all (classB r) &&
  (livePtrs r).all fun p => supportedB r p && boundB r (scopeAt r p) p && (!looksB r p || boundB r [] p) && declB r p

theorem messageAtB_spec {r : Reg} {p : Ptr} (h : messageAtB r p = true) : ∃ n e, r.kind p = some (.message n e) := by
  unfold messageAtB at h
  split at h
  · next n e hk => exact ⟨n, e, hk⟩
  · cases h

theorem classB_spec {r : Reg} {cn : Str} (h : classB r cn = true) : ∃ cls, ClassAt r cn cls := by
  unfold classB at h
  split at h
  · next q hq => exact ⟨q, hq, messageAtB_spec h⟩
  · cases h

theorem ownerClass_mem {r : Reg} {p : Ptr} {cn : Str} (h : ownerClass r p = some cn) : cn ∈ optionClasses := by
  unfold ownerClass at h
  split at h
  · cases h; simp [optionClasses]
  · split at h <;> cases h <;> simp [optionClasses]

theorem looksB_spec {r : Reg} {p : Ptr} (h : LooksOutside r p) : looksB r p = true := by
  unfold looksB
  rcases h with h | ⟨kd, h1, h2⟩
  · simp [h]
  · rcases h2 with ⟨_, _, rfl⟩ | ⟨_, rfl⟩ | ⟨_, rfl⟩ | ⟨_, _, _, _, _, rfl⟩ <;> simp [h1]

theorem boundB_spec {r : Reg} {s : Str} {p cls : Ptr} {cn : Str} (h : boundB r s p = true)
    (ho : ownerClass r p = some cn) (hc : ClassAt r cn cls) : ∀ x ∈ optionsOf r p, ∃ f, Binds r s cls x.2 f := by
  intro x hx
  unfold boundB at h
  rw [ho, Option.bind_some, hc.1] at h
  have := List.all_eq_true.mp h x hx
  unfold Ex.isOk at this
  split at this
  · next n hn =>
    obtain ⟨w, l, f, h1, h2, _⟩ := newOption_ok (show newOption s cls x.1 r = (.ok n, (newOption s cls x.1 r).2) from
      Prod.ext hn rfl)
    have : r.kind x.1 = some (.option x.2 l) := by
      rw [optionsOf_kids, List.mem_filterMap] at hx
      obtain ⟨⟨q, e⟩, g1, g2⟩ := hx
      have g3 := kids_kind g1
      unfold optionOf at g2
      split at g2
      · next w' l' hk =>
        cases g2
        have hk' : e.kind = .option w' l' := hk
        rw [hk', h1] at g3
        cases g3
        exact h1
      · cases g2
    rw [h1] at this
    cases this
    exact ⟨f, h2⟩
  · cases this

theorem typeB_spec {r : Reg} {s typ : Str} (h : typeB r s typ = true) {q : Ptr} {kd : Kind} (hk : ¬ IsKeyword typ)
    (hr : Refers r s typ q) (hq : r.kind q = some kd) : kd.isType = true := by
  unfold typeB at h
  rw [(not_keyword_iff _).mp hk] at h
  obtain ⟨c, h1, h2⟩ := refers_resolve hr
  simpa [h1, h2, hq] using h

theorem messageB_spec {r : Reg} {s typ : Str} (h : messageB r s typ = true) :
    ¬ IsKeyword typ ∧ ∃ q nm ext, Refers r s typ q ∧ r.kind q = some (.message nm ext) := by
  unfold messageB at h
  rw [Bool.and_eq_true] at h
  obtain ⟨h1, h2⟩ := h
  refine ⟨(not_keyword_iff _).mpr (by simpa using h1), ?_⟩
  split at h2
  · next c hc =>
    split at h2
    · next q hq =>
      obtain ⟨n, e, hk⟩ := messageAtB_spec h2
      exact ⟨q, n, e, resolve_refers hc hq, hk⟩
    · cases h2
  · cases h2

/-- The checker is right, `go_package` aside. -/
theorem soundB_spec {c} (hc : CleanReachable WFFile c) (h : soundB c.reg = true)
    (hg : ∀ cls, ClassAt c.reg b!".google.protobuf.FileOptions" cls →
      ∃ gf, c.reg.registry b!".google.protobuf.FileOptions.go_package" = some gf ∧ FieldNamed c.reg cls b!"go_package" gf) :
    SoundSchema c.reg := by
  unfold soundB at h
  simp only [Bool.and_eq_true, List.all_eq_true] at h
  obtain ⟨⟨h1, h2⟩, h3⟩ := h
  have hr := clean_reachable hc
  have hso := reachable_sound hr
  have live : ∀ {p es}, c.reg.children p = some es → p ∈ livePtrs c.reg := by
    intro p es h
    rcases p with ⟨i, path⟩
    cases path with
    | nil =>
      refine List.mem_append_left _ (List.mem_map.mpr ⟨i, List.mem_range.mpr ?_, rfl⟩)
      unfold Reg.children at h
      rcases hf : c.reg.heap[i]? with _ | f
      · simp only [hf] at h; cases h
      · exact (List.getElem?_eq_some_iff.mp hf).1
    | cons j t =>
      have : ∃ e, c.reg.elem ⟨i, j :: t⟩ = some e := by
        unfold Reg.children at h
        rw [Option.bind_eq_some_iff] at h
        obtain ⟨f, hf, h⟩ := h
        simp only [ProtoFile.childrenAt, Option.map_eq_some_iff] at h
        obtain ⟨e, he, _⟩ := h
        refine ⟨e, ?_⟩
        unfold Reg.elem
        rw [hf]
        exact he
      obtain ⟨e, he⟩ := this
      exact List.mem_append_right _ (elem_allPtrs he)
  have liveK : ∀ {p kd}, c.reg.kind p = some kd → p ∈ livePtrs c.reg := by
    intro p kd h
    unfold Reg.kind at h
    rw [Option.map_eq_some_iff] at h
    obtain ⟨e, he, _⟩ := h
    exact List.mem_append_right _ (elem_allPtrs he)
  have liveO : ∀ {p x}, x ∈ optionsOf c.reg p → p ∈ livePtrs c.reg := by
    intro p x hx
    rcases hch : c.reg.children p with _ | es
    · unfold optionsOf at hx
      rw [hch] at hx
      simp at hx
    · exact live hch
  have sc : ∀ {p kd s typ q}, c.reg.kind p = some kd → (∀ a b, kd ≠ .enumField a b) → PlaceScope c.reg p s →
      Refers c.reg s typ q → Refers c.reg (c.reg.scope (.at p)) typ q := by
    intro p kd s typ q hk hne hp h
    have := placeScope_at hc hp (fun _ => ⟨kd, hk⟩)
    unfold scopeAt at this
    rw [if_neg (kind_path hk), hk] at this
    refine refers_scope ?_ h
    cases kd <;> first | exact absurd rfl (hne _ _) | exact this.symm
  have sc' : ∀ {p kd s typ q}, c.reg.kind p = some kd → (∀ a b, kd ≠ .enumField a b) → PlaceScope c.reg p s →
      Refers c.reg (c.reg.scope (.at p)) typ q → Refers c.reg s typ q := by
    intro p kd s typ q hk hne hp h
    have := placeScope_at hc hp (fun _ => ⟨kd, hk⟩)
    unfold scopeAt at this
    rw [if_neg (kind_path hk), hk] at this
    refine refers_scope ?_ h
    cases kd <;> first | exact absurd rfl (hne _ _) | exact this
  refine ⟨Ex.uniqueB_spec h1, ?_, fun p cn ho => classB_spec (h2 cn (ownerClass_mem ho)), ?_, ?_, ?_, ?_, ?_, ?_, ?_, hg⟩
  · intro p es e hl hch he
    have hp := (h3 p (live hch)).1.1.1
    unfold supportedB at hp
    rw [looksB_spec hl, hch] at hp
    simp only [Bool.not_true, Bool.false_or, Option.getD_some, List.all_eq_true] at hp
    have := hp e he
    rw [Bool.or_eq_true] at this
    rcases this with h | h
    · exact .inl h
    · split at h
      · next w l hk => exact .inr ⟨w, l, hk⟩
      · cases h
  · intro p cn cls s ho hcl hp x hx
    obtain ⟨f, hf⟩ := boundB_spec (h3 p (liveO hx)).1.1.2 ho hcl x hx
    refine ⟨f, hf.scope_congr (placeScope_at hc hp ?_)⟩
    intro hne
    unfold ownerClass at ho
    rw [if_neg hne] at ho
    cases hk : c.reg.kind p with
    | none => rw [hk] at ho; cases ho
    | some kd => exact ⟨kd, rfl⟩
  · intro p cn cls ho hcl hl x hx
    have hp := (h3 p (liveO hx)).1.2
    rw [looksB_spec hl] at hp
    exact boundB_spec (by simpa using hp) ho hcl x hx
  · intro p n typ v rep opt s q kd hk hkw hp hr hq
    have hd := (h3 p (liveK hk)).2
    unfold declB at hd
    rw [hk] at hd
    exact typeB_spec hd hkw (sc hk (by intro a b h; cases h) hp hr) hq
  · intro p n typ v s q kd hk hkw hp hr hq
    have hd := (h3 p (liveK hk)).2
    unfold declB at hd
    rw [hk] at hd
    exact typeB_spec hd hkw (sc hk (by intro a b h; cases h) hp hr) hq
  · intro p n req ret a b s hk hp typ ht
    have hd := (h3 p (liveK hk)).2
    unfold declB at hd
    rw [hk] at hd
    simp only [Bool.and_eq_true] at hd
    obtain ⟨g1, q, nm, ext, g2, g3⟩ := messageB_spec (s := c.reg.scope (.at p)) (typ := typ) (by
      rcases ht with rfl | rfl
      · exact hd.1
      · exact hd.2)
    exact ⟨g1, q, nm, ext, sc' hk (by intro a b h; cases h) hp g2, g3⟩
  · intro p n kt typ v hk
    have hd := (h3 p (liveK hk)).2
    unfold declB at hd
    rw [hk] at hd
    simp only [Bool.and_eq_true] at hd
    obtain ⟨b, hb⟩ := Option.isSome_iff_exists.mp hd.1
    exact ⟨b, (builtinComparable_iff _ _).mp hb⟩
  · intro p n kt typ v hk
    have hd := (h3 p (liveK hk)).2
    unfold declB at hd
    rw [hk] at hd
    simp only [Bool.and_eq_true] at hd
    have hm := hd.2
    unfold mapValueB at hm
    rw [Bool.or_eq_true] at hm
    rcases hm with hm | hm
    · obtain ⟨b, hb⟩ := Option.isSome_iff_exists.mp hm
      exact .inl ⟨b, (builtin_iff _ _).mp hb⟩
    · rw [Bool.and_eq_true] at hm
      obtain ⟨hm1, hm2⟩ := hm
      refine .inr ⟨by simpa using hm1, ?_⟩
      split at hm2
      · next q hq =>
        split at hm2
        · next nm hk => exact ⟨q, nm, hso.names _ _ hq, .inl hk⟩
        · next nm hk => exact ⟨q, nm, hso.names _ _ hq, .inr hk⟩
        · cases hm2
      · cases hm2

/-! ### Example -/

theorem W_shaped : Ex.W.Sat ShapedFile := by
  apply Ex.worldOf_sat
  intro x hx
  refine ⟨Ex.wfb_spec ?_, ?_⟩
  · simp only [List.mem_cons, List.not_mem_nil, or_false] at hx
    rcases hx with rfl | rfl | rfl <;> decide +kernel
  · have : x.2.all (·.nests) = true := by
      simp only [List.mem_cons, List.not_mem_nil, or_false] at hx
      rcases hx with rfl | rfl | rfl <;> decide +kernel
    intro e he
    exact List.all_eq_true.mp this e he

theorem c2_shaped : CleanReachable ShapedFile Ex.c2 :=
  ⟨Ex.W, 5, Ex.r0, Ex.ops2, W_shaped, Ex.W_ok, by
    intro op hop
    simp only [Ex.ops2, List.mem_cons, List.not_mem_nil, or_false] at hop
    rcases hop with rfl | rfl | rfl | rfl | rfl | rfl | rfl | rfl | rfl | rfl | rfl | rfl | rfl | rfl <;>
      first | exact W_shaped | trivial, Ex.loadsB_spec (by decide +kernel), rfl⟩

/-- The files of the example, which have every kind of declaration, are sound. -/
theorem c2_sound : SoundSchema Ex.c2.reg := by
  refine soundB_spec Ex.c2_clean (by decide +kernel) ?_
  rintro cls ⟨h, _⟩
  have h0 : Ex.c2.reg.registry b!".google.protobuf.FileOptions" = some ⟨0, [2]⟩ := by decide +kernel
  rw [h0] at h
  cases h
  refine ⟨⟨0, [1, 2]⟩, by decide +kernel, _, 1, _, _, _, _, _, rfl, rfl, rfl, rfl, ?_⟩
  intro j e' hj he
  have : j = 0 := by omega
  subst this
  cases he
  intro b c d g h
  have : b!"java_package" = b!"go_package" :=
    congrArg (fun k : Kind => match k with | .normalField n _ _ _ _ => n | _ => []) h
  exact absurd this (by decide)

/-- Non-vacuity of C114: a service method, a map and a file of sound files. -/
example : CleanReachable ShapedFile Ex.c2 ∧ SoundSchema Ex.c2.reg ∧
    (∃ a, Node.wrapped a .method ⟨1, [0, 5]⟩ ∈ Ex.c2.pool) ∧ (∃ a, Node.wrapped a .file ⟨1, []⟩ ∈ Ex.c2.pool) :=
  ⟨c2_shaped, c2_sound, Ex.hasW_spec (i := 10) (by decide +kernel), Ex.hasW_spec (i := 0) (by decide +kernel)⟩

/-- The call number `i` on the handle number `h` panics, although it is no misuse. -/
def panicsB (c : Client) (h : Nat) (q : Query) : Bool :=
  match c.pool[h]? with
  | some n => (match (q.run n c.reg).1 with | .panic _ => true | _ => false) && (q.misuse c.reg n).isEmpty
  | none => false

/-- The conditions matter: in the other example the field `g` has an option `(cfg).depth`, which is bound to nothing;
    its options panic, so the files are not sound. -/
example : CleanReachable ShapedFile Ex.cO ∧ ¬ SoundSchema Ex.cO.reg := by
  refine ⟨cO_shaped, fun hs => ?_⟩
  have h : panicsB Ex.cO 8 (.iter .options 0) = true := by decide +kernel
  unfold panicsB at h
  split at h
  · next n hn =>
    rw [Bool.and_eq_true] at h
    obtain ⟨h1, h2⟩ := h
    split at h1
    · next p hp =>
      have := C114_sound cO_shaped hs (List.mem_of_getElem? hn) (.iter .options 0) trivial (by intro F a o cls f h; cases h) p hp
      rw [List.isEmpty_iff.mp h2] at this
      cases this
    · cases h1
  · cases h

end Protoast.Props
