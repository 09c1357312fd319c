import Verif.Props.Changes
import Verif.Props.OptionsExact
import Verif.Props.Meta
import Verif.Props.Values
/-
  C92: the name an option reports.
-/
namespace Protoast.Props
open Protoast

/-- The field at `f` stands directly in the message at `cls`: the option is predefined, not an extension. -/
def Predefined (cls f : Ptr) : Prop := ∃ i, f = ⟨cls.file, i :: cls.path⟩

/-- No parentheses in the name (protobuf identifiers have none). -/
def PlainName (s : Str) : Prop := (40 : UInt8) ∉ s ∧ (41 : UInt8) ∉ s

theorem predefined_iff {cls f : Ptr} (hne : f.path ≠ []) : Predefined cls f ↔ f.parent = .at cls := by
  rcases f with ⟨fi, path⟩
  cases path with
  | nil => exact absurd rfl hne
  | cons i rest =>
    rcases cls with ⟨ci, cp⟩
    simp only [Predefined, Ptr.parent, Vis.at.injEq, Ptr.mk.injEq, List.cons.injEq]
    constructor
    · rintro ⟨_, rfl, rfl, rfl⟩; exact ⟨rfl, rfl⟩
    · rintro ⟨rfl, rfl⟩; exact ⟨i, rfl, rfl, rfl⟩

theorem kind_path {r : Reg} {p : Ptr} {k : Kind} (h : r.kind p = some k) : p.path ≠ [] := by
  intro h0
  unfold Reg.kind Reg.elem at h
  rw [h0] at h
  cases hh : r.heap[p.file]? <;> simp [hh, ProtoFile.elemAt] at h

/-- The members of a declared message have its name as scope. -/
theorem predefined_declared {r : Reg} {cls f : Ptr} {C : Str} (hd : Declared r C cls) {x e} (hm : r.kind cls = some (.message x e))
    (hp : Predefined cls f) {n t s p o} (hk : r.kind f = some (.normalField n t s p o)) : Declared r (C ++ dot :: n) f := by
  obtain ⟨fo, h1, h2⟩ := hd
  obtain ⟨i, rfl⟩ := hp
  refine ⟨fo, h1, ?_⟩
  rcases cls with ⟨fi, path⟩
  simp only at h1 h2
  cases path with
  | nil => cases h2
  | cons j rest =>
    simp only [Reg.kind, Reg.elem, h1, Option.bind_some, Option.map_eq_some_iff] at hm hk
    obtain ⟨y, hy, hyk⟩ := hm
    obtain ⟨z, hz, hzk⟩ := hk
    unfold ProtoFile.fqn at h2 ⊢
    simp only at h2 ⊢
    cases hs : fo.scopeAt rest with
    | none => rw [hs] at h2; simp at h2
    | some sc =>
      rw [hs, hy] at h2
      simp only [Option.bind_some, hyk] at h2
      cases e with
      | true => simp [Kind.declName] at h2
      | false =>
        simp only [Kind.declName, Option.some.injEq] at h2
        have hsc : fo.scopeAt (j :: rest) = some (sc ++ dot :: x) := by
          unfold ProtoFile.scopeAt
          rw [hs, hy]
          simp only [hyk, Kind.memberScope]
        rw [hsc, hz]
        simp only [Option.bind_some, hzk, Kind.declName]
        rw [h2]

/-- C92: `Name` of a predefined option (one that sets a field of the option message itself) is the field name after the
    full name of the option message in parentheses; `Name` of any other option is what the source says. -/
theorem C92_name {c a q cls f C} (hc : CleanReachable WFFile c) (ho : Node.option a q cls f ∈ c.pool)
    (hd : Declared c.reg C cls) :
    ∃ w lit n t sq rep opt, c.reg.kind q = some (.option w lit) ∧ c.reg.kind f = some (.normalField n t sq rep opt) ∧
      (Predefined cls f → Declared c.reg (C ++ dot :: n) f ∧
        Option.name q cls f c.reg = (.ok (b!"(" ++ C ++ b!")." ++ n), c.reg)) ∧
      (¬ Predefined cls f → Option.name q cls f c.reg = (.ok w, c.reg)) := by
  obtain ⟨o, hi, hg⟩ := reachable_inv (clean_reachable hc)
  obtain ⟨_, ⟨⟨w, lit, hq⟩, _⟩, ⟨x, e, hm⟩, ⟨n, t, sq, rep, opt, hk⟩, _⟩ := hg _ ho
  have hpi := predefined_iff (cls := cls) (kind_path hk)
  refine ⟨w, lit, n, t, sq, rep, opt, hq, hk, fun hp => ⟨predefined_declared hd hm hp hk, ?_⟩, fun hp => ?_⟩
  · have hsc := (named_of_clean hc).scope _ _ hd (by intro _ _ h; rw [hm] at h; cases h)
    simp only [Option.name, M.bind_apply, M.get_apply, hpi.mp hp, if_true, hk, hsc, M.pure_apply]
  · simp only [Option.name, M.bind_apply, M.get_apply, mt hpi.mpr hp, if_false, hq, M.pure_apply]

theorem optionRef_name {C n : Str} (hC : PlainName C) (hn : PlainName n) :
    optionRef (b!"(" ++ C ++ b!")." ++ n) = C ++ dot :: n := by
  have h : ∀ s : Str, PlainName s → optionRef s = s := by
    intro s ⟨h1, h2⟩
    unfold optionRef
    rw [List.filter_eq_self]
    intro c hc
    simp only [bne_iff_ne, ne_eq, Bool.and_eq_true]
    exact ⟨fun e => h1 (e ▸ hc), fun e => h2 (e ▸ hc)⟩
  have hap : ∀ s t : Str, optionRef (s ++ t) = optionRef s ++ optionRef t := by
    intro s t; unfold optionRef; exact List.filter_append _ _
  rw [hap, hap, hap, h C hC, h n hn]
  simp [optionRef, dot]

theorem scopeAt_dot {fo : ProtoFile} : ∀ {path s}, fo.scopeAt path = some s → s = [] ∨ hasDotPrefix s = true := by
  intro path
  induction path with
  | nil =>
    intro s h
    simp only [ProtoFile.scopeAt, Option.some.injEq] at h
    subst h
    unfold packageDot
    split
    · exact .inl rfl
    · exact .inr rfl
  | cons i rest ih =>
    intro s h
    unfold ProtoFile.scopeAt at h
    split at h
    · next s0 e h1 _ =>
      have h0 := ih h1
      have key : ∀ n, hasDotPrefix (s0 ++ dot :: n) = true := by
        intro n
        rcases h0 with rfl | h0
        · rfl
        · cases s0 with
          | nil => rfl
          | cons x xs => exact h0
      unfold Kind.memberScope at h
      split at h <;> cases h
      · exact .inr (key _)
      · exact h0
      · exact .inr (key _)
      · exact h0
      · exact h0
    · cases h

/-- Full names start with a dot. -/
theorem declared_dot {r : Reg} {C : Str} {p : Ptr} (h : Declared r C p) : hasDotPrefix C = true := by
  obtain ⟨fo, _, h2⟩ := h
  rcases p with ⟨fi, path⟩
  cases path with
  | nil => cases h2
  | cons i rest =>
    unfold ProtoFile.fqn at h2
    simp only at h2
    split at h2
    · next s n h1 _ =>
      cases h2
      rcases scopeAt_dot h1 with rfl | h
      · rfl
      · cases s with
        | nil => rfl
        | cons x xs => exact h
    · cases h2

/-- C92: the name reported for an option, written in the source in place of what is there, denotes the same field, in
    whatever scope for a predefined one. -/
theorem C92_reads_back {c a q cls f C s w lit nm r'} (hc : CleanReachable WFFile c) (hu : UniqueNames c.reg)
    (ho : Node.option a q cls f ∈ c.pool) (hd : Declared c.reg C cls) (hC : PlainName C)
    (hf : ∀ n t sq rep opt, c.reg.kind f = some (.normalField n t sq rep opt) → PlainName n)
    (hq : c.reg.kind q = some (.option w lit)) (hb : Binds c.reg s cls w f)
    (hnm : Option.name q cls f c.reg = (.ok nm, r')) :
    Binds c.reg s cls nm f ∧ (Predefined cls f → ∀ s', Binds c.reg s' cls nm f) := by
  obtain ⟨w', lit', n, t, sq, rep, opt, hq', hk, h1, h2⟩ := C92_name hc ho hd
  rw [hq] at hq'
  cases hq'
  have key : Predefined cls f → ∀ s', Binds c.reg s' cls nm f := by
    intro hp s'
    obtain ⟨g1, g2⟩ := h1 hp
    rw [hnm] at g2
    cases g2
    refine .inl ⟨?_, _, _, _, _, _, hk⟩
    rw [optionRef_name hC (hf _ _ _ _ _ hk)]
    unfold Refers
    rw [if_pos (declared_dot g1)]
    exact (clean_registry hc hu).mpr g1
  refine ⟨?_, key⟩
  by_cases hp : Predefined cls f
  · exact key hp s
  · have := h2 hp
    rw [hnm] at this
    cases this
    exact hb

/-- C92: two options of the same declaration (or of others with the same option message and scope) that report the same
    name set the same field. -/
theorem C92_same_name {c a q f a' q' f' cls C s w lit w' lit' nm r1 r2} (hc : CleanReachable WFFile c)
    (hu : UniqueNames c.reg) (ho : Node.option a q cls f ∈ c.pool) (ho' : Node.option a' q' cls f' ∈ c.pool)
    (hd : Declared c.reg C cls) (hC : PlainName C)
    (hf : ∀ g n t sq rep opt, c.reg.kind g = some (.normalField n t sq rep opt) → PlainName n)
    (hq : c.reg.kind q = some (.option w lit)) (hb : Binds c.reg s cls w f)
    (hq' : c.reg.kind q' = some (.option w' lit')) (hb' : Binds c.reg s cls w' f')
    (hnm : Option.name q cls f c.reg = (.ok nm, r1)) (hnm' : Option.name q' cls f' c.reg = (.ok nm, r2)) : f = f' :=
  (C92_reads_back hc hu ho hd hC (hf f) hq hb hnm).1.unique (C92_reads_back hc hu ho' hd hC (hf f') hq' hb' hnm').1

theorem first_split {β : Type} {P : β → Prop} : ∀ {l : List β} {x}, x ∈ l → P x →
    ∃ pre y post, l = pre ++ y :: post ∧ P y ∧ ∀ z ∈ pre, ¬ P z := by
  intro l
  induction l with
  | nil => intro x h; cases h
  | cons a l ih =>
    intro x hx hp
    by_cases ha : P a
    · exact ⟨[], a, l, rfl, ha, by simp⟩
    · rcases List.mem_cons.mp hx with rfl | hx
      · exact absurd hp ha
      · obtain ⟨pre, y, post, h1, h2, h3⟩ := ih hx hp
        refine ⟨a :: pre, y, post, by simp [h1], h2, ?_⟩
        intro z hz
        rcases List.mem_cons.mp hz with rfl | hz
        · exact ha
        · exact h3 z hz

/-- C92: the reported name as a key for `OptionNamed` on the same node. A custom option is found again: the result is the
    first statement spelt the same, with the same field. A predefined option is not, unless some statement of the node is
    spelt in the long form. -/
theorem C92_lookup {c n p className s cls C x a f nm r'} (hc : CleanReachable WFFile c) (hn : n ∈ c.pool)
    (hcl : optionClassOf c.reg n = some (p, className)) (hs : LookupScope c.reg n s) (hcls : ClassAt c.reg className cls)
    (hd : Declared c.reg C cls) (hnf : ∀ x b d g i, c.reg.kind p ≠ some (.normalField x b d g i))
    (hx : x ∈ optionsOf c.reg p) (ho : Node.option a x.1 cls f ∈ c.pool) (hb : Binds c.reg s cls x.2 f)
    (hnm : Option.name x.1 cls f c.reg = (.ok nm, r')) :
    (¬ Predefined cls f → ∃ pre y post b r'', optionsOf c.reg p = pre ++ y :: post ∧ y.2 = x.2 ∧
      (∀ z ∈ pre, z.2 ≠ x.2) ∧ optionNamed n nm c.reg = (.ok (some (.option b y.1 cls f)), r'')) ∧
    (Predefined cls f → (∀ z ∈ optionsOf c.reg p, z.2 ≠ nm) → optionNamed n nm c.reg = (.ok none, c.reg)) := by
  obtain ⟨w, lit, fn, t, sq, rep, opt, hq, hk, h1, h2⟩ := C92_name hc ho hd
  have hw : w = x.2 := by
    rw [optionsOf_kids, List.mem_filterMap] at hx
    obtain ⟨z, hz, hz2⟩ := hx
    have hel := kids_elem _ _ _ hz
    unfold optionOf at hz2
    split at hz2
    · next w' l hw' =>
      cases hz2
      simp only [Reg.kind, hel, Option.map_some, hw', Option.some.injEq] at hq
      cases hq
      rfl
    · cases hz2
  have hx76 := C76_option_named hc hn hcl hs hcls hnf nm
  refine ⟨fun hp => ?_, fun hp hno => hx76.1 hno⟩
  have := h2 hp
  rw [hnm] at this
  cases this
  obtain ⟨pre, y, post, e1, e2, e3⟩ := first_split (P := fun z : Ptr × Str => z.2 = nm) hx hw.symm
  subst hw
  obtain ⟨b, r2, e⟩ := (hx76.2 pre y post e1 e2 e3).1 f hb
  exact ⟨pre, y, post, b, r2, e1, e2, e3, e⟩

/-! ### Non-vacuity -/

/-- The go_package option of the example reports the long name, and `OptionNamed` does not know it under this name. -/
example : ∃ a b, Node.wrapped a .file ⟨1, []⟩ ∈ cG.pool ∧ Node.option b ⟨1, [2]⟩ ⟨0, [2]⟩ ⟨0, [1, 2]⟩ ∈ cG.pool ∧
    UniqueNames cG.reg ∧ Predefined ⟨0, [2]⟩ ⟨0, [1, 2]⟩ ∧
    Option.name ⟨1, [2]⟩ ⟨0, [2]⟩ ⟨0, [1, 2]⟩ cG.reg = (.ok b!"(.google.protobuf.FileOptions).go_package", cG.reg) ∧
    Binds cG.reg b!".k" ⟨0, [2]⟩ b!"(.google.protobuf.FileOptions).go_package" ⟨0, [1, 2]⟩ ∧
    optionNamed (.wrapped a .file ⟨1, []⟩) b!"(.google.protobuf.FileOptions).go_package" cG.reg = (.ok none, cG.reg) := by
  obtain ⟨a, hm⟩ := Ex.hasW_spec (c := cG) (i := 0) (k := .file) (p := ⟨1, []⟩) (by decide +kernel)
  obtain ⟨b, hb⟩ := hasOpt_spec (c := cG) (i := 5) (q := ⟨1, [2]⟩) (cls := ⟨0, [2]⟩) (f := ⟨0, [1, 2]⟩) (by decide +kernel)
  have hu : UniqueNames cG.reg := Ex.uniqueB_spec (by decide +kernel)
  have hcl : ClassAt cG.reg b!".google.protobuf.FileOptions" ⟨0, [2]⟩ := ⟨by decide +kernel, _, _, rfl⟩
  have hd : Declared cG.reg b!".google.protobuf.FileOptions" ⟨0, [2]⟩ := declared_intro (by decide +kernel)
  have hp : Predefined ⟨0, [2]⟩ ⟨0, [1, 2]⟩ := ⟨1, rfl⟩
  have hbind : Binds cG.reg b!".k" ⟨0, [2]⟩ b!"go_package" ⟨0, [1, 2]⟩ :=
    .inr ⟨unresolved_iff.mpr (by decide +kernel), builtin_named.mp (by decide +kernel)⟩
  have hname : Option.name ⟨1, [2]⟩ ⟨0, [2]⟩ ⟨0, [1, 2]⟩ cG.reg =
      (.ok b!"(.google.protobuf.FileOptions).go_package", cG.reg) := by
    obtain ⟨w, lit, n, t, sq, rep, opt, _, h2, h3, _⟩ := C92_name cG_clean hb hd
    have hn : n = b!"go_package" := by
      have : (match cG.reg.kind ⟨0, [1, 2]⟩ with | some (.normalField x _ _ _ _) => x | _ => []) = b!"go_package" := by
        decide +kernel
      rw [h2] at this
      exact this
    rw [(h3 hp).2, hn]
    rfl
  refine ⟨a, b, hm, hb, hu, hp, hname, ?_, ?_⟩
  · obtain ⟨w, l, hk, hl⟩ := optB_spec (r := cG.reg) (q := ⟨1, [2]⟩) (P := fun _ => true) (by decide +kernel)
    have hw : w = b!"go_package" := by
      have : (match cG.reg.kind ⟨1, [2]⟩ with | some (.option x _) => x | _ => []) = b!"go_package" := by
        decide +kernel
      rw [hk] at this
      exact this
    subst hw
    refine (C92_reads_back cG_clean hu hb hd (by constructor <;> decide) ?_ hk hbind hname).1
    intro n t sq rep opt h2
    have : (match cG.reg.kind ⟨0, [1, 2]⟩ with | some (.normalField x _ _ _ _) => x | _ => []) = b!"go_package" := by
      decide +kernel
    rw [h2] at this
    simp only at this
    subst this
    constructor <;> decide
  · refine (C92_lookup cG_clean hm rfl (s := b!".k") ⟨_, rfl, by decide +kernel⟩ hcl hd ?_ (x := (⟨1, [2]⟩, b!"go_package"))
      (by decide +kernel) hb hbind hname).2 hp (by decide +kernel)
    intro _ _ _ _ _ h
    cases h

/-- A custom option reports its spelling, and is found under it. -/
example : ∃ a b r'', Node.wrapped a .message ⟨1, [6]⟩ ∈ cV.pool ∧
    Option.name ⟨1, [2, 6]⟩ ⟨0, [3]⟩ ⟨1, [0, 3]⟩ cV.reg = (.ok b!"(.v.tag)", cV.reg) ∧ ¬ Predefined ⟨0, [3]⟩ ⟨1, [0, 3]⟩ ∧
    optionNamed (.wrapped a .message ⟨1, [6]⟩) b!"(.v.tag)" cV.reg =
      (.ok (some (.option b ⟨1, [2, 6]⟩ ⟨0, [3]⟩ ⟨1, [0, 3]⟩)), r'') := by
  obtain ⟨a, hm⟩ := Ex.hasW_spec (c := cV) (i := 3) (k := .message) (p := ⟨1, [6]⟩) (by decide +kernel)
  obtain ⟨b, hb⟩ := hasOpt_spec (c := cV) (i := 8) (q := ⟨1, [2, 6]⟩) (cls := ⟨0, [3]⟩) (f := ⟨1, [0, 3]⟩)
    (by decide +kernel)
  have hcl : ClassAt cV.reg b!".google.protobuf.MessageOptions" ⟨0, [3]⟩ := ⟨by decide +kernel, _, _, rfl⟩
  have hd : Declared cV.reg b!".google.protobuf.MessageOptions" ⟨0, [3]⟩ := declared_intro (by decide +kernel)
  have hp : ¬ Predefined ⟨0, [3]⟩ ⟨1, [0, 3]⟩ := by rintro ⟨i, h⟩; cases h
  have hname : Option.name ⟨1, [2, 6]⟩ ⟨0, [3]⟩ ⟨1, [0, 3]⟩ cV.reg = (.ok b!"(.v.tag)", cV.reg) := by
    obtain ⟨w, lit, n, t, sq, rep, opt, h1, _, _, h3⟩ := C92_name cV_clean hb hd
    have : (match cV.reg.kind ⟨1, [2, 6]⟩ with | some (.option x _) => x | _ => []) = b!"(.v.tag)" := by
      decide +kernel
    rw [h1] at this
    simp only at this
    rw [h3 hp, this]
  obtain ⟨pre, y, post, b', r'', e1, e2, e3, e4⟩ := (C92_lookup cV_clean hm rfl (s := b!".v.M")
    ⟨_, rfl, declared_intro (by decide +kernel)⟩ hcl hd
    (by
      intro x b d g i hk
      have : (match cV.reg.kind ⟨1, [6]⟩ with | some (.normalField ..) => true | _ => false) = false := by
        decide +kernel
      rw [hk] at this
      cases this) (x := (⟨1, [2, 6]⟩, b!"(.v.tag)")) (by decide +kernel) hb
    (.inl ⟨resolve_refers (c := b!".v.tag") (by decide +kernel) (by decide +kernel), _, _, _, _, _, rfl⟩) hname).1 hp
  have e : optionsOf cV.reg ⟨1, [6]⟩ = [(⟨1, [0, 6]⟩, b!"(tag)"), (⟨1, [2, 6]⟩, b!"(.v.tag)")] := by decide +kernel
  rw [e] at e1
  have hy : y = (⟨1, [2, 6]⟩, b!"(.v.tag)") := by
    have : y ∈ [((⟨1, [0, 6]⟩ : Ptr), b!"(tag)"), (⟨1, [2, 6]⟩, b!"(.v.tag)")] := by rw [e1]; simp
    simp only [List.mem_cons, List.not_mem_nil, or_false] at this
    rcases this with rfl | rfl
    · exact absurd e2 (by decide)
    · rfl
  subst hy
  exact ⟨a, b', r'', hm, hname, hp, e4⟩

end Protoast.Props
