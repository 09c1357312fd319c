import Verif.Spec.SoundSchema
import Verif.Props.Origin
import Verif.Props.Panics
import Verif.Props.ValueExact
import Verif.Props.Tables
/-
  C114: sound schemas never panic, misuse aside.
-/
namespace Protoast.Props
open Protoast

theorem refers_scope {r : Reg} {s s' : Str} (h : dotted s = dotted s') {t : Str} {q : Ptr} (g : Refers r s t q) :
    Refers r s' t q := by
  unfold Refers at *
  rw [h] at g
  exact g

theorem placeScope_kind {c} (hc : CleanReachable WFFile c) {p : Ptr} {kd : Kind} (hk : c.reg.kind p = some kd)
    (hne : ∀ a b, kd ≠ .enumField a b) : ∃ s, PlaceScope c.reg p s ∧ dotted (c.reg.scope (.at p)) = dotted s := by
  have hpath := kind_path hk
  have intro : ∀ s, (Declared c.reg s p ∨ (s = [] ∧ ∀ s', ¬ Declared c.reg s' p)) → PlaceScope c.reg p s := by
    intro s h
    unfold PlaceScope
    rw [if_neg hpath, hk]
    cases kd <;> first | exact absurd rfl (hne _ _) | exact h
  have hne' : ∀ a b, c.reg.kind p ≠ some (.enumField a b) := by
    intro a b h
    rw [hk] at h
    cases h
    exact hne _ _ rfl
  by_cases hdec : ∃ s', Declared c.reg s' p
  · obtain ⟨s', h⟩ := hdec
    exact ⟨s', intro _ (.inl h), by rw [scope_declared hc h hne']⟩
  · refine ⟨[], intro _ (.inr ⟨rfl, fun s' h => hdec ⟨s', h⟩⟩), ?_⟩
    unfold Reg.scope
    cases h : c.reg.scopes (.at p) with
    | none => rfl
    | some s' => exact absurd ⟨s', (reachable_sound (clean_reachable hc)).scopes p s' h hpath⟩ hdec

/-- A handle with options is a declaration with options. -/
theorem owner_of {P c n p cn} (hr : Reachable P c) (hn : n ∈ c.pool) (ho : optionClassOf c.reg n = some (p, cn)) :
    ownerClass c.reg p = some cn ∧ n.decl = some p ∧ (∀ s, NameScope c.reg n s → PlaceScope c.reg p s) := by
  obtain ⟨o, hi, hg⟩ := reachable_inv hr
  cases n with
  | wrapped a k q =>
    by_cases hf : k = .file
    · subst hf
      cases ho
      have hpp : p.path = [] := (hTarget_path (by
        have := (show GoodW o c.reg a .file p from hg _ hn).target
        exact target_hTarget this)).1
      refine ⟨by unfold ownerClass; rw [if_pos hpp], rfl, fun s hs => ?_⟩
      unfold PlaceScope
      rw [if_pos hpp]
      rcases hs with h | ⟨_, h⟩
      · exact h
      · exfalso
        have hroot := GoodW.rooted (show GoodW o c.reg a .file p from hg _ hn)
        have ht := (show GoodW o c.reg a .file p from hg _ hn).target
        have hlt := hTarget_file (target_hTarget ht)
        refine h (packageDot ((c.reg.heap[p.file]).elems)) ⟨_, ?_, rfl⟩
        unfold Reg.children
        rw [List.getElem?_eq_getElem hlt, hpp]
        rfl
    · obtain ⟨kd, h1, h2⟩ := handle_kind hr hn hf
      have hpath := kind_path h1
      have hsc : p = q → ∀ s, NameScope c.reg (.wrapped a k q) s → PlaceScope c.reg p s := by
        rintro rfl s hs
        have e : ∀ s', OptionScope c.reg (.wrapped a k p) s' ↔ Declared c.reg s' p := by
          intro s'
          cases k <;> first
            | exact absurd rfl hf
            | exact ⟨fun ⟨_, g1, g2⟩ => by cases g1; exact g2, fun h => ⟨_, rfl, h⟩⟩
        have hs' : k ≠ .enumValue → Declared c.reg s p ∨ (s = [] ∧ ∀ s', ¬ Declared c.reg s' p) := by
          intro hk
          simp only [← e]
          cases k <;> first | exact absurd rfl hk | exact hs
        unfold PlaceScope
        rw [if_neg hpath, h1]
        cases kd <;> cases h2 <;> first | exact hs' (by intro h; cases h) | exact hs
      have hp : p = q := by
        cases kd <;> cases h2 <;> simp only [optionClassOf, h1, reduceCtorEq, Option.some.injEq, Prod.mk.injEq] at ho <;>
          exact ho.1.symm
      subst hp
      refine ⟨?_, rfl, hsc rfl⟩
      unfold ownerClass
      rw [if_neg hpath, h1]
      cases kd <;> cases h2 <;> simp only [optionClassOf, h1, reduceCtorEq, Option.some.injEq, Prod.mk.injEq, true_and] at ho ⊢ <;>
        exact ho
  | oneof a q =>
    cases ho
    obtain ⟨nm, h1⟩ := (hg _ hn).2.1
    refine ⟨by unfold ownerClass; rw [if_neg (kind_path h1), h1], rfl, fun s hs => ?_⟩
    unfold PlaceScope
    rw [if_neg (kind_path h1), h1]
    have e : ∀ s', OptionScope c.reg (.oneof a p) s' ↔ Declared c.reg s' p := fun s' =>
      ⟨fun ⟨_, g1, g2⟩ => by cases g1; exact g2, fun h => ⟨_, rfl, h⟩⟩
    have hs' : OptionScope c.reg (.oneof a p) s ∨ (s = [] ∧ ∀ s', ¬ OptionScope c.reg (.oneof a p) s') := hs
    simpa only [e] using hs'
  | _ => cases ho

theorem nth_panic {α} {p : Ptr} {pick : Ptr → Kind → Option (M α)} {r : Reg} {i : Nat} {x : Panic}
    (h : (Seq.nth (overKids p pick) i r).1 = .panic x) :
    ∃ q e m, (q, e) ∈ r.kids p ∧ pick q e.kind = some m ∧ (m r).1 = .panic x := by
  unfold Seq.nth at h
  simp only [M.bind_apply, overKids_apply] at h
  rcases hm : (List.filterMap (fun x => pick x.1 x.2.kind) (r.kids p))[i]? with _ | m
  · have hm2 : ((r.kids p).filterMap fun (q, e) => pick q e.kind)[i]? = none := hm
    rw [hm2] at h
    cases h
  · have hm2 : ((r.kids p).filterMap fun (q, e) => pick q e.kind)[i]? = some m := hm
    rw [hm2] at h
    have hm' := List.mem_of_getElem? hm
    rw [List.mem_filterMap] at hm'
    obtain ⟨⟨q, e⟩, h1, h2⟩ := hm'
    refine ⟨q, e, m, h1, h2, ?_⟩
    simp only [M.bind_apply] at h
    rcases hr : m r with ⟨res, r1⟩
    rw [hr] at h
    cases res <;> cases h
    rfl

theorem seqOptions_sound {r : Reg} {s cn : Str} {p cls : Ptr} (hcl : ClassAt r cn cls)
    (hb : ∀ x ∈ optionsOf r p, ∃ f, Binds r s cls x.2 f) (i : Nat) (x : Panic) :
    ((do let y ← seqOptions s cn p; y.nth i) r).1 ≠ .panic x := by
  intro h
  unfold seqOptions at h
  simp only [M.bind_apply, optionClass_ok hcl, M.pure_apply] at h
  obtain ⟨q, e, m, h1, h2, h3⟩ := nth_panic h
  split at h2
  · next w l hk =>
    cases h2
    obtain ⟨f, hf⟩ := hb _ (mem_optionsOf h1 hk)
    rw [newOption_binds (by rw [kids_kind h1, hk]) hf] at h3
    cases h3
  · cases h2

theorem namedOption_sound {r : Reg} {name s cn : Str} {p cls : Ptr} (hcl : ClassAt r cn cls)
    (hb : ∀ x ∈ optionsOf r p, ∃ f, Binds r s cls x.2 f) (x : Panic) :
    (namedOption name s cn p r).1 ≠ .panic x := by
  intro h
  rw [namedOption_eq hcl] at h
  rcases hf : (r.kids p).find? (fun x => optionOf x == some (x.1, name)) with _ | ⟨q, e⟩
  · rw [hf] at h; cases h
  · rw [hf] at h
    have hq := List.mem_of_find?_eq_some hf
    have hp := List.find?_some hf
    rw [beq_iff_eq] at hp
    simp only [optionOf] at hp
    split at hp
    · next w l hk =>
      cases hp
      obtain ⟨f, hf⟩ := hb _ (mem_optionsOf hq hk)
      simp only [M.bind_apply, newOption_binds (by rw [kids_kind hq, hk]) hf] at h
      cases h
    · cases hp

theorem methodOptions_sound {r : Reg} (hs : Sound r) {p cls : Ptr} (hcl : ClassAt r registryOptionsMethod cls)
    (hb : ∀ x ∈ optionsOf r p, ∃ f, Binds r [] cls x.2 f) (i : Nat) (x : Panic) :
    ((Method.options p).nth i r).1 ≠ .panic x := by
  intro h
  unfold Method.options at h
  obtain ⟨q, e, m, h1, h2, h3⟩ := nth_panic h
  split at h2
  · next w l hk =>
    cases h2
    obtain ⟨f, hf⟩ := hb _ (mem_optionsOf h1 hk)
    have hkd : r.kind q = some (.option w l) := by rw [kids_kind h1, hk]
    simp only [M.bind_apply, optionClass_ok hcl, wrapOption, M.get_apply, option_scope hs hkd,
      newOption_binds hkd hf] at h3
    cases h3
  · cases h2

/-- `Options` and `OptionNamed`. -/
theorem options_cases {o r} {n : Node} (g : Good o r n) :
    (∃ p cn s, optionClassOf r n = some (p, cn) ∧ options n r = seqOptions s cn p r ∧
      (∀ name, optionNamed n name r = namedOption name s cn p r ∨
        (Query.misuse r n (.named .optionNamed name) = [.unsupportedNode] ∧
          optionNamed n name r = (.panic .unsupportedNode, r))) ∧
      ((∀ a p, n ≠ .wrapped a .file p) → s = r.scope (.at p)) ∧
      ((∃ a, n = .wrapped a .file p) → s = firstPackage ((r.children p).getD []))) ∨
    (optionClassOf r n = none ∧ options n r = (.panic .unsupportedNode, r) ∧
      ∀ name, optionNamed n name r = (.panic .unsupportedNode, r)) := by
  cases n with
  | wrapped a k p =>
    cases k with
    | messageField =>
      have hw : GoodW o r a .messageField p := g
      rcases fieldKind_cases hw.target with ⟨n, t, s, rep, op, hk⟩ | ⟨n, hk⟩ | ⟨n, kt, t, s, hk⟩ <;>
        refine .inl ⟨p, _, _, by simp only [optionClassOf, hk]; rfl, ?_, ?_, fun _ => rfl, by rintro ⟨_, h⟩; cases h⟩
      · simp only [options, M.bind_apply, M.get_apply, hk]; rfl
      · intro name
        exact .inr ⟨by simp only [Query.misuse, optionClassOf, hk],
          by simp only [optionNamed, M.bind_apply, M.get_apply, hk]; rfl⟩
      · simp only [options, M.bind_apply, M.get_apply, hk]; rfl
      · intro name
        exact .inl (by simp only [optionNamed, M.bind_apply, M.get_apply, hk]; rfl)
      · simp only [options, M.bind_apply, M.get_apply, hk]; rfl
      · intro name
        exact .inl (by simp only [optionNamed, M.bind_apply, M.get_apply, hk]; rfl)
    | file => exact .inl ⟨p, _, _, rfl, rfl, fun _ => .inl rfl, fun h => absurd rfl (h a p), fun _ => rfl⟩
    | _ => first
      | exact .inr ⟨rfl, rfl, fun _ => rfl⟩
      | exact .inl ⟨p, _, _, rfl, rfl, fun _ => .inl rfl, fun _ => rfl, by rintro ⟨_, h⟩; cases h⟩
  | oneof a p => exact .inl ⟨p, _, _, rfl, rfl, fun _ => .inl rfl, fun _ => rfl, by rintro ⟨_, h⟩; cases h⟩
  | _ => exact .inr ⟨rfl, rfl, fun _ => rfl⟩

/-- The options of a handle are bound in the scope the library uses. -/
theorem bound_raw {c n p cn s} (hc : CleanReachable WFFile c) (hs : SoundSchema c.reg) (hn : n ∈ c.pool)
    (ho : optionClassOf c.reg n = some (p, cn)) (h1 : (∀ a p, n ≠ .wrapped a .file p) → s = c.reg.scope (.at p))
    (h2 : (∃ a, n = .wrapped a .file p) → s = firstPackage ((c.reg.children p).getD [])) :
    ∃ cls, ClassAt c.reg cn cls ∧ ∀ x ∈ optionsOf c.reg p, ∃ f, Binds c.reg s cls x.2 f := by
  obtain ⟨g1, g2, g3⟩ := owner_of (clean_reachable hc) hn ho
  obtain ⟨s', e1, e2⟩ := nameScope_of hc hn g2 h1 h2
  obtain ⟨cls, hcl⟩ := hs.classes _ _ g1
  refine ⟨cls, hcl, fun x hx => ?_⟩
  obtain ⟨f, hf⟩ := hs.bound p cn cls s' g1 hcl (g3 _ e1) x hx
  exact ⟨f, hf.scope_congr e2.symm⟩

/-- The options of a handle are bound in the outermost scope, if they are looked up there. -/
theorem bound_outside {P c n p cn} (hr : Reachable P c) (hs : SoundSchema c.reg) (hn : n ∈ c.pool)
    (ho : optionClassOf c.reg n = some (p, cn)) (hl : LooksOutside c.reg p) :
    ∃ cls, ClassAt c.reg cn cls ∧ ∀ x ∈ optionsOf c.reg p, ∃ f, Binds c.reg [] cls x.2 f := by
  obtain ⟨g1, _, _⟩ := owner_of hr hn ho
  obtain ⟨cls, hcl⟩ := hs.classes _ _ g1
  exact ⟨cls, hcl, hs.outside p cn cls g1 hcl hl⟩

theorem representable_all {r : Reg} (hs : SoundSchema r) {p : Ptr} {cn : Str} (ho : ownerClass r p = some cn)
    (hl : LooksOutside r p) {q : Ptr} {e : Elem} (h : (q, e) ∈ r.kids p) : Representable r cn e := by
  have hch : ∃ es, r.children p = some es ∧ e ∈ es := by
    rcases hc : r.children p with _ | es
    · exfalso
      unfold Reg.kids at h
      rw [hc] at h
      cases h
    · refine ⟨es, rfl, ?_⟩
      obtain ⟨i, _, h1⟩ := kidsFrom_mem _ _ h
      rw [hc] at h1
      exact List.mem_of_getElem? h1
  obtain ⟨es, h1, h2⟩ := hch
  rcases hs.supported p es e hl h1 h2 with h3 | ⟨w, l, h3⟩
  · exact .inl h3
  · obtain ⟨cls, hcl⟩ := hs.classes _ _ ho
    obtain ⟨f, hf⟩ := hs.outside p cn cls ho hcl hl _ (mem_optionsOf h h3)
    exact .inr ⟨w, l, cls, f, h3, hcl, hf⟩

theorem everything_sound {o r} (hi : Inv o r) (hso : Sound r) (hs : SoundSchema r) {p : Ptr} {cn : Str}
    (hp : Rooted r p) (ho : ownerClass r p = some cn) (hl : LooksOutside r p) (i : Nat) (x : Panic) :
    ((do let x ← Seq.nth (overKids p (everythingStep cn)) i; pure (flatOpt x)) r).1 ≠ .panic x := by
  intro h
  simp only [M.bind_apply] at h
  have h' : (Seq.nth (overKids p (everythingStep cn)) i r).1 = .panic x := by
    rcases hr : Seq.nth (overKids p (everythingStep cn)) i r with ⟨res, r1⟩
    rw [hr] at h
    cases res <;> cases h
    rfl
  obtain ⟨q, e, m, h1, h2, h3⟩ := nth_panic h'
  obtain ⟨he, hu⟩ := present_kids hp _ h1
  obtain ⟨m', n, o', r', g1, g2, _⟩ := everything_step hi hso he hu (representable_all hs ho hl h1)
  rw [h2] at g1
  cases g1
  rw [g2] at h3
  cases h3

theorem map_panic {α β} {m : M α} {f : α → β} {r : Reg} {x : Panic} (h : ((m >>= fun a => pure (f a)) r).1 = .panic x) :
    (m r).1 = .panic x := by
  simp only [M.bind_apply] at h
  rcases hr : m r with ⟨res, r1⟩
  rw [hr] at h
  cases res <;> cases h
  rfl

/-- Iterators. -/
theorem iter_sound {c n} (hc : CleanReachable WFFile c) (hs : SoundSchema c.reg) (hn : n ∈ c.pool) (q : IterQ) (i : Nat)
    (x : Panic) (h : ((Query.iter q i).run n c.reg).1 = .panic x) : x ∈ (Query.iter q i).misuse c.reg n := by
  have hr := clean_reachable hc
  obtain ⟨o, hi, hg⟩ := reachable_inv hr
  have hso := reachable_sound hr
  have h80 := C80_panics hr hn (.iter q i) trivial x h
  have h' : (q.run n i c.reg).1 = .panic x := map_panic h
  have ev : ∀ {a k p cn}, n = .wrapped a k p → optionClassOf c.reg n = some (p, cn) → LooksOutside c.reg p →
      ((do let x ← Seq.nth (overKids p (everythingStep cn)) i; pure (flatOpt x)) c.reg).1 ≠ .panic x := by
    rintro a k p cn rfl ho hl
    exact everything_sound hi hso hs (GoodW.rooted (show GoodW o c.reg a k p from hg _ hn)) (owner_of hr hn ho).1 hl i x
  have kd : ∀ {a k p}, n = .wrapped a k p → k ≠ .file → ∃ kd, c.reg.kind p = some kd ∧ wrapKind kd = some k := by
    rintro a k p rfl hf
    exact handle_kind hr hn hf
  cases q
  case fileEverything =>
    cases n with
    | wrapped a k p =>
      cases k with
      | file =>
        exact absurd h' (ev rfl rfl (.inl
          (hTarget_path (target_hTarget (show GoodW o c.reg a .file p from hg _ hn).target)).1))
      | _ => cases h'
    | _ => cases h'
  case messageEverything =>
    cases n with
    | wrapped a k p =>
      cases k with
      | message =>
        obtain ⟨kd, h1, h2⟩ := kd rfl (by decide)
        refine absurd h' (ev rfl rfl (.inr ⟨kd, h1, ?_⟩))
        cases kd <;> cases h2
        exact .inl ⟨_, _, rfl⟩
      | _ => cases h'
    | _ => cases h'
  case enumEverything =>
    cases n with
    | wrapped a k p =>
      cases k with
      | enum =>
        obtain ⟨kd, h1, h2⟩ := kd rfl (by decide)
        refine absurd h' (ev rfl rfl (.inr ⟨kd, h1, ?_⟩))
        cases kd <;> cases h2
        exact .inr (.inl ⟨_, rfl⟩)
      | _ => cases h'
    | _ => cases h'
  case serviceEverything =>
    cases n with
    | wrapped a k p =>
      cases k with
      | service =>
        obtain ⟨kd, h1, h2⟩ := kd rfl (by decide)
        refine absurd h' (ev rfl rfl (.inr ⟨kd, h1, ?_⟩))
        cases kd <;> cases h2
        exact .inr (.inr (.inl ⟨_, rfl⟩))
      | _ => cases h'
    | _ => cases h'
  case methodOptions =>
    cases n with
    | wrapped a k p =>
      cases k with
      | method =>
        obtain ⟨kd, h1, h2⟩ := kd rfl (by decide)
        obtain ⟨cls, hcl, hb⟩ := bound_outside hr hs hn rfl (.inr ⟨kd, h1, by
          cases kd <;> cases h2
          exact .inr (.inr (.inr ⟨_, _, _, _, _, rfl⟩))⟩)
        exact absurd h' (methodOptions_sound hso hcl hb i x)
      | _ => cases h'
    | _ => cases h'
  case options =>
    rcases options_cases (hg _ hn) with ⟨p, cn, s, h1, h2, _, h4, h5⟩ | ⟨h1, h2, _⟩
    · exfalso
      obtain ⟨cls, hcl, hb⟩ := bound_raw hc hs hn h1 h4 h5
      have := seqOptions_sound hcl hb i x
      apply this
      simp only [M.bind_apply, ← h2]
      exact h'
    · have h3 : (IterQ.run .options n i c.reg).1 = .panic .unsupportedNode := by
        show ((do let s ← Protoast.options n; s.nth i) c.reg).1 = _
        simp only [M.bind_apply, h2]
      rw [h3] at h'
      cases h'
      simp [Query.misuse, h1]
  all_goals exact absurd h80 (by simp [Query.panics, IterQ.panics])

/-- Lookups by name. -/
theorem named_sound {c n} (hc : CleanReachable WFFile c) (hs : SoundSchema c.reg) (hn : n ∈ c.pool) (q : NamedQ) (name : Str)
    (x : Panic) (h : ((Query.named q name).run n c.reg).1 = .panic x) : x ∈ (Query.named q name).misuse c.reg n := by
  have hr := clean_reachable hc
  obtain ⟨o, hi, hg⟩ := reachable_inv hr
  have h80 := C80_panics hr hn (.named q name) trivial x h
  have h' : (q.run n name c.reg).1 = .panic x := map_panic h
  cases q
  case optionNamed =>
    have h' : (optionNamed n name c.reg).1 = .panic x := h'
    rcases options_cases (hg _ hn) with ⟨p, cn, s, h1, _, h3, h4, h5⟩ | ⟨h1, _, h2⟩
    · obtain ⟨cls, hcl, hb⟩ := bound_raw hc hs hn h1 h4 h5
      rcases h3 name with h3 | ⟨h3, h6⟩
      · rw [h3] at h'
        exact absurd h' (namedOption_sound hcl hb x)
      · rw [h6] at h'
        cases h'
        rw [h3]
        simp
    · rw [h2] at h'
      cases h'
      simp [Query.misuse, h1]
  all_goals exact absurd h80 (by simp [Query.panics, NamedQ.panics])

theorem refers_place {c p kd typ q} (hc : CleanReachable WFFile c) (hk : c.reg.kind p = some kd)
    (hne : ∀ a b, kd ≠ .enumField a b) (h : Refers c.reg (c.reg.scope (.at p)) typ q) :
    ∃ s, PlaceScope c.reg p s ∧ Refers c.reg s typ q := by
  obtain ⟨s, h1, h2⟩ := placeScope_kind hc hk hne
  exact ⟨s, h1, refers_scope h2 h⟩

theorem fieldType_sound {c a p} (hc : CleanReachable WFFile c) (hs : SoundSchema c.reg)
    (hn : Node.wrapped a .messageField p ∈ c.pool) (x : Panic) : (MessageField.type a p c.reg).1 ≠ .panic x := by
  have hr := clean_reachable hc
  obtain ⟨kd, hk, h2⟩ := handle_kind hr hn (by decide)
  intro h
  cases hf : c.reg.ftcache a with
  | some t => unfold MessageField.type at h; rw [hf] at h; cases h
  | none =>
    cases kd <;> cases h2
    case none.normalField.refl n typ v rep opt =>
      obtain ⟨hkw, q, kd, g1, g2, g3⟩ := (C39_element hr hk hf).2.mp ⟨x, _, Prod.ext h rfl⟩
      obtain ⟨s, e1, e2⟩ := refers_place hc hk (by intro a b h; cases h) g1
      rw [hs.fields p n typ v rep opt s q kd hk hkw e1 e2 g2] at g3
      cases g3
    all_goals
      unfold MessageField.type at h
      simp only [hf, fieldTypeBody, M.bind_apply, M.get_apply, hk, M.alloc_apply, M.pure_apply] at h
      cases h

theorem branchType_sound {c a p} (hc : CleanReachable WFFile c) (hs : SoundSchema c.reg)
    (hn : Node.wrapped a .oneofBranch p ∈ c.pool) (x : Panic) : (OneOfBranch.type p c.reg).1 ≠ .panic x := by
  have hr := clean_reachable hc
  obtain ⟨o, hi, _⟩ := reachable_inv hr
  obtain ⟨kd, hk, h2⟩ := handle_kind hr hn (by decide)
  intro h
  cases kd <;> cases h2
  case oneofField n typ v =>
    rw [branch_type_eq hk] at h
    obtain ⟨hkw, q, kd, g1, g2, g3⟩ := (lookupType_fails hi).mp ⟨x, _, Prod.ext h rfl⟩
    obtain ⟨s, e1, e2⟩ := refers_place hc hk (by intro a b h; cases h) g1
    rw [hs.branches p n typ v s q kd hk hkw e1 e2 g2] at g3
    cases g3

theorem denotes_sound {c p n req ret a b} (hc : CleanReachable WFFile c) (hs : SoundSchema c.reg)
    (hk : c.reg.kind p = some (.rpc n req ret a b)) {typ : Str} (ht : typ = req ∨ typ = ret) :
    ∃ q, DenotesMessage c.reg p typ q := by
  obtain ⟨s, e1, e2⟩ := placeScope_kind hc hk (by intro a b h; cases h)
  obtain ⟨h1, q, nm, ext, h2, h3⟩ := hs.methods p n req ret a b s hk e1 typ ht
  exact ⟨q, h1, refers_scope e2.symm h2, nm, ext, h3⟩

theorem mapKey_sound {c p n kt typ v} (hr : Reachable WFFile c) (hs : SoundSchema c.reg)
    (hk : c.reg.kind p = some (.mapField n kt typ v)) : ∃ b r', Map.key p c.reg = (.ok (.builtin b), r') := by
  obtain ⟨b, h⟩ := hs.keys p n kt typ v hk
  obtain ⟨r', h⟩ := ((C38_map hr hk).1 b).mpr h
  exact ⟨b, r', h⟩

theorem mapValue_sound {c p n kt typ v} (hc : CleanReachable WFFile c) (hs : SoundSchema c.reg)
    (hk : c.reg.kind p = some (.mapField n kt typ v)) : ∃ t r', Map.value p c.reg = (.ok t, r') := by
  obtain ⟨h1, h2, _⟩ := C68_map_value hc hs.unique hk
  by_cases hkw : IsKeyword typ
  · obtain ⟨b, hb⟩ := hkw
    exact ⟨_, _, h1 b hb⟩
  · rcases hs.values p n kt typ v hk with h | ⟨h3, q, nm, h4, h5⟩
    · exact absurd h hkw
    · obtain ⟨a, k, r', h⟩ := h2 q hkw ⟨h3, h4, by
        exact ⟨nm, h5⟩⟩
      exact ⟨_, r', h⟩

theorem desc_sound {o c} (hr : Reachable WFFile c) (hs : SoundSchema c.reg) : ∀ (n : Node), Good o c.reg n → ∀ x,
    (nodeDescription n c.reg).1 = .panic x → x ∈ n.descMisuse
  | .wrapped a k p, _, x, h => by cases k <;> cases h
  | .option _ _ _ _, _, x, h => by cases h
  | .oneof _ _, _, x, h => by cases h
  | .map a p, g, x, h => by
    obtain ⟨n, kt, typ, v, hk⟩ := g.2
    obtain ⟨b, r', h1⟩ := mapKey_sound hr hs hk
    unfold nodeDescription at h
    simp only [M.bind_apply, h1] at h
    cases h
    simp [Node.descMisuse]
  | .repeated a (some t), g, x, h => by
    unfold nodeDescription at h
    exact desc_sound hr hs t g.2.2 x (map_panic h)
  | .repeated a none, _, x, h => by cases h; simp [Node.descMisuse]
  | .builtin _, _, x, h => by cases h; simp [Node.descMisuse]
  | .value _, _, x, h => by cases h; simp [Node.descMisuse]
  | .mapItem _ _, _, x, h => by cases h; simp [Node.descMisuse]

theorem goPackage_sound {c n} (hc : CleanReachable WFFile c) (hs : SoundSchema c.reg) (hn : n ∈ c.pool) (x : Panic)
    (h : (goPackage n c.reg).1 = .panic x) : x ∈ n.filePanics := by
  have hr := clean_reachable hc
  obtain ⟨o, hi, hg⟩ := reachable_inv hr
  rcases hf : nodeFile n c.reg with ⟨res, r1⟩
  have hx : CacheExt c.reg r1 := by
    have := (RO.nodeFile n).ext c.reg
    rw [hf] at this
    exact this
  obtain ⟨o1, e1, e2, e3⟩ := nodeFile_tri hi n
  rw [hf] at e1 e2 e3
  cases res with
  | panic e =>
    have h1 : ((Query.plain .file).run n c.reg).1 = .panic e := by
      show ((do let x ← nodeFile n; pure x.toList) c.reg).1 = _
      simp only [M.bind_apply, hf]
    unfold goPackage at h
    simp only [M.bind_apply, hf] at h
    cases h
    exact C80_panics hr hn (.plain .file) trivial _ h1
  | timeout =>
    unfold goPackage at h
    simp only [M.bind_apply, hf] at h
    cases h
  | ok f =>
    by_cases hfile : ∃ a p, f = some (.wrapped a .file p)
    · exfalso
      obtain ⟨a, p, rfl⟩ := hfile
      have hw : GoodW o1 r1 a .file p := e3 _ rfl _ rfl
      obtain ⟨hpp, hlt⟩ := hTarget_path (target_hTarget hw.target)
      rw [hx.heap] at hlt
      have hes : c.reg.children p = some (c.reg.heap[p.file]).elems := by
        unfold Reg.children
        rw [List.getElem?_eq_getElem hlt, hpp]
        rfl
      have how : ownerClass c.reg p = some b!".google.protobuf.FileOptions" := by
        unfold ownerClass
        rw [if_pos hpp]
      obtain ⟨cls, hcl⟩ := hs.classes _ _ how
      obtain ⟨gf, hgf, hgn⟩ := hs.goPackage cls hcl
      have hN : Named c.reg := ⟨reachable_sound hr, fun _ _ => scope_declared hc⟩
      have := (C82_go_package hc hn hf hes hcl hgf hgn).1.mpr (by
        intro i hlen _
        have he : ((r1.children p).getD [])[i]? = some (c.reg.heap[p.file]).elems[i] := by
          rw [hx.children_eq, hes, Option.getD_some]
          exact List.getElem?_eq_getElem hlen
        obtain ⟨m, hm, hnth⟩ := everything_nth (cls := registryOptionsFile) he
        have hmem := List.mem_of_getElem? (kids_get he)
        obtain ⟨hel, hund⟩ := present_kids (GoodW.rooted hw) _ hmem
        have hmem' : (childPtr p i, (c.reg.heap[p.file]).elems[i]) ∈ c.reg.kids p := by
          have : r1.kids p = c.reg.kids p := by unfold Reg.kids; rw [hx.children_eq]
          rw [← this]
          exact hmem
        have hrep := (representable_all hs how (.inl hpp) hmem').congr hx.heap hx.registry
        obtain ⟨m', y, o', r', g1, g2, _⟩ := everything_step e2 (hN.cacheExt hx).1 hel hund hrep
        have g1' : m = m' := by
          have : some m = some m' := hm.symm.trans g1
          cases this
          rfl
        subst g1'
        refine ⟨some y, r', ?_⟩
        show Seq.nth (overKids p (everythingStep registryOptionsFile)) i r1 = _
        rw [hnth]
        simp only [M.bind_apply, g2, M.pure_apply])
      obtain ⟨res, r', h2⟩ := this
      rw [h2] at h
      cases h
    · exfalso
      unfold goPackage at h
      simp only [M.bind_apply, hf] at h
      split at h
      · exact hfile ⟨_, _, rfl⟩
      · cases h

/-- The literal of the option statement has a value for the field, in the dialect `Value` accepts (see C112). -/
def HasValue (F : FloatOps) (r : Reg) (opt field : Ptr) : Prop :=
  ∀ name lit, r.kind opt = some (.option name lit) → ∃ v, FieldValue .accepted F r (some opt) field lit v

/-- C114: when the loaded files are sound, then in every history a call on a handle panics only if it makes no sense for
    that kind of node; `Value` is required to be called on options whose literal has a value only. -/
theorem C114_sound {c n} (hc : CleanReachable ShapedFile c) (hs : SoundSchema c.reg) (hn : n ∈ c.pool) (q : Query)
    (hd : q.enough n.depth)
    (hv : ∀ F a o cls f, q = .plain (.optionValue F) → n = .option a o cls f → HasValue F c.reg o f)
    (x : Panic) (h : (q.run n c.reg).1 = .panic x) : x ∈ q.misuse c.reg n := by
  have hw : CleanReachable WFFile c := clean_mono (fun _ _ h => h.1) hc
  have hr := clean_reachable hw
  obtain ⟨o, hi, hg⟩ := reachable_inv hr
  have h80 := C80_panics hr hn q hd x h
  cases q with
  | iter q i => exact iter_sound hw hs hn q i x h
  | named q s => exact named_sound hw hs hn q s x h
  | plain q =>
    have h' : (q.run n c.reg).1 = .panic x := h
    cases q
    case fieldType =>
      cases n with
      | wrapped a k p =>
        cases k with
        | messageField => exact absurd (map_panic h') (fieldType_sound hw hs hn x)
        | _ => cases h'
      | _ => cases h'
    case branchType =>
      cases n with
      | wrapped a k p =>
        cases k with
        | oneofBranch => exact absurd (map_panic h') (branchType_sound hw hs hn x)
        | _ => cases h'
      | _ => cases h'
    case methodInput =>
      cases n with
      | wrapped a k p =>
        cases k with
        | method =>
          exfalso
          obtain ⟨nm, req, ret, sreq, sret, hk⟩ := C41_every_handle hr hn
          obtain ⟨q, hq⟩ := denotes_sound hw hs hk (.inl rfl)
          obtain ⟨a', r', e⟩ := (C41_input hr hk).1 q hq
          have := map_panic h'
          rw [e] at this
          cases this
        | _ => cases h'
      | _ => cases h'
    case methodOutput =>
      cases n with
      | wrapped a k p =>
        cases k with
        | method =>
          exfalso
          obtain ⟨nm, req, ret, sreq, sret, hk⟩ := C41_every_handle hr hn
          obtain ⟨q, hq⟩ := denotes_sound hw hs hk (.inr rfl)
          obtain ⟨a', r', e⟩ := (C41_output hr hk).1 q hq
          have := map_panic h'
          rw [e] at this
          cases this
        | _ => cases h'
      | _ => cases h'
    case mapKey =>
      cases n with
      | map a p =>
        exfalso
        obtain ⟨nm, kt, typ, v, hk⟩ := (hg _ hn).2
        obtain ⟨b, r', e⟩ := mapKey_sound hr hs hk
        have := map_panic h'
        rw [e] at this
        cases this
      | _ => cases h'
    case mapValue =>
      cases n with
      | map a p =>
        exfalso
        obtain ⟨nm, kt, typ, v, hk⟩ := (hg _ hn).2
        obtain ⟨b, r', e⟩ := mapValue_sound hw hs hk
        have := map_panic h'
        rw [e] at this
        cases this
      | _ => cases h'
    case optionValue F =>
      cases n with
      | option a p cls f =>
        exfalso
        obtain ⟨name, lit, hk, h1, _⟩ := C112_value (F := F) hc hn
        obtain ⟨v, h2⟩ := hv F a p cls f rfl rfl name lit hk
        obtain ⟨v', r', e, _⟩ := h1 v h2
        have := map_panic h'
        rw [e] at this
        cases this
      | _ => cases h'
    case description => exact desc_sound hr hs n (hg _ hn) x (map_panic h')
    case goPackage => exact goPackage_sound hw hs hn x (map_panic h')
    case goPackageOption =>
      exfalso
      have h2 := map_panic h'
      cases n with
      | option a p cls f =>
        obtain ⟨_, ⟨⟨name, lit, hk⟩, _⟩, _⟩ := hg _ hn
        have hreg : ∃ gf, c.reg.registry goPackageField = some gf := by
          obtain ⟨cls', hcl⟩ := hs.classes ⟨0, []⟩ _ rfl
          obtain ⟨gf, hgf, _⟩ := hs.goPackage cls' hcl
          exact ⟨gf, hgf⟩
        obtain ⟨gf, hgf⟩ := hreg
        unfold goPackageOption at h2
        simp only [M.bind_apply, M.get_apply, hgf, hk] at h2
        split at h2 <;> cases h2
      | _ => cases h2
    case number =>
      cases n with
      | wrapped a k p =>
        cases k with
        | messageField =>
          have h2 := map_panic h'
          obtain ⟨kd, hk, e⟩ := handle_kind hr hn (by decide)
          unfold MessageField.value at h2
          simp only [M.bind_apply, M.get_apply, hk] at h2
          cases kd <;> cases e <;> cases h2
          simp [Query.misuse, PlainQ.misuse, hk]
        | enumValue =>
          have h2 := map_panic h'
          obtain ⟨kd, hk, e⟩ := handle_kind hr hn (by decide)
          unfold EnumValue.value at h2
          simp only [M.bind_apply, M.get_apply, hk] at h2
          cases kd <;> cases e
          cases h2
        | oneofBranch =>
          have h2 := map_panic h'
          obtain ⟨kd, hk, e⟩ := handle_kind hr hn (by decide)
          unfold OneOfBranch.value at h2
          simp only [M.bind_apply, M.get_apply, hk] at h2
          cases kd <;> cases e
          cases h2
        | _ => cases h'
      | _ => cases h'
    all_goals exact h80

/-- C114, calls that make sense return: what is no misuse gives a result, in every history with sound files. -/
theorem C114_returns {c n} (hc : CleanReachable ShapedFile c) (hs : SoundSchema c.reg) (hn : n ∈ c.pool) (q : Query)
    (hd : q.enough n.depth)
    (hv : ∀ F a o cls f, q = .plain (.optionValue F) → n = .option a o cls f → HasValue F c.reg o f)
    (hm : q.misuse c.reg n = []) : ∃ l r', q.run n c.reg = (.ok l, r') := by
  rcases h : q.run n c.reg with ⟨res, r'⟩
  cases res with
  | ok l => exact ⟨l, r', rfl⟩
  | panic x =>
    have := C114_sound hc hs hn q hd hv x (by rw [h])
    rw [hm] at this
    cases this
  | timeout => exact absurd (by rw [h]) (C79_terminates (clean_reachable hc) hn q hd)

end Protoast.Props
