import Verif.Spec.QuickStart
import Verif.Props.LintSteps
import Verif.Props.OptionName
import Verif.Props.Values
import Verif.Props.Outcome
import Verif.Props.LinterExamples
import Verif.Props.Meta
import Verif.Props.Parents
/-
  C93: the program of the README's "Quick Start".
-/
namespace Protoast.Props
open Protoast
open Protoast.QuickStart (Line OptionLine MessageLines Printable Printout Sets PrintedName Called FieldOf printOption printField
  printMessage show_)

/-! ### No step budget is involved in option values -/

theorem NT.wrap (v) : NT (wrap v) := by
  intro r
  unfold Protoast.wrap
  repeat' split
  all_goals simp

macro "nt_step" : tactic => `(tactic| first
  | exact NT.pure _ | exact NT.panic _ | exact NT.get | exact NT.alloc | exact NT.wrap _
  | refine NT.bind ?_ fun _ => ?_ | split)
macro "nt" : tactic => `(tactic| repeat' nt_step)

theorem NT.wrapAs (k p) : NT (wrapAs k p) := by unfold Protoast.wrapAs assertKind; nt
theorem NT.getTypeByName (f t) : NT (getTypeByName f t) := by unfold Protoast.getTypeByName lookupType; nt
theorem NT.firstKid (p k sel) : NT (firstKid p k sel) := by
  unfold Protoast.firstKid
  refine NT.bind NT.get fun r => ?_
  split
  · exact NT.bind (NT.wrapAs _ _) fun _ => NT.pure _
  · exact NT.pure _
theorem NT.enumValue (p n) : NT (Enum.value p n) := by unfold Enum.value; exact NT.firstKid _ _ _
theorem NT.messageField (p n) : NT (Message.field p n) := by unfold Message.field; exact NT.firstKid _ _ _

mutual
theorem NT.build (F : FloatOps) (op : Option Ptr) (f : Ptr) (ig : Bool) : (l : Literal) → NT (buildFromLiteral F op f ig l)
  | .mk pos source array om => by
    unfold buildFromLiteral
    refine NT.bind NT.get fun r => ?_
    split
    · split
      · exact NT.bind (NT.buildArray F f array) fun _ => NT.pure _
      · split
        all_goals first
          | exact NT.pure _
          | (split <;> first | exact NT.pure _ | exact NT.panic _)
          | skip
        refine NT.bind (NT.getTypeByName _ _) fun t => ?_
        split
        · refine NT.bind (NT.enumValue _ _) fun v => ?_
          split <;> first | exact NT.pure _ | exact NT.panic _
        · exact NT.bind (NT.buildItems F _ om) fun _ => NT.pure _
        · exact NT.panic _
    · exact NT.panic _
theorem NT.buildArray (F : FloatOps) (f : Ptr) : (ls : List Literal) → NT (buildArray F f ls)
  | [] => by unfold Protoast.buildArray; exact NT.pure _
  | l :: ls => by
    unfold Protoast.buildArray
    exact NT.bind (NT.build F none f true l) fun _ => NT.bind (NT.buildArray F f ls) fun _ => NT.pure _
theorem NT.buildItems (F : FloatOps) (m : Ptr) : (ls : List (Str × Literal)) → NT (buildItems F m ls)
  | [] => by unfold Protoast.buildItems; exact NT.pure _
  | l :: ls => by
    unfold Protoast.buildItems
    exact NT.bind (NT.buildItem F m l) fun _ => NT.bind (NT.buildItems F m ls) fun _ => NT.pure _
theorem NT.buildItem (F : FloatOps) (m : Ptr) : (x : Str × Literal) → NT (buildItem F m x)
  | (name, lit) => by
    unfold Protoast.buildItem
    refine NT.bind (NT.messageField _ _) fun t => ?_
    split
    · refine NT.bind NT.get fun r => ?_
      split
      · exact NT.bind (NT.build F none _ false lit) fun _ => NT.pure _
      · exact NT.panic _
    · exact NT.panic _
end

theorem NT.optionValue (F q f) : NT (Option.value F q f) := by
  unfold Option.value
  refine NT.bind NT.get fun r => ?_
  split
  · exact NT.build _ _ _ _ _
  · exact NT.panic _

/-! ### States of the run -/

/-- A state of the run after the file has been loaded. -/
def Running (r0 r : Reg) : Prop := CacheExt r0 r ∧ ∃ o, Inv o r

theorem binds_ext {r0 r : Reg} (hx : CacheExt r0 r) {s cls w f} : Binds r s cls w f ↔ Binds r0 s cls w f := by
  have hd : r.registry = r0.registry := hx.registry
  unfold Binds Refers Unresolved FieldNamed
  simp only [hx.kind_eq, hx.children_eq, hx.defined_eq, hx.registry]

theorem class_rooted {o r className cls} (hi : Inv o r) (h : ClassAt r className cls) :
    IsMessageAt r cls ∧ Rooted r cls := ⟨h.2, hi.regRooted _ _ h.1⟩

theorem bound_declared {r : Reg} (hN : Named r) {className s cls w f} (hcl : ClassAt r className cls)
    (hb : Binds r s cls w f) : ∃ x, Declared r x f := by
  rcases hb with ⟨h, _⟩ | ⟨_, h⟩
  · obtain ⟨x, _, hx⟩ := refers_resolve h
    exact ⟨x, hN.sound.names _ _ hx⟩
  · obtain ⟨b, c, d, g, hk⟩ := fieldNamed_kind h
    obtain ⟨n, e, hm⟩ := hcl.2
    have hp := fieldNamed_parent h
    exact ⟨_, predefined_declared (hN.sound.names _ _ hcl.1) hm ((predefined_iff (kind_path hk)).mpr hp) hk⟩

theorem name_ok {r0 r : Reg} (hN : Named r0) (hx : CacheExt r0 r) {C cls q f w lit n t sq rep opt}
    (hcl : ClassAt r0 C cls) (hq : r0.kind q = some (.option w lit))
    (hk : r0.kind f = some (.normalField n t sq rep opt)) :
    ∃ nm, Option.name q cls f r = (.ok nm, r) ∧ PrintedName r0 C cls f w nm := by
  have hpi := predefined_iff (cls := cls) (kind_path hk)
  by_cases hp : Predefined cls f
  · refine ⟨b!"(" ++ C ++ b!")." ++ n, ?_, .inl ⟨hp, n, ⟨_, hk, rfl⟩, rfl⟩⟩
    obtain ⟨x, e, hm⟩ := hcl.2
    have hsc := hN.scope _ _ (hN.sound.names _ _ hcl.1) (by intro _ _ h; rw [hm] at h; cases h)
    simp only [Option.name, M.bind_apply, M.get_apply, hpi.mp hp, if_true, hx.kind_eq, hk, hx.scope_eq, hsc, M.pure_apply]
  · refine ⟨w, ?_, .inr ⟨hp, rfl⟩⟩
    simp only [Option.name, M.bind_apply, M.get_apply, mt hpi.mpr hp, if_false, hx.kind_eq, hq, M.pure_apply]

theorem bound_field {r : Reg} {s cls w f} (h : Binds r s cls w f) :
    ∃ n t sq rep opt, r.kind f = some (.normalField n t sq rep opt) := by
  rcases h with ⟨_, h⟩ | ⟨_, h⟩
  · exact h
  · obtain ⟨b, c, d, g, h⟩ := fieldNamed_kind h; exact ⟨_, _, _, _, _, h⟩

/-- One round of the loop over the options. -/
theorem option_round {r0 r : Reg} (hN : Named r0) {C cls s q w lit F} (acc : List Line)
    (hcl : ClassAt r0 C cls) (hC : C = b!".google.protobuf.FileOptions") (hq : r0.kind q = some (.option w lit))
    (hu : Under r0 q) (hl : Running r0 r) :
    ((∃ f v, Sets F r0 s cls (q, w) f v) ∧ ∃ l r', (do let o ← newOption s cls q; printOption F acc o) r =
        (.ok (acc ++ [l], true), r') ∧ Running r0 r' ∧ OptionLine F r0 s cls (q, w) l) ∨
    ((¬ ∃ f v, Sets F r0 s cls (q, w) f v) ∧ ∃ e r', (do let o ← newOption s cls q; printOption F acc o) r =
        (.panic e, r')) := by
  obtain ⟨hx, o, hi⟩ := hl
  have hq' : r.kind q = some (.option w lit) := by rw [hx.kind_eq]; exact hq
  have hcl' : ClassAt r C cls := by
    unfold ClassAt
    rw [hx.registry, hx.kind_eq]
    exact hcl
  have hu' : Under r q := by
    unfold Under Rooted Reg.elem at hu ⊢
    rw [hx.heap]
    exact hu
  simp only [M.bind_apply]
  by_cases hb : ∃ f, Binds r0 s cls w f
  · obtain ⟨f, hb⟩ := hb
    have hb' := (binds_ext hx).mpr hb
    obtain ⟨o1, _, hi1, _⟩ := newOption_tri (s := s) hi (class_rooted hi hcl') hu'
    have e1 := newOption_binds hq' hb'
    rw [e1] at hi1
    simp only [e1]
    have hx1 : CacheExt r0 { r with next := r.next + 1 } :=
      hx.trans ⟨rfl, rfl, rfl, rfl, fun _ _ h => h, fun _ _ h => h, Nat.le_succ _, fun _ _ _ _ h => .inl h⟩
    obtain ⟨n, t, sq, rep, opt, hk⟩ := bound_field hb
    obtain ⟨nm, e2, hnm⟩ := name_ok hN hx1 hcl hq hk
    obtain ⟨x, hd⟩ := bound_declared hN hcl hb
    have hq1 : Reg.kind { r with next := r.next + 1 } q = some (.option w lit) := by rw [hx1.kind_eq]; exact hq
    have ev : Option.value F q f { r with next := r.next + 1 } =
        buildFromLiteral F (some q) f false lit { r with next := r.next + 1 } := by
      simp only [Option.value, M.bind_apply, M.get_apply, hq1]
    rcases hv : Option.value F q f { r with next := r.next + 1 } with ⟨res, r2⟩
    cases res with
    | ok v =>
      have hs : Sets F r0 s cls (q, w) f v :=
        ⟨hb, lit, hq, (build_sound F hN lit _ _ _ o1 _ _ _ _ hi1 hx1 hd (ev ▸ hv)).2 rfl⟩
      refine .inl ⟨⟨f, v, hs⟩, .option nm v, r2, ?_, ⟨?_, ?_⟩, f, v, nm, hs, hC ▸ hnm, rfl⟩
      · simp only [printOption, M.bind_apply, e2, hv, M.pure_apply]
      · have := (RO.optionValue F q f).ext { r with next := r.next + 1 }
        rw [hv] at this
        exact hx1.trans this
      · have hu1 : Under { r with next := r.next + 1 } q := hu'
        obtain ⟨o2, _, hi2, _⟩ := optionValue_tri hi1 F f hu1
        rw [hv] at hi2
        exact ⟨o2, hi2⟩
    | panic e =>
      refine .inr ⟨?_, e, r2, by simp only [printOption, M.bind_apply, e2, hv]⟩
      rintro ⟨f', v, hb2, lit', hq2, hfv⟩
      have : f' = f := hb2.unique hb
      subst this
      simp only at hq2
      rw [hq] at hq2
      cases hq2
      obtain ⟨v', r', h1, _⟩ := buildField_complete F ⟨fun _ _ h => h, fun _ _ _ h => h, fun _ h => h, fun _ _ _ h => h,
        fun _ _ h => h, fun _ h => h, fun _ h => h⟩ hN lit _ _ _ o1 _ hi1 hx1 hfv
      rw [← ev, hv] at h1
      cases h1
    | timeout =>
      have := NT.optionValue F q f { r with next := r.next + 1 }
      rw [hv] at this
      exact absurd rfl this
  · refine .inr ⟨fun ⟨f, v, h⟩ => hb ⟨f, h.1⟩, ?_⟩
    obtain ⟨e, r', h⟩ := panics (m := newOption s cls q) (r := r) (newOption_no_timeout _ _ _) (by
      intro n r' h
      obtain ⟨w', l', f, hk', hbb, _, _⟩ := newOption_ok h
      rw [hq'] at hk'
      cases hk'
      exact hb ⟨f, (binds_ext hx).mp hbb⟩)
    exact ⟨e, r', by simp only [h]⟩

/-- The computations of `Options`. -/
def optionPick (s : Str) (cls : Ptr) (q : Ptr) (k : Kind) : Option (M Node) :=
  match k with
  | .option _ _ => some (newOption s cls q)
  | _ => none

theorem options_loop {r0 : Reg} (hN : Named r0) {C cls s F} (hcl : ClassAt r0 C cls)
    (hC : C = b!".google.protobuf.FileOptions") : ∀ (l : List (Ptr × Elem)) r acc, Present r0 l → Running r0 r →
    ((∀ x ∈ l.filterMap optionOf, ∃ f v, Sets F r0 s cls x f v) ∧ ∃ ls r',
      runSteps (printOption F) (stepsOf (optionPick s cls) l) acc r = (.ok (acc ++ ls), r') ∧ Running r0 r' ∧
      Matching (OptionLine F r0 s cls) (l.filterMap optionOf) ls) ∨
    ((¬ ∀ x ∈ l.filterMap optionOf, ∃ f v, Sets F r0 s cls x f v) ∧ ∃ e r',
      runSteps (printOption F) (stepsOf (optionPick s cls) l) acc r = (.panic e, r')) := by
  intro l
  induction l with
  | nil =>
    intro r acc _ hl
    exact .inl ⟨by simp, [], r, by simp [stepsOf, runSteps], hl, .nil⟩
  | cons x l ih =>
    intro r acc hp hl
    have hpx := hp x (by simp)
    have hpl : Present r0 l := fun y hy => hp y (List.mem_cons_of_mem _ hy)
    cases ho : optionOf x with
    | none =>
      have hs : optionPick s cls x.1 x.2.kind = none := by
        unfold optionOf at ho
        unfold optionPick
        split at ho
        · cases ho
        · next h => split
                    · next h1 => exact absurd h1 (h _ _)
                    · rfl
      rw [stepsOf_none hs, List.filterMap_cons_none ho]
      exact ih r acc hpl hl
    | some y =>
      obtain ⟨w, lit, hk, rfl⟩ : ∃ w lit, x.2.kind = .option w lit ∧ y = (x.1, w) := by
        unfold optionOf at ho
        split at ho
        · next w lit h => cases ho; exact ⟨w, lit, h, rfl⟩
        · cases ho
      have hs : optionPick s cls x.1 x.2.kind = some (newOption s cls x.1) := by
        unfold optionPick
        rw [hk]
      have hq : r0.kind x.1 = some (.option w lit) := by simp only [Reg.kind, hpx.1, Option.map_some, hk]
      rw [stepsOf_some hs, List.filterMap_cons_some ho]
      rcases option_round (s := s) (F := F) hN acc hcl hC hq hpx.2 hl with
        ⟨hs1, ln, r1, e1, hl1, hln⟩ | ⟨hs1, e, r1, e1⟩
      · have e2 : runSteps (printOption F) (newOption s cls x.1 :: stepsOf (optionPick s cls) l) acc r =
            runSteps (printOption F) (stepsOf (optionPick s cls) l) (acc ++ [ln]) r1 := by
          simp only [M.bind_apply] at e1
          simp only [runSteps, M.bind_apply]
          rcases hn : newOption s cls x.1 r with ⟨res, r2⟩
          rw [hn] at e1
          cases res with
          | ok n => simp only at e1 ⊢; rw [e1]; rfl
          | panic e => cases e1
          | timeout => cases e1
        rw [e2]
        rcases ih r1 (acc ++ [ln]) hpl hl1 with ⟨h1, ls, r', h2, h3, h4⟩ | ⟨h1, e, r', h2⟩
        · refine .inl ⟨?_, ln :: ls, r', by rw [h2]; simp, h3, .cons hln h4⟩
          intro z hz
          rcases List.mem_cons.mp hz with rfl | hz
          · exact hs1
          · exact h1 z hz
        · exact .inr ⟨fun h => h1 fun z hz => h z (List.mem_cons_of_mem _ hz), e, r', h2⟩
      · refine .inr ⟨fun h => hs1 (h _ (by simp)), e, r1, ?_⟩
        simp only [M.bind_apply] at e1
        simp only [runSteps, M.bind_apply]
        rcases hn : newOption s cls x.1 r with ⟨res, r2⟩
        rw [hn] at e1
        cases res with
        | ok n => simp only at e1 ⊢; rw [e1]
        | panic e => cases e1; rfl
        | timeout => cases e1

/-! ### Loops over declarations -/

theorem decl_loop {r0 : Reg} {σ : Type} {p pick sel} {body : σ → Node → M (σ × Bool)} {T : Ptr → σ → σ → Prop}
    (hw : Wraps pick sel) (hseq : ROSeq (overKids p pick))
    (hbody : ∀ s r a k p', Running r0 r → (k, p') ∈ membersOf r0 p sel → Rooted r0 p' →
      ∃ s' r', body s (.wrapped a k p') r = (.ok (s', true), r') ∧ Running r0 r' ∧ T p' s s') :
    ∀ (l : List (Ptr × Elem)) r s, (∀ x ∈ l, x ∈ r0.kids p) → Present r0 l → Running r0 r →
      ∃ s' r', runSteps body (stepsOf pick l) s r = (.ok s', r') ∧ Running r0 r' ∧
        Chain T ((l.filterMap fun x => (sel x.2.kind).map fun k => (k, x.1)).map (·.2)) s s' := by
  intro l
  induction l with
  | nil => intro r s _ _ hl; exact ⟨s, r, rfl, hl, .nil⟩
  | cons x l ih =>
    intro r s hin hp hl
    have hs := hw.2 x.1 x.2.kind
    have hin' : ∀ y ∈ l, y ∈ r0.kids p := fun y hy => hin y (List.mem_cons_of_mem _ hy)
    have hpl : Present r0 l := fun y hy => hp y (List.mem_cons_of_mem _ hy)
    rw [List.filterMap_cons]
    cases hsel : sel x.2.kind with
    | none =>
      rw [hsel] at hs
      rw [stepsOf_none hs]
      simpa using ih r s hin' hpl hl
    | some k =>
      rw [hsel] at hs
      obtain ⟨m, hm, hok⟩ := hs
      rw [stepsOf_some hm]
      obtain ⟨hx, o, hi⟩ := hl
      have hpx := hp x (by simp)
      have hel : r.elem x.1 = some x.2 := by
        unfold Reg.elem
        rw [hx.heap]
        exact hpx.1
      have hu : Under r x.1 := by
        unfold Under Rooted Reg.elem
        rw [hx.heap]
        exact hpx.2
      obtain ⟨a, o1, r1, e1, _, i1, g1⟩ := hok o r hi (target_of_elem hel (hw.1 _ _ hsel)) hu
      have hro : RO m := hseq.2 r0 (stepsOf pick (r0.kids p)) r0 rfl m
        (List.mem_filterMap.mpr ⟨x, hin x (by simp), hm⟩)
      have hx1 : CacheExt r0 r1 := by
        have := hro.ext r
        rw [e1] at this
        exact hx.trans this
      have hroot : Rooted r0 x.1 := hpx.2.rooted (target_of_elem hpx.1 (hw.1 _ _ hsel))
      obtain ⟨s1, r2, e2, hl2, hT⟩ := hbody s r1 a k x.1 ⟨hx1, o1, i1⟩
        (by rw [membersOf_kids, List.mem_filterMap]; exact ⟨x, hin x (by simp), by simp [hsel]⟩) hroot
      obtain ⟨s', r', h1, h2, h3⟩ := ih r2 s1 hin' hpl hl2
      refine ⟨s', r', ?_, h2, ?_⟩
      · simp only [runSteps, M.bind_apply, e1, e2, if_true]
        exact h1
      · simp only [Option.map_some, List.map_cons]
        exact .cons hT h3

theorem decl_run {r0 r : Reg} {σ : Type} {p seq sel} {body : σ → Node → M (σ × Bool)} {T : Ptr → σ → σ → Prop} {s : σ}
    (hshape : IterShape seq p sel) (hseq : ROSeq seq) (hroot : Rooted r0 p)
    (hbody : ∀ s r a k p', Running r0 r → (k, p') ∈ membersOf r0 p sel → Rooted r0 p' →
      ∃ s' r', body s (.wrapped a k p') r = (.ok (s', true), r') ∧ Running r0 r' ∧ T p' s s') (hl : Running r0 r) :
    ∃ s' r', seq.run body s r = (.ok s', r') ∧ Running r0 r' ∧ Chain T ((membersOf r0 p sel).map (·.2)) s s' := by
  obtain ⟨pick, rfl, hw⟩ := hshape
  rw [membersOf_kids]
  obtain ⟨s', r', h1, h2, h3⟩ := decl_loop hw hseq hbody (r0.kids p) r s (fun _ h => h) (present_kids hroot) hl
  refine ⟨s', r', ?_, h2, h3⟩
  simp only [Seq.run, M.bind_apply, overKids_apply, hl.1.kids_eq]
  exact h1

theorem chain_append {T : Ptr → List Line → List Line → Prop} {β : Type} {R : Ptr → β → Prop} {g : β → List Line}
    (hT : ∀ p s s', T p s s' → ∃ b, R p b ∧ s' = s ++ g b) :
    ∀ {ps s s'}, Chain T ps s s' → ∃ bs, Matching R ps bs ∧ s' = s ++ (bs.map g).flatten := by
  intro ps s s' h
  induction h with
  | nil => exact ⟨[], .nil, by simp⟩
  | cons h _ ih =>
    obtain ⟨b, hb, rfl⟩ := hT _ _ _ h
    obtain ⟨bs, hbs, rfl⟩ := ih
    exact ⟨b :: bs, .cons hb hbs, by simp⟩

theorem member_kind {r : Reg} {p sel k p'} (h : (k, p') ∈ membersOf r p sel) :
    ∃ kd, r.kind p' = some kd ∧ sel kd = some k := by
  rw [membersOf_kids, List.mem_filterMap] at h
  obtain ⟨x, hx, hk⟩ := h
  rw [Option.map_eq_some_iff] at hk
  obtain ⟨k', hk, e⟩ := hk
  cases e
  exact ⟨x.2.kind, by simp only [Reg.kind, kids_elem _ _ _ hx, Option.map_some], hk⟩

theorem matching_mono {α β : Type} {R S : α → β → Prop} (h : ∀ a b, R a b → S a b) {as : List α} {bs : List β}
    (hm : Matching R as bs) : Matching S as bs := by
  induction hm with
  | nil => exact .nil
  | cons h1 _ ih => exact .cons (h _ _ h1) ih

theorem flatten_single {α β : Type} (g : α → β) (l : List α) : (l.map fun n => [g n]).flatten = l.map g := by
  induction l with
  | nil => rfl
  | cons a l ih => simp [ih]

/-- One round of the loop over the messages. -/
theorem message_round {r0 : Reg} {p : Ptr} (s : List Line) (r : Reg) (a : Nat) (k : WKind) (m : Ptr) (hl : Running r0 r)
    (hm : (k, m) ∈ membersOf r0 p messageSel) (hroot : Rooted r0 m) :
    ∃ s' r', printMessage s (.wrapped a k m) r = (.ok (s', true), r') ∧ Running r0 r' ∧
      ∃ ls, MessageLines r0 m ls ∧ s' = s ++ ls := by
  obtain ⟨kd, hk, hsel⟩ := member_kind hm
  unfold messageSel at hsel
  split at hsel <;> cases hsel
  next mn =>
  have hname : ∀ r, Running r0 r → Message.name m r = (.ok mn, r) := by
    intro r hl
    simp only [Message.name, M.bind_apply, M.get_apply, hl.1.kind_eq, hk, M.pure_apply]
  obtain ⟨s', r', h1, h2, h3⟩ := decl_run (r := r) (s := s ++ [.message mn]) (body := printField m)
    (T := fun p' s s' => ∃ n, Called r0 p' n ∧ s' = s ++ [.field mn n]) (shape_fields m) (ROSeq.messageFields m) hroot
    (by
      intro s r a k p' hl hp' _
      obtain ⟨kd, hk', hsel⟩ := member_kind hp'
      unfold fieldSel at hsel
      split at hsel <;> cases hsel
      all_goals
        refine ⟨_, r, ?_, hl, _, ⟨_, hk', rfl⟩, rfl⟩
        simp only [printField, M.bind_apply, hname r hl, MessageField.name, M.get_apply, hl.1.kind_eq, hk', M.pure_apply])
    hl
  obtain ⟨ns, hns, e⟩ := chain_append (R := Called r0) (g := fun n => [Line.field mn n]) (fun _ _ _ h => h) h3
  refine ⟨s', r', ?_, h2, .message mn :: ns.map (Line.field mn), ⟨mn, ns, ⟨_, hk, rfl⟩, hns, rfl⟩, ?_⟩
  · simp only [printMessage, M.bind_apply, hname r hl, h1, M.pure_apply]
  · rw [e]
    rw [flatten_single]
    simp

/-! ### The program -/

theorem seqOptions_apply {s C : Str} {p : Ptr} {r : Reg} :
    (∀ cls, ClassAt r C cls → seqOptions s C p r = (.ok (overKids p (optionPick s cls)), r)) ∧
    ((∀ cls, ¬ ClassAt r C cls) → ∃ e r', seqOptions s C p r = (.panic e, r')) := by
  constructor
  · intro cls h
    unfold seqOptions
    simp only [M.bind_apply, optionClass_ok h, M.pure_apply]
    rfl
  · intro h
    refine panics (NT.bind (optionClass_no_timeout _) fun _ => NT.pure _) ?_
    intro x r' e
    unfold seqOptions at e
    simp only [M.bind_apply] at e
    rcases hc : optionClass C r with ⟨res, r1⟩
    rw [hc] at e
    cases res with
    | ok cls =>
      unfold optionClass at hc
      simp only [M.bind_apply, M.get_apply] at hc
      rcases hq : r.registry C with _ | q
      · rw [hq] at hc; cases hc
      · rw [hq] at hc
        simp only at hc
        rcases hk : r.kind q with _ | kd
        · rw [hk] at hc; cases hc
        · rw [hk] at hc
          cases kd <;> simp only [M.panic_apply, M.pure_apply, Prod.mk.injEq, Res.ok.injEq, reduceCtorEq, false_and] at hc
          exact h q ⟨hq, _, _, hk⟩
    | panic e' => cases e
    | timeout => cases e

/-- What the program does once its file is loaded. -/
theorem show_loaded {W fuel F path r n r0} (hc : CleanReachable WFFile ⟨r, []⟩) (hW : W.Sat WFFile)
    (hp : proto W fuel path r = (.ok (.ok n), r0)) : ∃ i, r0.protos path = some i ∧
    ((Printable F r0 i ∧ ∃ ls r', show_ W fuel F path r = (.ok (.ok ls), r') ∧ Printout F r0 path ls) ∨
      (¬ Printable F r0 i ∧ ∃ e r', show_ W fuel F path r = (.panic e, r'))) := by
  have hc0 : CleanReachable WFFile ⟨r0, [n]⟩ := by simpa using clean_proto hc hW hp
  obtain ⟨a, i, rfl, hpi⟩ := proto_file hp
  refine ⟨i, hpi, ?_⟩
  have hN : Named r0 := named_of_clean hc0
  obtain ⟨o, hi, hg⟩ := reachable_inv (clean_reachable hc0)
  obtain ⟨fo, hf, hfn⟩ := hi.protosHeap _ _ hpi
  have hl0 : Running r0 r0 := ⟨CacheExt.refl _, o, hi⟩
  have hch : r0.children ⟨i, []⟩ = some fo.elems := by simp [Reg.children, hf, ProtoFile.childrenAt]
  have hroot : Rooted r0 ⟨i, []⟩ := ⟨fo, hf, trivial⟩
  have hname : File.name ⟨i, []⟩ r0 = (.ok path, r0) := by
    simp only [File.name, M.bind_apply, M.get_apply, hf, hfn, M.pure_apply]
  have hpkg : File.package ⟨i, []⟩ r0 = (.ok (firstPackage fo.elems), r0) := by
    simp only [File.package, M.bind_apply, M.get_apply, hch, Option.getD_some, M.pure_apply]
  obtain ⟨s', hopt, _, hd⟩ := lookup_scope (n := .wrapped a .file ⟨i, []⟩) (s := packageDot fo.elems) hc0 (by simp) rfl
    ⟨_, hch, rfl⟩
  have hsets : ∀ cls x f v, Sets F r0 s' cls x f v ↔ Sets F r0 (packageDot fo.elems) cls x f v := by
    intro cls x f v
    exact ⟨fun h => ⟨h.1.scope_congr hd, h.2⟩, fun h => ⟨h.1.scope_congr hd.symm, h.2⟩⟩
  simp only at hopt
  by_cases hcl : ∃ cls, ClassAt r0 b!".google.protobuf.FileOptions" cls
  · obtain ⟨cls, hcl⟩ := hcl
    have hpr : Printable F r0 i ↔ ∀ x ∈ (r0.kids ⟨i, []⟩).filterMap optionOf, ∃ f v, Sets F r0 s' cls x f v := by
      constructor
      · rintro ⟨cls', es, h1, h2, h3⟩ x hx
        have : cls' = cls := by
          have := h1.1
          rw [hcl.1] at this
          cases this
          rfl
        subst this
        rw [hch] at h2
        cases h2
        rw [optionsOf_kids] at h3
        obtain ⟨f, v, h⟩ := h3 x hx
        exact ⟨f, v, (hsets _ _ _ _).mpr h⟩
      · intro h
        refine ⟨cls, fo.elems, hcl, hch, ?_⟩
        intro x hx
        rw [optionsOf_kids] at hx
        obtain ⟨f, v, h⟩ := h x hx
        exact ⟨f, v, (hsets _ _ _ _).mp h⟩
    have hseq := (seqOptions_apply (s := s') (p := ⟨i, []⟩)).1 cls hcl
    have hrun : ∀ acc r', Seq.run (overKids ⟨i, []⟩ (optionPick s' cls)) (printOption F) acc r0 = r' ↔
        runSteps (printOption F) (stepsOf (optionPick s' cls) (r0.kids ⟨i, []⟩)) acc r0 = r' := by
      intro acc r'
      simp only [Seq.run, M.bind_apply, overKids_apply]
      exact Iff.rfl
    rcases options_loop (s := s') (F := F) hN hcl rfl (r0.kids ⟨i, []⟩) r0 [.file path (firstPackage fo.elems)]
      (present_kids hroot) hl0 with ⟨h1, ls, r1, h2, h3, h4⟩ | ⟨h1, e, r1, h2⟩
    · obtain ⟨s2, r2, g1, g2, g3⟩ := decl_run (s := [.file path (firstPackage fo.elems)] ++ ls) (shape_fileMessages ⟨i, []⟩)
        (ROSeq.fileMessages _) hroot (fun s r a k m => message_round s r a k m) h3
      obtain ⟨mls, g4, g5⟩ := chain_append (R := MessageLines r0) (g := id) (fun _ _ _ h => h) g3
      refine .inl ⟨hpr.mpr h1, s2, r2, ?_, i, fo.elems, cls, ls, mls, hpi, hch, hcl, ?_, g4, ?_⟩
      · simp only [show_, M.bind_apply, hp, hname, hpkg, hopt, hseq, (hrun _ _).mpr h2, g1, M.pure_apply]
      · rw [optionsOf_kids]
        refine matching_mono ?_ h4
        rintro x l ⟨f, v, nm, k1, k2, k3⟩
        exact ⟨f, v, nm, (hsets _ _ _ _).mp k1, k2, k3⟩
      · rw [g5, firstPackage_eq]; simp
    · refine .inr ⟨mt hpr.mp h1, e, r1, ?_⟩
      simp only [show_, M.bind_apply, hp, hname, hpkg, hopt, hseq, (hrun _ _).mpr h2]
  · obtain ⟨e, r', he⟩ := (seqOptions_apply (s := s') (p := ⟨i, []⟩)).2 (fun cls h => hcl ⟨cls, h⟩)
    refine .inr ⟨fun ⟨cls, _, h, _⟩ => hcl ⟨cls, h⟩, e, r', ?_⟩
    simp only [show_, M.bind_apply, hp, hname, hpkg, hopt, he]

/-- C93: once the file is loaded, the program prints its name and package, one line per option with the right name and
    value, and one line per message followed by one per field, in source order; it gets through if and only if every option
    of the file sets a field to an acceptable value, and panics if not. -/
theorem C93_report {W fuel F path r n r0} (hW : W.Sat WFFile) (hn : newRegistry W fuel = (.ok (.ok ()), r))
    (hp : proto W fuel path r = (.ok (.ok n), r0)) :
    (∀ ls r', QuickStart.main W fuel F path = (.ok (.ok ls), r') → Printout F r0 path ls) ∧
    ((∃ ls r', QuickStart.main W fuel F path = (.ok (.ok ls), r')) ↔ ∃ i, r0.protos path = some i ∧ Printable F r0 i) ∧
    ((∃ e r', QuickStart.main W fuel F path = (.panic e, r')) ↔ ¬ ∃ i, r0.protos path = some i ∧ Printable F r0 i) := by
  have hc : CleanReachable WFFile ⟨r, []⟩ := ⟨W, fuel, r, [], hW, hn, by simp, trivial, rfl⟩
  have hm : QuickStart.main W fuel F path = show_ W fuel F path r := by unfold QuickStart.main; rw [hn]
  rw [hm]
  obtain ⟨i, hi, ⟨h1, ls, r', h2, h3⟩ | ⟨h1, e, r', h2⟩⟩ := show_loaded (F := F) hc hW hp
  · rw [h2]
    refine ⟨?_, ⟨fun _ => ⟨i, hi, h1⟩, fun _ => ⟨ls, r', rfl⟩⟩, ?_, ?_⟩
    · intro ls' r'' h; cases h; exact h3
    · rintro ⟨e, r'', h⟩; cases h
    · intro h; exact absurd ⟨i, hi, h1⟩ h
  · rw [h2]
    have hno : ¬ ∃ i, r0.protos path = some i ∧ Printable F r0 i := by
      rintro ⟨j, hj, h⟩
      rw [hi] at hj
      cases hj
      exact h1 h
    refine ⟨?_, ⟨?_, fun h => absurd h hno⟩, fun _ => hno, fun _ => ⟨e, r', rfl⟩⟩
    · intro ls' r'' h; cases h
    · rintro ⟨ls', r'', h⟩; cases h

theorem new_contents {W fuel r} (hW : W.Sat WFFile) (h : newRegistry W fuel = (.ok (.ok ()), r)) {path elems} :
    Contents r W path elems ↔ Readable W path elems := by
  have hc : CleanReachable WFFile ⟨r, []⟩ := ⟨W, fuel, r, [], hW, h, by simp, trivial, rfl⟩
  obtain ⟨o, hi, -⟩ := reachable_inv (clean_reachable hc)
  have key : ∀ s i, r.protos s = some i → ∃ f, r.heap[i]? = some f ∧ Readable W s f.elems := by
    intro s i hs
    obtain ⟨f, hf, hfn⟩ := hi.protosHeap _ _ hs
    exact ⟨f, hf, by rw [← hfn]; exact newRegistry_newFrom h i f (Nat.zero_le _) hf⟩
  constructor
  · rintro (⟨i, f, h1, h2, rfl⟩ | ⟨_, h⟩)
    · obtain ⟨f', h3, h4⟩ := key _ _ h1
      rw [h2] at h3
      cases h3
      exact h4
    · exact h
  · intro hrd
    cases hp : r.protos path with
    | none => exact .inr ⟨hp, hrd⟩
    | some i =>
      obtain ⟨f, h3, h4⟩ := key _ _ hp
      exact .inl ⟨i, f, hp, h3, readable_unique h4 hrd⟩

theorem new_reach {W fuel r} (hW : W.Sat WFFile) (h : newRegistry W fuel = (.ok (.ok ()), r)) {path q} :
    WorldReach r W path q ↔ WorldReach Reg.empty W path q := by
  constructor
  · intro g
    induction g with
    | refl => exact .refl _
    | step _ h2 h3 ih => exact .step ih (empty_contents.mpr ((new_contents hW h).mp h2)) h3
  · intro g
    induction g with
    | refl => exact .refl _
    | step _ h2 h3 ih => exact .step ih ((new_contents hW h).mpr (empty_contents.mp h2)) h3

/-- Every file in the import closure of `path` can be found, read and parsed. -/
def ClosureReadable (W : World) (path : Str) : Prop :=
  ∀ q, WorldReach Reg.empty W path q → ∃ elems, Readable W q elems

theorem quick_start_ends {W U fuel F path} (hW : W.Sat WFFile) (hU : ImportClosed W U) (hd : descriptorPath ∈ U) (hp : path ∈ U)
    (hf : U.length ≤ fuel) :
    (QuickStart.main W fuel F path).1 ≠ .timeout ∧
    ((∃ e r', QuickStart.main W fuel F path = (.ok (.error (.noRegistry e)), r')) ↔
      ∀ elems, ¬ Readable W descriptorPath elems) ∧
    ((∃ e r', QuickStart.main W fuel F path = (.ok (.error (.noFile e)), r')) ↔
      ClosureReadable W descriptorPath ∧ ∀ elems, ¬ Readable W path elems) ∧
    (ClosureReadable W descriptorPath ∧ ClosureReadable W path ↔
      ∃ r n r0, newRegistry W fuel = (.ok (.ok ()), r) ∧ proto W fuel path r = (.ok (.ok n), r0)) ∧
    ((∃ ls r', QuickStart.main W fuel F path = (.ok (.ok ls), r')) →
      ClosureReadable W descriptorPath ∧ ClosureReadable W path) := by
  obtain ⟨n1, n2, n3⟩ := C64_new_registry hW hU hd hf
  rcases hn : newRegistry W fuel with ⟨res, r⟩
  cases res with
  | timeout => exact absurd (congrArg Prod.fst hn) (newRegistry_fuel hU hd hf).1
  | panic e =>
    have hm : QuickStart.main W fuel F path = (.panic e, r) := by simp only [QuickStart.main, hn]
    have hno : ¬ ClosureReadable W descriptorPath := fun h => by
      obtain ⟨r', h⟩ := n3.mpr h; rw [hn] at h; cases h
    have hrd : ∃ elems, Readable W descriptorPath elems := (n2.mp ⟨e, r, hn⟩).1
    rw [hm]
    refine ⟨by simp, ⟨?_, ?_⟩, ⟨?_, ?_⟩, ⟨?_, ?_⟩, ?_⟩
    · rintro ⟨_, _, h⟩; cases h
    · intro h; obtain ⟨el, he⟩ := hrd; exact absurd he (h el)
    · rintro ⟨_, _, h⟩; cases h
    · rintro ⟨h, _⟩; exact absurd h hno
    · rintro ⟨h, _⟩; exact absurd h hno
    · rintro ⟨r', _, _, h, _⟩; cases h
    · rintro ⟨_, _, h⟩; cases h
  | ok x =>
    cases x with
    | error e =>
      have hm : QuickStart.main W fuel F path = (.ok (.error (.noRegistry e)), r) := by simp only [QuickStart.main, hn]
      have hno := n1.mp ⟨e, r, hn⟩
      have hnc : ¬ ClosureReadable W descriptorPath := fun h => by
        obtain ⟨el, he⟩ := h _ (.refl _); exact hno el he
      rw [hm]
      refine ⟨by simp, ⟨fun _ => hno, fun _ => ⟨e, r, rfl⟩⟩, ⟨?_, ?_⟩, ⟨?_, ?_⟩, ?_⟩
      · rintro ⟨_, _, h⟩; cases h
      · rintro ⟨h, _⟩; exact absurd h hnc
      · rintro ⟨h, _⟩; exact absurd h hnc
      · rintro ⟨r', _, _, h, _⟩; cases h
      · rintro ⟨_, _, h⟩; cases h
    | ok u =>
      have hc : CleanReachable WFFile ⟨r, []⟩ := ⟨W, fuel, r, [], hW, hn, by simp, trivial, rfl⟩
      have hcl : ClosureReadable W descriptorPath := n3.mp ⟨r, hn⟩
      obtain ⟨o1, o2, o3⟩ := C64_outcome (c := ⟨r, []⟩) hc hW hU hp hf
      have ht := (proto_fuel hU hp r hf).1
      simp only [new_contents hW hn, new_reach hW hn] at o1 o2 o3
      have hrd : ¬ ∀ elems, ¬ Readable W descriptorPath elems := fun h => by
        obtain ⟨el, he⟩ := hcl _ (.refl _); exact h el he
      have hm : QuickStart.main W fuel F path = show_ W fuel F path r := by simp only [QuickStart.main, hn]
      rw [hm]
      rcases hpr : proto W fuel path r with ⟨pres, r0⟩
      have hs : ∀ e r', show_ W fuel F path r ≠ (.ok (.error (.noRegistry e)), r') := by
        intro e r' h
        cases pres with
        | ok y =>
          cases y with
          | error e' => simp only [show_, M.bind_apply, hpr, M.pure_apply] at h; cases h
          | ok n =>
            obtain ⟨i, _, ⟨_, ls, r2, h2, _⟩ | ⟨_, e2, r2, h2⟩⟩ := show_loaded (F := F) hc hW hpr
            · rw [h2] at h; cases h
            · rw [h2] at h; cases h
        | panic e' => simp only [show_, M.bind_apply, hpr] at h; cases h
        | timeout => simp only [show_, M.bind_apply, hpr] at h; cases h
      cases pres with
      | timeout => exact absurd (congrArg Prod.fst hpr) ht
      | panic e =>
        have hm2 : show_ W fuel F path r = (.panic e, r0) := by simp only [show_, M.bind_apply, hpr]
        obtain ⟨hr1, q, hq1, hq2⟩ := o2.mp ⟨e, r0, hpr⟩
        have hno : ¬ ClosureReadable W path := fun h => by obtain ⟨el, he⟩ := h q hq1; exact hq2 el he
        rw [hm2]
        refine ⟨by simp, ⟨?_, fun h => absurd h hrd⟩, ⟨?_, ?_⟩, ⟨?_, ?_⟩, ?_⟩
        · rintro ⟨_, _, h⟩; cases h
        · rintro ⟨_, _, h⟩; cases h
        · rintro ⟨_, h⟩; obtain ⟨el, he⟩ := hr1; exact absurd he (h el)
        · rintro ⟨_, h⟩; exact absurd h hno
        · rintro ⟨r', n, r2, h, g⟩; cases h; rw [hpr] at g; cases g
        · rintro ⟨_, _, h⟩; cases h
      | ok y =>
        cases y with
        | error e =>
          have hm2 : show_ W fuel F path r = (.ok (.error (.noFile e)), r0) := by
            simp only [show_, M.bind_apply, hpr, M.pure_apply]
          have hno := o1.mp ⟨e, r0, hpr⟩
          have hnc : ¬ ClosureReadable W path := fun h => by
            obtain ⟨el, he⟩ := h _ (.refl _); exact hno el he
          rw [hm2]
          refine ⟨by simp, ⟨?_, fun h => absurd h hrd⟩, ⟨fun _ => ⟨hcl, hno⟩, fun _ => ⟨e, r0, rfl⟩⟩, ⟨?_, ?_⟩, ?_⟩
          · rintro ⟨_, _, h⟩; cases h
          · rintro ⟨_, h⟩; exact absurd h hnc
          · rintro ⟨r', n, r2, h, g⟩; cases h; rw [hpr] at g; cases g
          · rintro ⟨_, _, h⟩; cases h
        | ok n =>
          have hcp : ClosureReadable W path := o3.mp ⟨n, r0, hpr⟩
          have hrp : ¬ ∀ elems, ¬ Readable W path elems := fun h => by
            obtain ⟨el, he⟩ := hcp _ (.refl _); exact h el he
          refine ⟨?_, ⟨?_, fun h => absurd h hrd⟩, ⟨?_, ?_⟩, ⟨fun _ => ⟨r, n, r0, rfl, hpr⟩, fun _ => ⟨hcl, hcp⟩⟩,
            fun _ => ⟨hcl, hcp⟩⟩
          · obtain ⟨i, _, ⟨_, ls, r2, h2, _⟩ | ⟨_, e2, r2, h2⟩⟩ := show_loaded (F := F) hc hW hpr
            · rw [h2]; simp
            · rw [h2]; simp
          · rintro ⟨e, r', h⟩; exact absurd h (hs e r')
          · rintro ⟨e, r', h⟩
            obtain ⟨i, _, ⟨_, ls, r2, h2, _⟩ | ⟨_, e2, r2, h2⟩⟩ := show_loaded (F := F) hc hW hpr
            · rw [h2] at h; cases h
            · rw [h2] at h; cases h
          · rintro ⟨_, h⟩; exact absurd h hrp

/-- C93: how the program ends, in a world where the set `U` of paths is closed under imports. It stops for want of a
    registry iff descriptor.proto cannot be read, for want of its file iff that one cannot be read; it prints its report
    only if everything imported can be read. -/
theorem C93_loading {W U fuel F path} (hW : W.Sat WFFile) (hU : ImportClosed W U) (hd : b!"google/protobuf/descriptor.proto" ∈ U) (hp : path ∈ U)
    (hf : U.length ≤ fuel) :
    (QuickStart.main W fuel F path).1 ≠ .timeout ∧
    ((∃ e r', QuickStart.main W fuel F path = (.ok (.error (.noRegistry e)), r')) ↔
      ∀ elems, ¬ Readable W b!"google/protobuf/descriptor.proto" elems) ∧
    ((∃ e r', QuickStart.main W fuel F path = (.ok (.error (.noFile e)), r')) ↔
      ClosureReadable W b!"google/protobuf/descriptor.proto" ∧ ∀ elems, ¬ Readable W path elems) ∧
    (ClosureReadable W b!"google/protobuf/descriptor.proto" ∧ ClosureReadable W path ↔
      ∃ r n r0, newRegistry W fuel = (.ok (.ok ()), r) ∧ proto W fuel path r = (.ok (.ok n), r0)) ∧
    ((∃ ls r', QuickStart.main W fuel F path = (.ok (.ok ls), r')) →
      ClosureReadable W b!"google/protobuf/descriptor.proto" ∧ ClosureReadable W path) := quick_start_ends hW hU hd hp hf

/-! ### The hypotheses are met -/

/-- The words of a printed line. -/
def lineWords : Line → List Str
  | .file a b => [a, b]
  | .option a (.string _ _ v) => [a, v]
  | .option a _ => [a]
  | .message a => [a]
  | .field a b => [a, b]

def printed : Res (Except QuickStart.Failure (List Line)) → Option (List (List Str))
  | .ok (.ok ls) => some (ls.map lineWords)
  | _ => none

def panicked : Res (Except QuickStart.Failure (List Line)) → Bool
  | .panic _ => true
  | _ => false

def registryLess : Res (Except QuickStart.Failure (List Line)) → Bool
  | .ok (.error (.noRegistry _)) => true
  | _ => false

def fileLess : Res (Except QuickStart.Failure (List Line)) → Bool
  | .ok (.error (.noFile _)) => true
  | _ => false

/-- `q.proto` sets an option that exists nowhere. -/
def WQ : World := Ex.worldOf [(descriptorPath, Ex.descriptor), (b!"q.proto",
  [Ex.el b!"q.proto" 1 (.packageK b!"q"), Ex.el b!"q.proto" 2 (.option b!"nowhere" (Ex.lit b!"q.proto" b!"x"))])]

theorem WG_sat : WG.Sat WFFile := by
  apply Ex.worldOf_sat
  intro x hx
  apply Ex.wfb_spec
  simp only [List.mem_cons, List.not_mem_nil, or_false] at hx
  rcases hx with rfl | rfl | rfl | rfl <;> decide +kernel

theorem WQ_sat : WQ.Sat WFFile := by
  apply Ex.worldOf_sat
  intro x hx
  apply Ex.wfb_spec
  simp only [List.mem_cons, List.not_mem_nil, or_false] at hx
  rcases hx with rfl | rfl <;> decide +kernel

/-- Every way to end occurs: the program prints its report for `k.proto` and for `r.proto` (custom option); it panics for
    `q.proto`; it cannot find `none.proto`; it has no registry in a world without descriptor.proto. -/
example :
    printed (QuickStart.main WG 5 noFloats b!"k.proto").1 = some
      [[b!"k.proto", b!"k"], [b!"(.google.protobuf.FileOptions).go_package", b!"x/y;z"],
       [b!"M"], [b!"M", b!"mp"], [b!"M", b!"s"], [b!"M", b!"c"]] ∧
    printed (QuickStart.main WG 5 noFloats b!"r.proto").1 = some
      [[b!"r.proto", b!"r"], [b!"(note)", b!"n"], [b!"(.google.protobuf.FileOptions).go_package", b!"x/y;z"]] ∧
    panicked (QuickStart.main WQ 5 noFloats b!"q.proto").1 = true ∧
    fileLess (QuickStart.main WG 5 noFloats b!"none.proto").1 = true ∧
    registryLess (QuickStart.main (Ex.worldOf []) 5 noFloats b!"k.proto").1 = true := by decide +kernel

/-- The hypotheses of `C93_report`. -/
example : ∃ r n r0, WG.Sat WFFile ∧ newRegistry WG 5 = (.ok (.ok ()), r) ∧
    proto WG 5 b!"k.proto" r = (.ok (.ok n), r0) ∧ (∃ i, r0.protos b!"k.proto" = some i ∧ Printable noFloats r0 i) := by
  have hn : newRegistry WG 5 = (.ok (.ok ()), (newRegistry WG 5).2) := Ex.ok_of_okOk (by decide +kernel)
  rcases hp : proto WG 5 b!"k.proto" (newRegistry WG 5).2 with ⟨res, r0⟩
  have h : printed (QuickStart.main WG 5 noFloats b!"k.proto").1 ≠ none := by decide +kernel
  have hm : QuickStart.main WG 5 noFloats b!"k.proto" = show_ WG 5 noFloats b!"k.proto" (newRegistry WG 5).2 := by
    unfold QuickStart.main; rw [hn]
  rw [hm] at h
  cases res with
  | ok y =>
    cases y with
    | ok n =>
      refine ⟨_, n, r0, WG_sat, hn, hp, (C93_report WG_sat hn hp).2.1.mp ?_⟩
      rw [hm]
      rcases e : show_ WG 5 noFloats b!"k.proto" (newRegistry WG 5).2 with ⟨x, r'⟩
      rw [e] at h
      cases x with
      | ok z => cases z with
        | ok ls => exact ⟨ls, r', rfl⟩
        | error _ => exact absurd rfl h
      | panic _ => exact absurd rfl h
      | timeout => exact absurd rfl h
    | error e => simp only [show_, M.bind_apply, hp, M.pure_apply] at h; exact absurd rfl h
  | panic e => simp only [show_, M.bind_apply, hp] at h; exact absurd rfl h
  | timeout => simp only [show_, M.bind_apply, hp] at h; exact absurd rfl h

/-- The hypotheses of `C93_loading`. -/
example : WG.Sat WFFile ∧ ImportClosed WG [descriptorPath, b!"k.proto", b!"r.proto", b!"g.proto"] ∧
    ClosureReadable WG b!"k.proto" := by
  have hU : ImportClosed WG [descriptorPath, b!"k.proto", b!"r.proto", b!"g.proto"] := worldOf_closed (by decide +kernel)
  refine ⟨WG_sat, hU, ?_⟩
  apply ((C93_loading (F := noFloats) WG_sat hU (by decide) (by decide) (by decide : _ ≤ 5)).2.2.2.2 ?_).2
  have h : printed (QuickStart.main WG 5 noFloats b!"k.proto").1 ≠ none := by decide +kernel
  rcases e : QuickStart.main WG 5 noFloats b!"k.proto" with ⟨x, r'⟩
  rw [e] at h
  cases x with
  | ok z => cases z with
    | ok ls => exact ⟨ls, r', rfl⟩
    | error _ => exact absurd rfl h
  | panic _ => exact absurd rfl h
  | timeout => exact absurd rfl h

end Protoast.Props
