import Verif.Spec.Walk
import Verif.Props.Navigate
import Verif.Props.QuickStart
import Verif.Props.Tables
import Mathlib.Data.List.Nodup
/-
  C111: a full walk meets every declaration that iterators offer exactly once.
-/
namespace Protoast.Props
open Protoast Protoast.Walk

/-! ### Loops whose bodies may panic -/

/-- A computation adds handles of `ps` to `s`, or panics, and `B` holds. -/
def Goes (r0 : Reg) (B : Prop) (s : List Node) (ps : List Ptr) (x : Res (List Node) × Reg) : Prop :=
  (∃ ns, x.1 = .ok (s ++ ns) ∧ Running r0 x.2 ∧ Matching (HandleOf r0) ns ps) ∨ (∃ e, x.1 = .panic e) ∧ B

/-- The same for the body of a loop. -/
def GoesB (r0 : Reg) (B : Prop) (s : List Node) (ps : List Ptr) (x : Res (List Node × Bool) × Reg) : Prop :=
  (∃ ns, x.1 = .ok (s ++ ns, true) ∧ Running r0 x.2 ∧ Matching (HandleOf r0) ns ps) ∨ (∃ e, x.1 = .panic e) ∧ B

theorem matching_append {α β : Type} {R : α → β → Prop} {as as' : List α} {bs bs' : List β} (h : Matching R as bs)
    (h' : Matching R as' bs') : Matching R (as ++ as') (bs ++ bs') := by
  induction h with
  | nil => exact h'
  | cons h _ ih => exact .cons h ih

theorem Goes.bind {r0 B s ps ps'} {m : M (List Node)} {f : List Node → M (List Node)} {r} (h : Goes r0 B s ps (m r))
    (hf : ∀ s' r', Running r0 r' → Goes r0 B s' ps' (f s' r')) : Goes r0 B s (ps ++ ps') ((m >>= f) r) := by
  rw [M.bind_apply]
  rcases hm : m r with ⟨res, r1⟩
  rw [hm] at h
  rcases h with ⟨ns, e, hr, hn⟩ | ⟨⟨e, he⟩, hb⟩
  · simp only at e hr
    subst e
    rcases hf (s ++ ns) r1 hr with ⟨ns', e, hr', hn'⟩ | ⟨⟨e, he⟩, hb⟩
    · exact .inl ⟨ns ++ ns', by simpa using e, hr', matching_append hn hn'⟩
    · exact .inr ⟨⟨e, he⟩, hb⟩
  · simp only at he
    subst he
    exact .inr ⟨⟨e, rfl⟩, hb⟩

theorem Goes.body {r0 B s ps} {m : M (List Node)} {r} (h : Goes r0 B s ps (m r)) :
    GoesB r0 B s ps ((do let ns ← m; pure (ns, true) : M (List Node × Bool)) r) := by
  rw [M.bind_apply]
  rcases hm : m r with ⟨res, r1⟩
  rw [hm] at h
  rcases h with ⟨ns, e, hr, hn⟩ | ⟨⟨e, he⟩, hb⟩
  · simp only at e
    subst e
    exact .inl ⟨ns, rfl, hr, hn⟩
  · simp only at he
    subst he
    exact .inr ⟨⟨e, rfl⟩, hb⟩

theorem Goes.pre {r0 B s n p ps x} (hn : HandleOf r0 n p) (h : Goes r0 B (s ++ [n]) ps x) : Goes r0 B s (p :: ps) x := by
  rcases h with ⟨ns, e, hr, hm⟩ | h
  · exact .inl ⟨n :: ns, by simpa using e, hr, .cons hn hm⟩
  · exact .inr h

theorem goes_loop {r0 : Reg} {B : Prop} {p pick sel} {body : List Node → Node → M (List Node × Bool)} {L : Ptr → List Ptr}
    (hw : Wraps pick sel) (hseq : ROSeq (overKids p pick))
    (hbody : ∀ s r a k p', Running r0 r → (∃ o, Inv o r ∧ GoodW o r a k p') → (k, p') ∈ membersOf r0 p sel →
      Rooted r0 p' → GoesB r0 B s (L p') (body s (.wrapped a k p') r)) :
    ∀ (l : List (Ptr × Elem)) r s, (∀ x ∈ l, x ∈ r0.kids p) → Present r0 l → Running r0 r →
      Goes r0 B s (((l.filterMap fun x => (sel x.2.kind).map fun k => (k, x.1)).map (·.2)).flatMap L)
        (runSteps body (stepsOf pick l) s r) := by
  intro l
  induction l with
  | nil => intro r s _ _ hl; exact .inl ⟨[], by simp [stepsOf, runSteps], hl, .nil⟩
  | cons x l ih =>
    intro r s hin hp hl
    have hs := hw.2 x.1 x.2.kind
    have hin' : ∀ y ∈ l, y ∈ r0.kids p := fun y hy => hin y (List.mem_cons_of_mem _ hy)
    have hpl : Present r0 l := fun y hy => hp y (List.mem_cons_of_mem _ hy)
    rw [List.filterMap_cons]
    cases hsel : sel x.2.kind with
    | none =>
      rw [hsel] at hs
      rw [stepsOf_none hs]
      simpa using ih r s hin' hpl hl
    | some k =>
      rw [hsel] at hs
      obtain ⟨m, hm, hok⟩ := hs
      rw [stepsOf_some hm]
      obtain ⟨hx, o, hi⟩ := hl
      have hpx := hp x (by simp)
      have hel : r.elem x.1 = some x.2 := by
        unfold Reg.elem
        rw [hx.heap]
        exact hpx.1
      have hu : Under r x.1 := by
        unfold Under Rooted Reg.elem
        rw [hx.heap]
        exact hpx.2
      obtain ⟨a, o1, r1, e1, _, i1, g1⟩ := hok o r hi (target_of_elem hel (hw.1 _ _ hsel)) hu
      have hro : RO m := hseq.2 r0 (stepsOf pick (r0.kids p)) r0 rfl m
        (List.mem_filterMap.mpr ⟨x, hin x (by simp), hm⟩)
      have hx1 : CacheExt r0 r1 := by
        have := hro.ext r
        rw [e1] at this
        exact hx.trans this
      have hroot : Rooted r0 x.1 := hpx.2.rooted (target_of_elem hpx.1 (hw.1 _ _ hsel))
      have hb := hbody s r1 a k x.1 ⟨hx1, o1, i1⟩ ⟨o1, i1, g1⟩
        (by rw [membersOf_kids, List.mem_filterMap]; exact ⟨x, hin x (by simp), by simp [hsel]⟩) hroot
      simp only [Option.map_some, List.map_cons, List.flatMap_cons, runSteps, M.bind_apply, e1]
      rcases hbb : body s (.wrapped a k x.1) r1 with ⟨res, r2⟩
      rw [hbb] at hb
      rcases hb with ⟨ns, e, hr, hn⟩ | ⟨⟨e, he⟩, hb⟩
      · simp only at e hr
        subst e
        simp only [if_true]
        rcases ih r2 (s ++ ns) hin' hpl hr with ⟨ns', e', hr', hn'⟩ | h
        · exact .inl ⟨ns ++ ns', by simpa using e', hr', matching_append hn hn'⟩
        · exact .inr h
      · simp only at he
        subst he
        exact .inr ⟨⟨e, rfl⟩, hb⟩

theorem goes_run {r0 r : Reg} {B : Prop} {p seq sel} {body : List Node → Node → M (List Node × Bool)} {L : Ptr → List Ptr}
    {s} (hshape : IterShape seq p sel) (hseq : ROSeq seq) (hroot : Rooted r0 p)
    (hbody : ∀ s r a k p', Running r0 r → (∃ o, Inv o r ∧ GoodW o r a k p') → (k, p') ∈ membersOf r0 p sel →
      Rooted r0 p' → GoesB r0 B s (L p') (body s (.wrapped a k p') r)) (hl : Running r0 r) :
    Goes r0 B s (((membersOf r0 p sel).map (·.2)).flatMap L) (seq.run body s r) := by
  obtain ⟨pick, rfl, hw⟩ := hshape
  rw [membersOf_kids]
  have := goes_loop hw hseq hbody (r0.kids p) r s (fun _ h => h) (present_kids hroot) hl
  simp only [Seq.run, M.bind_apply, overKids_apply, hl.1.kids_eq]
  exact this

theorem flatMap_single {α : Type} (l : List α) : (l.flatMap fun x => [x]) = l := by
  induction l with
  | nil => rfl
  | cons a l ih => simp

/-- A loop that only collects. -/
theorem goes_visit {r0 r : Reg} {B : Prop} {p seq sel s} (hshape : IterShape seq p sel) (hseq : ROSeq seq)
    (hroot : Rooted r0 p) (hsel : ∀ kd k, sel kd = some k → kd.handleKind = some k) (hl : Running r0 r) :
    Goes r0 B s ((membersOf r0 p sel).map (·.2)) (seq.run collect s r) := by
  have := goes_run (r := r) (B := B) (s := s) (body := collect) (L := fun x => [x]) hshape hseq hroot (by
    intro s r a k p' hl _ hm _
    obtain ⟨kd, hk, hs⟩ := member_kind hm
    exact .inl ⟨[.wrapped a k p'], rfl, hl, .cons ⟨a, kd, k, rfl, hk, hsel _ _ hs⟩ .nil⟩) hl
  rwa [flatMap_single] at this

/-! ### The places the walk meets, in order -/

def fieldPtrs (r : Reg) (p : Ptr) : List Ptr :=
  p :: match r.kind p with
  | some (.oneof _) => (membersOf r p branchSel).map (·.2)
  | _ => []

def typePtrs (r : Reg) : Nat → Ptr → List Ptr
  | 0, _ => []
  | d + 1, p => p :: match r.kind p with
    | some (.message _ _) => ((membersOf r p fieldSel).map (·.2)).flatMap (fieldPtrs r) ++
      ((membersOf r p typeSel).map (·.2)).flatMap (typePtrs r d)
    | some (.enum _) => (membersOf r p valueSel).map (·.2)
    | _ => []

def servicePtrs (r : Reg) (p : Ptr) : List Ptr := p :: (membersOf r p methodSel).map (·.2)

def filePtrs (r : Reg) (d : Nat) (p : Ptr) : List Ptr :=
  (membersOf r p importSel).map (·.2) ++ (((membersOf r p typeSel).map (·.2)).flatMap (typePtrs r d) ++
    ((membersOf r p serviceSel).map (·.2)).flatMap (servicePtrs r))

theorem member_place {r : Reg} {p sel k p'} (h : (k, p') ∈ membersOf r p sel) :
    ∃ j kd, p' = ⟨p.file, j :: p.path⟩ ∧ r.kind p' = some kd ∧ sel kd = some k := by
  obtain ⟨kd, h1, h2⟩ := member_kind h
  unfold membersOf at h
  rw [List.mem_filterMap] at h
  obtain ⟨x, _, hx⟩ := h
  rw [Option.map_eq_some_iff] at hx
  obtain ⟨k', _, e⟩ := hx
  cases e
  exact ⟨_, kd, rfl, h1, h2⟩

theorem place_member {r : Reg} {p : Ptr} {sel j kd k} (hk : r.kind ⟨p.file, j :: p.path⟩ = some kd)
    (hs : sel kd = some k) : (k, (⟨p.file, j :: p.path⟩ : Ptr)) ∈ membersOf r p sel := by
  obtain ⟨e, he, rfl⟩ : ∃ e, r.elem ⟨p.file, j :: p.path⟩ = some e ∧ e.kind = kd := by
    unfold Reg.kind at hk
    rw [Option.map_eq_some_iff] at hk
    exact hk
  rw [membersOf_kids, List.mem_filterMap]
  exact ⟨_, mem_kids he, by simp [hs]⟩

theorem misused_ext {r0 r : Reg} (hx : CacheExt r0 r) {p} : Misused r p ↔ Misused r0 p := by
  unfold Misused
  simp only [hx.kind_eq, hx.scope_eq, hx.refers]

theorem NT.fieldTypeBody (p) : NT (fieldTypeBody p) := by
  unfold Protoast.fieldTypeBody
  refine NT.bind NT.get fun r => ?_
  split
  · exact NT.getTypeByName _ _
  · exact NT.bind NT.alloc fun _ => NT.pure _
  · exact NT.bind NT.alloc fun _ => NT.pure _
  · exact NT.panic _

theorem fieldType_no_timeout (a p r) : (MessageField.type a p r).1 ≠ .timeout := by
  unfold MessageField.type
  split
  · simp
  · have := NT.fieldTypeBody p r
    rcases h : Protoast.fieldTypeBody p r with ⟨_ | _ | _, r1⟩
    · simp
    · simp
    · rw [h] at this; exact absurd rfl this

/-- `Type` of a field handle. -/
theorem type_outcome {r0 r : Reg} {a p} (hl : Running r0 r) (hg : ∃ o, Inv o r ∧ GoodW o r a .messageField p) :
    (∃ t r', MessageField.type a p r = (.ok t, r') ∧ Running r0 r' ∧
      (∀ n, r0.kind p = some (.oneof n) → ∃ b, t = some (.oneof b p)) ∧
      ((∀ n, r0.kind p ≠ some (.oneof n)) → ∀ b q, t ≠ some (.oneof b q))) ∨
    (∃ e r', MessageField.type a p r = (.panic e, r')) ∧ Misused r0 p := by
  obtain ⟨o, hi, hg⟩ := hg
  have hx := hl.1
  obtain ⟨o', hx', hi', hq⟩ := fieldType_tri hi hg
  have hc := (RO.fieldType a p).ext r
  rcases ht : MessageField.type a p r with ⟨res, r'⟩
  rw [ht] at hq hi' hc
  have hx2 : CacheExt r0 r' := hx.trans hc
  cases res with
  | ok t =>
    obtain ⟨_, hs⟩ := hq t rfl
    refine .inl ⟨t, r', rfl, ⟨hx2, o', hi'⟩, ?_, ?_⟩
    · intro n hn
      rw [← hx2.kind_eq] at hn
      rcases hs with ⟨_, _, _, _, _, _, h, _⟩ | ⟨_, _, _, _, h, _⟩ | ⟨_, _, _, _, h, _⟩ | ⟨_, h⟩ | ⟨⟨_, _, _, _, h⟩, _⟩
      all_goals first
        | (rw [hn] at h; cases h)
        | exact h
    · intro hn b q e
      subst e
      rcases hs with ⟨h, _⟩ | ⟨n, typ, _, _, h, hb⟩ | ⟨_, _, _, _, h, _, _, e, _⟩ | ⟨⟨n, h⟩, _⟩ | ⟨_, _, e⟩
      · cases h
      · unfold BaseShape at hb
        split at hb
        · cases hb
        · rcases hb with hb | ⟨_, _, _, hb, _⟩ <;> cases hb
      · cases e
      · rw [hx2.kind_eq] at h; exact hn n h
      · cases e
  | panic e =>
    refine .inr ⟨⟨e, r', rfl⟩, (misused_ext hx).mp ?_⟩
    have hf : r.ftcache a = none := by
      cases hf : r.ftcache a with
      | none => rfl
      | some t => unfold MessageField.type at ht; rw [hf] at ht; cases ht
    have hb : ∃ e r', fieldTypeBody p r = (.panic e, r') := by
      unfold MessageField.type at ht
      rw [hf] at ht
      simp only at ht
      rcases hb : fieldTypeBody p r with ⟨_ | _ | _, r1⟩ <;> rw [hb] at ht <;> cases ht
      exact ⟨_, _, rfl⟩
    obtain ⟨e1, r1, hb⟩ := hb
    obtain ⟨n, typ, s, rep, opt, hk, _⟩ := fieldTypeBody_panic hg.target hb
    have hlk : ∃ e r', lookupType p typ r = (.panic e, r') := by
      unfold fieldTypeBody at hb
      simp only [M.bind_apply, M.get_apply, hk] at hb
      unfold getTypeByName at hb
      simp only [M.bind_apply] at hb
      rcases hl : lookupType p typ r with ⟨_ | _ | _, r2⟩
      · rw [hl] at hb
        simp only [M.get_apply] at hb
        split at hb <;> cases hb
      · exact ⟨_, _, rfl⟩
      · rw [hl] at hb; cases hb
    obtain ⟨hkw, q, kd, h1, h2, h3⟩ := (lookupType_fails hi).mp hlk
    exact ⟨n, typ, s, rep, opt, q, kd, hk, hkw, h1, h2, h3⟩
  | timeout =>
    exfalso
    have := fieldType_no_timeout a p r
    rw [ht] at this
    exact this rfl

theorem visible_kid {r : Reg} {p : Ptr} {k kd : Kind} {j} (hv : Visible r p) (hk : r.kind p = some k)
    (hj : r.kind ⟨p.file, j :: p.path⟩ = some kd) (ho : Offered (some k) kd = true) :
    Visible r ⟨p.file, j :: p.path⟩ := .inside hv hk hj ho

theorem walkField_goes {r0 r : Reg} {s a p} (hl : Running r0 r) (hg : ∃ o, Inv o r ∧ GoodW o r a .messageField p)
    (hroot : Rooted r0 p) (hv : Visible r0 p) :
    GoesB r0 (SomeMisused r0 p.file) s (fieldPtrs r0 p) (walkField s (.wrapped a .messageField p) r) := by
  have hh : HandleOf r0 (.wrapped a .messageField p) p := by
    obtain ⟨o, hi, hg⟩ := hg
    rcases fieldKind_cases hg.target with ⟨_, _, _, _, _, hk⟩ | ⟨_, hk⟩ | ⟨_, _, _, _, hk⟩ <;> rw [hl.1.kind_eq] at hk
    all_goals exact ⟨a, _, _, rfl, hk, rfl⟩
  unfold walkField fieldPtrs
  simp only [M.bind_apply]
  rcases type_outcome hl hg with ⟨t, r', h1, h2, h3, h4⟩ | ⟨⟨e, r', h⟩, hm⟩
  · simp only [h1]
    by_cases ho : ∃ n, r0.kind p = some (.oneof n)
    · obtain ⟨n, hn⟩ := ho
      obtain ⟨b, rfl⟩ := h3 n hn
      simp only [hn]
      exact (Goes.pre hh (goes_visit (shape_branches p) (ROSeq.oneofBranches p) hroot
        (by intro kd k h; cases kd <;> cases h <;> rfl) h2)).body
    · have hno : ∀ n, r0.kind p ≠ some (.oneof n) := fun n h => ho ⟨n, h⟩
      have e1 : (match r0.kind p with
          | some (.oneof _) => (membersOf r0 p branchSel).map (·.2)
          | _ => []) = [] := by
        split
        · next h => exact absurd h (hno _)
        · rfl
      rw [e1]
      have h5 := h4 hno
      split
      · next h => cases h; exact absurd rfl (h5 _ _)
      · exact .inl ⟨[_], rfl, h2, .cons hh .nil⟩
  · simp only [h]
    exact .inr ⟨⟨e, rfl⟩, p, rfl, hv, hm⟩

theorem walkType_goes {r0 : Reg} {i : Nat} : ∀ (fuel : Nat) {r : Reg} {s a k p}, Running r0 r → Rooted r0 p → p.file = i →
    Visible r0 p → (∃ kd, r0.kind p = some kd ∧ typeSel kd = some k) →
    (∀ q, q.file = i → Visible r0 q → q.path.length < p.path.length + fuel) →
    GoesB r0 (SomeMisused r0 i) s (typePtrs r0 fuel p) (walkType fuel s (.wrapped a k p) r) := by
  intro fuel
  induction fuel with
  | zero =>
    intro r s a k p _ _ hp hv _ hd
    exact absurd (hd p hp hv) (by omega)
  | succ fuel ih =>
    intro r s a k p hl hroot hp hv hk hd
    obtain ⟨kd, hk, hs⟩ := hk
    have hh : HandleOf r0 (.wrapped a k p) p := by
      refine ⟨a, kd, k, rfl, hk, ?_⟩
      unfold typeSel at hs
      split at hs <;> cases hs <;> rfl
    unfold typeSel at hs
    split at hs <;> cases hs
    · unfold walkType typePtrs
      simp only [hk]
      have : (do
          let ns ← (Message.fields p).run walkField (s ++ [Node.wrapped a .message p])
          let ns ← (Message.types p).run (walkType fuel) ns
          pure (ns, true) : M (List Node × Bool)) = (do
          let ns ← ((Message.fields p).run walkField (s ++ [Node.wrapped a .message p])) >>= fun ns =>
            (Message.types p).run (walkType fuel) ns
          pure (ns, true)) := by
        funext r
        simp only [M.bind_apply]
        rcases (Message.fields p).run walkField (s ++ [Node.wrapped a .message p]) r with ⟨_ | _ | _, _⟩ <;> rfl
      rw [this]
      refine Goes.body (Goes.pre hh (Goes.bind ?_ fun s' r' hl' => ?_))
      · refine goes_run (shape_fields p) (ROSeq.messageFields p) hroot ?_ hl
        intro s r a k p' hl hg hm hroot'
        obtain ⟨j, kd, rfl, hk', hs⟩ := member_place hm
        unfold fieldSel at hs
        split at hs <;> cases hs
        all_goals
          subst hp
          exact walkField_goes hl hg hroot' (visible_kid hv hk hk' rfl)
      · refine goes_run (shape_types p) (ROSeq.messageTypes p) hroot ?_ hl'
        intro s r a k p' hl hg hm hroot'
        obtain ⟨j, kd, rfl, hk', hs⟩ := member_place hm
        refine ih hl hroot' hp ?_ ⟨kd, hk', hs⟩ ?_
        · unfold typeSel at hs
          split at hs <;> cases hs <;> exact visible_kid hv hk hk' rfl
        · intro q hq hvq
          have := hd q hq hvq
          simp only [List.length_cons]
          omega
    · unfold walkType typePtrs
      simp only [hk]
      exact (Goes.pre hh (goes_visit (shape_values p) (ROSeq.enumValues p) hroot
        (by intro kd k h; cases kd <;> cases h <;> rfl) hl)).body

theorem walkService_goes {r0 r : Reg} {B : Prop} {s a p n} (hl : Running r0 r) (hroot : Rooted r0 p)
    (hk : r0.kind p = some (.service n)) :
    GoesB r0 B s (servicePtrs r0 p) (walkService s (.wrapped a .service p) r) :=
  (Goes.pre ⟨a, _, _, rfl, hk, rfl⟩ (goes_visit (shape_methods p) (ROSeq.serviceMethods p) hroot
    (by intro kd k h; cases kd <;> cases h <;> rfl) hl)).body

theorem walkFile_goes {r0 : Reg} {i fuel : Nat} (hl : Running r0 r0) (hroot : Rooted r0 ⟨i, []⟩)
    (hd : ∀ q : Ptr, q.file = i → Visible r0 q → q.path.length ≤ fuel) :
    Goes r0 (SomeMisused r0 i) [] (filePtrs r0 fuel ⟨i, []⟩) (walkFile fuel ⟨i, []⟩ r0) := by
  unfold walkFile filePtrs
  refine Goes.bind (goes_visit (shape_imports _) (ROSeq.fileImports _) hroot
    (by intro kd k h; cases kd <;> cases h <;> rfl) hl) fun s r hl => ?_
  refine Goes.bind ?_ fun s r hl => ?_
  · refine goes_run (shape_fileTypes _) (ROSeq.fileTypes _) hroot ?_ hl
    intro s r a k p' hl hg hm hroot'
    obtain ⟨j, kd, rfl, hk', hs⟩ := member_place hm
    refine walkType_goes fuel hl hroot' rfl ?_ ⟨kd, hk', hs⟩ ?_
    · unfold typeSel at hs
      split at hs <;> cases hs <;> exact .top hk' rfl
    · intro q hq hvq
      have := hd q hq hvq
      simp only [List.length_cons]
      omega
  · refine goes_run (shape_services _) (ROSeq.fileServices _) hroot ?_ hl
    intro s r a k p' hl hg hm hroot'
    obtain ⟨j, kd, rfl, hk', hs⟩ := member_place hm
    unfold serviceSel at hs
    split at hs <;> cases hs
    exact walkService_goes hl hroot' hk'

/-! ### The places the walk meets are the visible ones, each once -/

/-- `q` is `p` or inside it. -/
def Below (p q : Ptr) : Prop := q.file = p.file ∧ ∃ l, q.path = l ++ p.path

theorem Below.refl (p : Ptr) : Below p p := ⟨rfl, [], rfl⟩

theorem Below.kid {p q : Ptr} {j} (h : Below ⟨p.file, j :: p.path⟩ q) : Below p q := by
  obtain ⟨h1, l, h2⟩ := h
  exact ⟨h1, l ++ [j], by simpa using h2⟩

theorem Below.cases {p q : Ptr} (h : Below p q) : q = p ∨ ∃ j, Below ⟨p.file, j :: p.path⟩ q := by
  obtain ⟨h1, l, h2⟩ := h
  rcases List.eq_nil_or_concat l with rfl | ⟨l', j, rfl⟩
  · left; cases q; cases p; simp_all
  · right; exact ⟨j, h1, l', by simpa using h2⟩

theorem Below.length {p q : Ptr} (h : Below p q) : p.path.length ≤ q.path.length := by
  obtain ⟨_, l, h⟩ := h
  rw [h]; simp

theorem Below.unique {p p' q : Ptr} (h : Below p q) (h' : Below p' q) (hl : p.path.length = p'.path.length) : p = p' := by
  obtain ⟨h1, l, h2⟩ := h
  obtain ⟨h3, l', h4⟩ := h'
  have := (List.append_inj' (h2.symm.trans h4) hl).2
  cases p; cases p'; simp_all

theorem visible_inv {r : Reg} {i j path} (h : Visible r ⟨i, j :: path⟩) (hp : path ≠ []) :
    ∃ k k', Visible r ⟨i, path⟩ ∧ r.kind ⟨i, path⟩ = some k ∧ r.kind ⟨i, j :: path⟩ = some k' ∧
      Offered (some k) k' = true := by
  cases h with
  | top _ _ => exact absurd rfl hp
  | inside h1 h2 h3 h4 => exact ⟨_, _, h1, h2, h3, h4⟩

theorem visible_up {r : Reg} {p q : Ptr} (h : Visible r q) (hb : Below p q) (hp : p.path ≠ []) : Visible r p := by
  obtain ⟨h1, l, h2⟩ := hb
  obtain ⟨i, qp⟩ := q
  simp only at h1 h2
  subst h1 h2
  induction l with
  | nil => exact h
  | cons j l ih =>
    obtain ⟨_, _, h', _⟩ := visible_inv h (by simp [hp])
    exact ih h'

theorem flatMap_nodup {f : Ptr → List Ptr} {ps : List Ptr} {L : Nat} (hL : ∀ p ∈ ps, p.path.length = L) (hn : ps.Nodup)
    (hf : ∀ p ∈ ps, (f p).Nodup ∧ ∀ q ∈ f p, Below p q) : (ps.flatMap f).Nodup := by
  rw [List.nodup_flatMap]
  refine ⟨fun p hp => (hf p hp).1, List.Pairwise.imp_of_mem ?_ hn⟩
  intro p p' hp hp' hne q hq hq'
  exact hne (((hf p hp).2 q hq).unique ((hf p' hp').2 q hq') ((hL p hp).trans (hL p' hp').symm))

theorem members_nodup (r : Reg) (p : Ptr) (sel) : ((membersOf r p sel).map (·.2)).Nodup := by
  refine List.Nodup.map_on ?_ (membersOf_nodup r p sel)
  rintro ⟨k, q⟩ h ⟨k', q'⟩ h' (rfl : q = q')
  obtain ⟨_, h1, h2⟩ := member_kind h
  obtain ⟨_, h3, h4⟩ := member_kind h'
  rw [h1] at h3
  cases h3
  rw [h2] at h4
  cases h4
  rfl

theorem mem_members {r : Reg} {p q : Ptr} {sel} : q ∈ (membersOf r p sel).map (·.2) ↔
    ∃ j kd k, q = ⟨p.file, j :: p.path⟩ ∧ r.kind q = some kd ∧ sel kd = some k := by
  rw [List.mem_map]
  constructor
  · rintro ⟨⟨k, q'⟩, h, rfl⟩
    obtain ⟨j, kd, h1, h2, h3⟩ := member_place h
    exact ⟨j, kd, k, h1, h2, h3⟩
  · rintro ⟨j, kd, k, rfl, h2, h3⟩
    exact ⟨_, place_member h2 h3, rfl⟩

theorem members_length {r : Reg} {p q : Ptr} {sel} (h : q ∈ (membersOf r p sel).map (·.2)) :
    q.path.length = p.path.length + 1 := by
  obtain ⟨j, _, _, rfl, _⟩ := mem_members.mp h
  rfl

theorem members_below {r : Reg} {p q : Ptr} {sel} (h : q ∈ (membersOf r p sel).map (·.2)) : Below p q := by
  obtain ⟨j, _, _, rfl, _⟩ := mem_members.mp h
  exact (Below.refl _).kid

theorem Below.trans_member {r : Reg} {p c q : Ptr} {sel} (h : c ∈ (membersOf r p sel).map (·.2)) (hb : Below c q) :
    Below p q := by
  obtain ⟨j, _, _, rfl, _⟩ := mem_members.mp h
  exact hb.kid

/-- A list that begins with `p` and goes on inside the members of `p`. -/
theorem cons_nodup {p : Ptr} {l : List Ptr} (h : ∀ q ∈ l, p.path.length < q.path.length) (hl : l.Nodup) :
    (p :: l).Nodup := by
  rw [List.nodup_cons]
  exact ⟨fun hp => absurd (h p hp) (by omega), hl⟩

theorem fieldPtrs_ok (r : Reg) (p : Ptr) : (fieldPtrs r p).Nodup ∧ ∀ q ∈ fieldPtrs r p, Below p q := by
  unfold fieldPtrs
  split
  · refine ⟨cons_nodup (fun q hq => by have := members_length hq; omega) (members_nodup _ _ _), ?_⟩
    intro q hq
    rcases List.mem_cons.mp hq with rfl | hq
    · exact Below.refl _
    · exact members_below hq
  · refine ⟨by simp, ?_⟩
    intro q hq
    rw [List.mem_singleton] at hq
    subst hq
    exact Below.refl _

theorem servicePtrs_ok (r : Reg) (p : Ptr) : (servicePtrs r p).Nodup ∧ ∀ q ∈ servicePtrs r p, Below p q := by
  unfold servicePtrs
  refine ⟨cons_nodup (fun q hq => by have := members_length hq; omega) (members_nodup _ _ _), ?_⟩
  intro q hq
  rcases List.mem_cons.mp hq with rfl | hq
  · exact Below.refl _
  · exact members_below hq

/-- Two loops over members of different kinds. -/
theorem two_loops {r : Reg} {p : Ptr} {sel sel' : Kind → Option WKind} {f g : Ptr → List Ptr}
    (hdis : ∀ kd k k', sel kd = some k → sel' kd = some k' → False)
    (hf : ∀ c, (f c).Nodup ∧ ∀ q ∈ f c, Below c q) (hg : ∀ c, (g c).Nodup ∧ ∀ q ∈ g c, Below c q) :
    (((membersOf r p sel).map (·.2)).flatMap f ++ ((membersOf r p sel').map (·.2)).flatMap g).Nodup := by
  rw [List.nodup_append]
  refine ⟨flatMap_nodup (fun _ h => members_length h) (members_nodup _ _ _) fun c _ => hf c,
    flatMap_nodup (fun _ h => members_length h) (members_nodup _ _ _) fun c _ => hg c, ?_⟩
  rintro q hq q' hq' rfl
  rw [List.mem_flatMap] at hq hq'
  obtain ⟨c, hc, hq⟩ := hq
  obtain ⟨c', hc', hq'⟩ := hq'
  have : c = c' := ((hf c).2 q hq).unique ((hg c').2 q hq') ((members_length hc).trans (members_length hc').symm)
  subst this
  obtain ⟨_, kd, k, _, h1, h2⟩ := mem_members.mp hc
  obtain ⟨_, kd', k', _, h3, h4⟩ := mem_members.mp hc'
  rw [h1] at h3
  cases h3
  exact hdis _ _ _ h2 h4

theorem loop_below {r : Reg} {p q : Ptr} {sel} {f : Ptr → List Ptr} (hf : ∀ c, ∀ q ∈ f c, Below c q)
    (h : q ∈ ((membersOf r p sel).map (·.2)).flatMap f) : Below p q ∧ p.path.length < q.path.length := by
  rw [List.mem_flatMap] at h
  obtain ⟨c, hc, hq⟩ := h
  have h1 := members_length hc
  have h2 := (hf c q hq).length
  exact ⟨(hf c q hq).trans_member hc, by omega⟩

theorem typePtrs_ok (r : Reg) : ∀ d p, (typePtrs r d p).Nodup ∧ ∀ q ∈ typePtrs r d p, Below p q := by
  intro d
  induction d with
  | zero => intro p; exact ⟨by simp [typePtrs], by simp [typePtrs]⟩
  | succ d ih =>
    intro p
    unfold typePtrs
    split
    · constructor
      · refine cons_nodup ?_ (two_loops ?_ (fieldPtrs_ok r) ih)
        · intro q hq
          rcases List.mem_append.mp hq with hq | hq
          · exact (loop_below (fun c => (fieldPtrs_ok r c).2) hq).2
          · exact (loop_below (fun c => (ih c).2) hq).2
        · intro kd k k' h h'
          cases kd <;> first | cases h; done | cases h'
      · intro q hq
        rcases List.mem_cons.mp hq with rfl | hq
        · exact Below.refl _
        · rcases List.mem_append.mp hq with hq | hq
          · exact (loop_below (fun c => (fieldPtrs_ok r c).2) hq).1
          · exact (loop_below (fun c => (ih c).2) hq).1
    · refine ⟨cons_nodup (fun q hq => by have := members_length hq; omega) (members_nodup _ _ _), ?_⟩
      intro q hq
      rcases List.mem_cons.mp hq with rfl | hq
      · exact Below.refl _
      · exact members_below hq
    · refine ⟨by simp, ?_⟩
      intro q hq
      rw [List.mem_singleton] at hq
      subst hq
      exact Below.refl _

theorem filePtrs_nodup (r : Reg) (d : Nat) (p : Ptr) : (filePtrs r d p).Nodup := by
  unfold filePtrs
  rw [List.nodup_append]
  refine ⟨members_nodup _ _ _, two_loops ?_ (typePtrs_ok r d) (servicePtrs_ok r), ?_⟩
  · intro kd k k' h h'
    cases kd <;> first | cases h; done | cases h'
  · rintro q hq q' hq' rfl
    have key : ∀ sel f, (∀ c, ∀ q ∈ f c, Below c q) → q ∈ ((membersOf r p sel).map (·.2)).flatMap f →
        q ∈ (membersOf r p sel).map (·.2) := by
      intro sel f hf h
      rw [List.mem_flatMap] at h
      obtain ⟨c, hc, hq''⟩ := h
      have : c = q := (hf c q hq'').unique (Below.refl q) ((members_length hc).trans (members_length hq).symm)
      rw [← this]
      exact hc
    obtain ⟨_, kd, k, _, h1, h2⟩ := mem_members.mp hq
    rcases List.mem_append.mp hq' with hq' | hq'
    · obtain ⟨_, kd', k', _, h3, h4⟩ := mem_members.mp (key _ _ (fun c => (typePtrs_ok r d c).2) hq')
      rw [h1] at h3
      cases h3
      cases kd <;> first | cases h2; done | cases h4
    · obtain ⟨_, kd', k', _, h3, h4⟩ := mem_members.mp (key _ _ (fun c => (servicePtrs_ok r c).2) hq')
      rw [h1] at h3
      cases h3
      cases kd <;> first | cases h2; done | cases h4

/-- What is offered inside a field is inside a oneof, and nothing is offered further down. -/
theorem mem_fieldPtrs {r : Reg} {p q : Ptr} {kd : Kind} (hk : r.kind p = some kd) (hs : ∃ k, fieldSel kd = some k)
    (hv : Visible r p) : q ∈ fieldPtrs r p ↔ Visible r q ∧ Below p q := by
  have hpne : p.path ≠ [] := by cases hv <;> simp
  constructor
  · intro hq
    refine ⟨?_, (fieldPtrs_ok r p).2 q hq⟩
    unfold fieldPtrs at hq
    rcases List.mem_cons.mp hq with rfl | hq
    · exact hv
    · split at hq
      · next n hn =>
        obtain ⟨j, kd', k, rfl, h1, h2⟩ := mem_members.mp hq
        unfold branchSel at h2
        split at h2 <;> cases h2
        exact visible_kid hv hn h1 rfl
      · cases hq
  · rintro ⟨hvq, hb⟩
    rcases hb.cases with rfl | ⟨j, hb'⟩
    · simp [fieldPtrs]
    · have hvc := visible_up hvq hb' (by simp)
      obtain ⟨k, k', _, h1, h2, h3⟩ := visible_inv hvc hpne
      rw [show (⟨p.file, p.path⟩ : Ptr) = p from rfl, hk] at h1
      cases h1
      obtain ⟨kf, hs⟩ := hs
      unfold fieldSel at hs
      split at hs <;> cases hs
      · cases h3
      · cases h3
      · unfold Offered at h3
        split at h3 <;> try cases h3
        all_goals rename_i hx
        all_goals cases hx
        unfold fieldPtrs
        rw [hk]
        refine List.mem_cons_of_mem _ ?_
        rcases hb'.cases with rfl | ⟨j', hb''⟩
        · exact mem_members.mpr ⟨j, _, _, rfl, h2, rfl⟩
        · obtain ⟨k, k', _, h4, _, h5⟩ := visible_inv (visible_up hvq hb'' (by simp)) (by simp)
          rw [show (⟨p.file, j :: p.path⟩ : Ptr) = _ from rfl, h2] at h4
          cases h4
          cases h5

/-- Nothing is offered inside the members that are collected without looking inside. -/
theorem leaf_below {r : Reg} {c q : Ptr} {kd : Kind} (hc : c.path ≠ []) (hk : r.kind c = some kd)
    (hl : ∀ k', Offered (some kd) k' = false) (hvq : Visible r q) (hb : Below c q) : q = c := by
  rcases hb.cases with rfl | ⟨j, hb'⟩
  · rfl
  · obtain ⟨k, k', _, h1, _, h3⟩ := visible_inv (visible_up hvq hb' (by simp)) hc
    rw [show (⟨c.file, c.path⟩ : Ptr) = c from rfl, hk] at h1
    cases h1
    rw [hl] at h3
    cases h3

theorem mem_typePtrs {r : Reg} : ∀ d {p q : Ptr}, Visible r p → (∃ kd k, r.kind p = some kd ∧ typeSel kd = some k) →
    (∀ q, q.file = p.file → Visible r q → q.path.length < p.path.length + d) →
    (q ∈ typePtrs r d p ↔ Visible r q ∧ Below p q) := by
  intro d
  induction d with
  | zero =>
    intro p q hv _ hd
    exact absurd (hd p rfl hv) (by omega)
  | succ d ih =>
    intro p q hv hk hd
    have hpne : p.path ≠ [] := by cases hv <;> simp
    obtain ⟨kd, k, hk, hs⟩ := hk
    have hsub : ∀ c, c ∈ (membersOf r p typeSel).map (·.2) → (∃ n e, kd = .message n e) →
        (q ∈ typePtrs r d c ↔ Visible r q ∧ Below c q) := by
      rintro c hc ⟨n, e, rfl⟩
      obtain ⟨j, kd', k', rfl, h1, h2⟩ := mem_members.mp hc
      refine ih ?_ ⟨kd', k', h1, h2⟩ ?_
      · unfold typeSel at h2
        split at h2 <;> cases h2 <;> exact visible_kid hv hk h1 rfl
      · intro q hq hvq
        have := hd q hq hvq
        simp only [List.length_cons]
        omega
    constructor
    · intro hq
      refine ⟨?_, (typePtrs_ok r _ p).2 q hq⟩
      unfold typePtrs at hq
      rcases List.mem_cons.mp hq with rfl | hq
      · exact hv
      · split at hq
        · next n e hn =>
          rw [hk] at hn
          cases hn
          rcases List.mem_append.mp hq with hq | hq
          · rw [List.mem_flatMap] at hq
            obtain ⟨c, hc, hq⟩ := hq
            obtain ⟨j, kd', k', rfl, h1, h2⟩ := mem_members.mp hc
            refine ((mem_fieldPtrs h1 ⟨k', h2⟩ ?_).mp hq).1
            unfold fieldSel at h2
            split at h2 <;> cases h2 <;> exact visible_kid hv hk h1 rfl
          · rw [List.mem_flatMap] at hq
            obtain ⟨c, hc, hq⟩ := hq
            exact ((hsub c hc ⟨n, e, rfl⟩).mp hq).1
        · next n hn =>
          obtain ⟨j, kd', k', rfl, h1, h2⟩ := mem_members.mp hq
          unfold valueSel at h2
          split at h2 <;> cases h2
          exact visible_kid hv hn h1 rfl
        · cases hq
    · rintro ⟨hvq, hb⟩
      unfold typePtrs
      rcases hb.cases with rfl | ⟨j, hb'⟩
      · simp
      · refine List.mem_cons_of_mem _ ?_
        have hvc := visible_up hvq hb' (by simp)
        obtain ⟨k, k', _, h1, h2, h3⟩ := visible_inv hvc hpne
        rw [show (⟨p.file, p.path⟩ : Ptr) = p from rfl, hk] at h1
        cases h1
        have htype : ∀ kt, typeSel k' = some kt → (∃ n e, kd = .message n e) →
            q ∈ ((membersOf r p typeSel).map (·.2)).flatMap (typePtrs r d) := by
          intro kt hkt hm
          have hc : (⟨p.file, j :: p.path⟩ : Ptr) ∈ (membersOf r p typeSel).map (·.2) :=
            mem_members.mpr ⟨j, k', kt, rfl, h2, hkt⟩
          rw [List.mem_flatMap]
          exact ⟨_, hc, (hsub _ hc hm).mpr ⟨hvq, hb'⟩⟩
        have hfield : ∀ kt, fieldSel k' = some kt →
            q ∈ ((membersOf r p fieldSel).map (·.2)).flatMap (fieldPtrs r) := by
          intro kt hkt
          rw [List.mem_flatMap]
          exact ⟨_, mem_members.mpr ⟨j, k', kt, rfl, h2, hkt⟩, (mem_fieldPtrs h2 ⟨kt, hkt⟩ hvc).mpr ⟨hvq, hb'⟩⟩
        rw [hk]
        unfold typeSel at hs
        split at hs <;> cases hs
        · simp only [List.mem_append]
          unfold Offered at h3
          split at h3 <;> try cases h3
          all_goals rename_i hx
          all_goals cases hx
          · exact .inr (htype _ rfl ⟨_, _, rfl⟩)
          · exact .inr (htype _ rfl ⟨_, _, rfl⟩)
          · exact .inl (hfield _ rfl)
          · exact .inl (hfield _ rfl)
          · exact .inl (hfield _ rfl)
        · simp only
          unfold Offered at h3
          split at h3 <;> try cases h3
          all_goals rename_i hx
          all_goals cases hx
          have := leaf_below (by simp) h2 (by intro k'; rfl) hvq hb'
          subst this
          exact mem_members.mpr ⟨j, _, _, rfl, h2, rfl⟩

theorem mem_servicePtrs {r : Reg} {p q : Ptr} {n} (hk : r.kind p = some (.service n)) (hv : Visible r p) :
    q ∈ servicePtrs r p ↔ Visible r q ∧ Below p q := by
  have hpne : p.path ≠ [] := by cases hv <;> simp
  constructor
  · intro hq
    refine ⟨?_, (servicePtrs_ok r p).2 q hq⟩
    rcases List.mem_cons.mp hq with rfl | hq
    · exact hv
    · obtain ⟨j, kd', k', rfl, h1, h2⟩ := mem_members.mp hq
      unfold methodSel at h2
      split at h2 <;> cases h2
      exact visible_kid hv hk h1 rfl
  · rintro ⟨hvq, hb⟩
    rcases hb.cases with rfl | ⟨j, hb'⟩
    · simp [servicePtrs]
    · refine List.mem_cons_of_mem _ ?_
      obtain ⟨k, k', _, h1, h2, h3⟩ := visible_inv (visible_up hvq hb' (by simp)) hpne
      rw [show (⟨p.file, p.path⟩ : Ptr) = p from rfl, hk] at h1
      cases h1
      unfold Offered at h3
      split at h3 <;> try cases h3
      all_goals rename_i hx
      all_goals cases hx
      have := leaf_below (by simp) h2 (by intro k'; rfl) hvq hb'
      subst this
      exact mem_members.mpr ⟨j, _, _, rfl, h2, rfl⟩

theorem mem_filePtrs {r : Reg} {i d : Nat} {q : Ptr} (hd : ∀ q : Ptr, q.file = i → Visible r q → q.path.length ≤ d) :
    q ∈ filePtrs r d ⟨i, []⟩ ↔ q.file = i ∧ Visible r q := by
  have hsub : ∀ c, c ∈ (membersOf r ⟨i, []⟩ typeSel).map (·.2) → (q ∈ typePtrs r d c ↔ Visible r q ∧ Below c q) := by
    intro c hc
    obtain ⟨j, kd', k', rfl, h1, h2⟩ := mem_members.mp hc
    refine mem_typePtrs d ?_ ⟨kd', k', h1, h2⟩ ?_
    · unfold typeSel at h2
      split at h2 <;> cases h2 <;> exact .top h1 rfl
    · intro q hq hvq
      have := hd q hq hvq
      simp only [List.length_cons]
      omega
  unfold filePtrs
  rw [List.mem_append, List.mem_append, List.mem_flatMap, List.mem_flatMap]
  constructor
  · rintro (hq | ⟨c, hc, hq⟩ | ⟨c, hc, hq⟩)
    · obtain ⟨j, kd', k', rfl, h1, h2⟩ := mem_members.mp hq
      unfold importSel at h2
      split at h2 <;> cases h2
      exact ⟨rfl, .top h1 rfl⟩
    · have := (hsub c hc).mp hq
      exact ⟨(this.2.trans_member hc).1, this.1⟩
    · obtain ⟨j, kd', k', rfl, h1, h2⟩ := mem_members.mp hc
      unfold serviceSel at h2
      split at h2 <;> cases h2
      have := (mem_servicePtrs h1 (.top h1 rfl)).mp hq
      exact ⟨this.2.1, this.1⟩
  · rintro ⟨hf, hv⟩
    have hb : Below ⟨i, []⟩ q := ⟨hf, q.path, by simp⟩
    rcases hb.cases with rfl | ⟨j, hb'⟩
    · cases hv
    · have hvc := visible_up hv hb' (by simp)
      cases hvc with
      | inside h => cases h
      | top h2 h3 =>
        unfold Offered at h3
        split at h3 <;> try cases h3
        all_goals try (rename_i hx; cases hx)
        · left
          have := leaf_below (by simp) h2 (by intro k'; rfl) hv hb'
          subst this
          exact mem_members.mpr ⟨j, _, _, rfl, h2, rfl⟩
        · have hc : (⟨i, [j]⟩ : Ptr) ∈ (membersOf r ⟨i, []⟩ typeSel).map (·.2) := mem_members.mpr ⟨j, _, _, rfl, h2, rfl⟩
          exact .inr (.inl ⟨_, hc, (hsub _ hc).mpr ⟨hv, hb'⟩⟩)
        · have hc : (⟨i, [j]⟩ : Ptr) ∈ (membersOf r ⟨i, []⟩ typeSel).map (·.2) := mem_members.mpr ⟨j, _, _, rfl, h2, rfl⟩
          exact .inr (.inl ⟨_, hc, (hsub _ hc).mpr ⟨hv, hb'⟩⟩)
        · exact .inr (.inr ⟨⟨i, [j]⟩, mem_members.mpr ⟨j, _, _, rfl, h2, rfl⟩,
            (mem_servicePtrs h2 (.top h2 rfl)).mpr ⟨hv, hb'⟩⟩)

/-! ### The depth of a file -/

theorem childrenAt_size {f : ProtoFile} : ∀ {path es}, f.childrenAt path = some es →
    sizeOf es + path.length ≤ sizeOf f.elems := by
  intro path
  induction path with
  | nil => intro es h; cases h; simp
  | cons j path ih =>
    intro es h
    unfold ProtoFile.childrenAt at h
    rw [Option.map_eq_some_iff] at h
    obtain ⟨e, h, rfl⟩ := h
    rw [Option.bind_eq_some_iff] at h
    obtain ⟨es', h1, h2⟩ := h
    have h3 := ih h1
    have h4 := List.sizeOf_lt_of_mem (List.mem_of_getElem? h2)
    have h5 : sizeOf e.children < sizeOf e := by cases e; simp [Elem.children]; omega
    simp only [List.length_cons]
    omega

/-- The declarations of a file are at bounded depth. -/
theorem depth_bound (r : Reg) (i : Nat) : ∃ d, ∀ p : Ptr, p.file = i → Visible r p → p.path.length ≤ d := by
  cases hf : r.heap[i]? with
  | none =>
    refine ⟨0, ?_⟩
    rintro p rfl hv
    have hn : r.kind p = none := by simp [Reg.kind, Reg.elem, hf]
    cases hv with
    | top h => rw [hn] at h; cases h
    | inside _ _ h => rw [hn] at h; cases h
  | some f =>
    refine ⟨sizeOf f.elems + 1, ?_⟩
    rintro p rfl hv
    obtain ⟨j, path, kd, hp, hk⟩ : ∃ j path kd, p.path = j :: path ∧ r.kind p = some kd := by
      cases hv with
      | top h => exact ⟨_, _, _, rfl, h⟩
      | inside _ _ h => exact ⟨_, _, _, rfl, h⟩
    unfold Reg.kind at hk
    rw [Option.map_eq_some_iff] at hk
    obtain ⟨e, he, _⟩ := hk
    simp only [Reg.elem, hf, Option.bind_some, hp, ProtoFile.elemAt, Option.bind_eq_some_iff] at he
    obtain ⟨es, h1, _⟩ := he
    have := childrenAt_size h1
    rw [hp, List.length_cons]
    omega

theorem matching_get {α β : Type} {R : α → β → Prop} {as : List α} {bs : List β} (h : Matching R as bs) :
    (∀ (i : Nat) a, as[i]? = some a → ∃ b, bs[i]? = some b ∧ R a b) ∧ (∀ (i : Nat) b, bs[i]? = some b → ∃ a, as[i]? = some a ∧ R a b) := by
  induction h with
  | nil => exact ⟨by simp, by simp⟩
  | cons h _ ih =>
    constructor
    · intro i a' hi
      cases i with
      | zero => simp only [List.getElem?_cons_zero, Option.some.injEq] at hi; subst hi; exact ⟨_, rfl, h⟩
      | succ i => exact ih.1 i a' hi
    · intro i a' hi
      cases i with
      | zero => simp only [List.getElem?_cons_zero, Option.some.injEq] at hi; subst hi; exact ⟨_, rfl, h⟩
      | succ i => exact ih.2 i a' hi

theorem handleOf_unique {r : Reg} {n : Node} {p q : Ptr} (h : HandleOf r n p) (h' : HandleOf r n q) : p = q := by
  obtain ⟨_, _, _, rfl, _⟩ := h
  obtain ⟨_, _, _, e, _⟩ := h'
  cases e
  rfl

theorem walk_complete {r : Reg} {i : Nat} {ns : List Node} {ps : List Ptr} (hm : Matching (HandleOf r) ns ps)
    (hn : ps.Nodup) (hps : ∀ p, p ∈ ps ↔ p.file = i ∧ Visible r p) : AllOnce r i ns := by
  obtain ⟨h1, h2⟩ := matching_get hm
  constructor
  · intro n hn
    obtain ⟨j, hj⟩ := List.getElem?_of_mem hn
    obtain ⟨p, hp, hh⟩ := h1 j n hj
    obtain ⟨g1, g2⟩ := (hps p).mp (List.mem_of_getElem? hp)
    exact ⟨p, g1, g2, hh⟩
  · intro p hf hv
    obtain ⟨j, hj⟩ := List.getElem?_of_mem ((hps p).mpr ⟨hf, hv⟩)
    obtain ⟨n, hn', hh⟩ := h2 j p hj
    refine ⟨j, ⟨n, hn', hh⟩, ?_⟩
    rintro j' ⟨n', hj', hh'⟩
    obtain ⟨p', hp', hh2⟩ := h1 j' n' hj'
    have := handleOf_unique hh' hh2
    subst this
    exact ((List.getElem?_inj (List.getElem?_eq_some_iff.mp hj).1 hn).mp (hj.trans hp'.symm)).symm

/-- C111: a full walk meets every declaration that iterators offer exactly once. In every reachable state with a handle
    for a file, the walk over the file, with any sufficient bound on the depth of the recursion, ends with the handles
    of exactly the visible declarations of the file, each once and each handle of the right kind; or `Type` panics on
    the way, and then some visible field has a type name that denotes something that is not a type. -/
theorem C111_walk {P c a i} (hr : Reachable P c) (hn : Node.wrapped a .file ⟨i, []⟩ ∈ c.pool) :
    ∃ d, ∀ fuel, d ≤ fuel →
      (∃ ns r', walkFile fuel ⟨i, []⟩ c.reg = (.ok ns, r') ∧ AllOnce c.reg i ns) ∨
      (∃ e r', walkFile fuel ⟨i, []⟩ c.reg = (.panic e, r')) ∧ SomeMisused c.reg i := by
  obtain ⟨d, hd⟩ := depth_bound c.reg i
  refine ⟨d, fun fuel hf => ?_⟩
  have hd' : ∀ p : Ptr, p.file = i → Visible c.reg p → p.path.length ≤ fuel := fun p h1 h2 => Nat.le_trans (hd p h1 h2) hf
  obtain ⟨o, hi, hg⟩ := reachable_inv hr
  have hroot : Rooted c.reg ⟨i, []⟩ := GoodW.rooted (hg _ hn)
  have h := walkFile_goes (i := i) (fuel := fuel) ⟨CacheExt.refl c.reg, o, hi⟩ hroot hd'
  rcases hw : walkFile fuel ⟨i, []⟩ c.reg with ⟨res, r'⟩
  rw [hw] at h
  rcases h with ⟨ns, e, _, hm⟩ | ⟨⟨e, he⟩, hb⟩
  · simp only [List.nil_append] at e
    subst e
    exact .inl ⟨ns, r', rfl, walk_complete hm (filePtrs_nodup _ _ _) fun p => mem_filePtrs hd'⟩
  · simp only at he
    subst he
    exact .inr ⟨⟨e, r', rfl⟩, hb⟩

/-- C111, no panic: if every visible field of the file has a type name that denotes a type, or nothing, the walk gives
    exactly the visible declarations, each once. -/
theorem C111_total {P c a i} (hr : Reachable P c) (hn : Node.wrapped a .file ⟨i, []⟩ ∈ c.pool)
    (hm : ¬ SomeMisused c.reg i) :
    ∃ d, ∀ fuel, d ≤ fuel → ∃ ns r', walkFile fuel ⟨i, []⟩ c.reg = (.ok ns, r') ∧ AllOnce c.reg i ns := by
  obtain ⟨d, h⟩ := C111_walk hr hn
  exact ⟨d, fun fuel hf => (h fuel hf).resolve_right fun h => hm h.2⟩

/-! ### Examples -/

/-- The places of the handles. -/
def walked : Res (List Node) → Option (List (List Nat))
  | .ok ns => some ((ns.filterMap Node.handle).map fun x : WKind × Ptr => x.2.path)
  | _ => none

def misusedB (r : Reg) (p : Ptr) : Bool :=
  match r.kind p with
  | some (.normalField _ typ _ _ _) => match resolveNameRaw r.defined (r.scope (.at p)) typ with
    | (c, true) => match (r.registry c).bind r.kind with
      | some kd => !kd.isType
      | none => false
    | _ => false
  | _ => false

theorem not_misused {r : Reg} (h : (allPtrs 0 r.heap).all (fun p => !misusedB r p) = true) (i : Nat) :
    ¬ SomeMisused r i := by
  rintro ⟨p, _, _, n, typ, s, rep, opt, q, kd, hk, _, href, hq, ht⟩
  obtain ⟨e, he, _⟩ : ∃ e, r.elem p = some e ∧ e.kind = _ := by
    have := hk
    unfold Reg.kind at this
    rw [Option.map_eq_some_iff] at this
    exact this
  have := List.all_eq_true.mp h p (elem_allPtrs he)
  obtain ⟨c, h1, h2⟩ := refers_resolve href
  simp [misusedB, hk, h1, h2, hq, ht] at this

/-- The hypotheses are met, and the walk over the example file meets the declarations in this order: the import, the
    message with its fields, the branches of its oneof, its map field, the nested message (field first, then what is
    inside it) and the enum with its values, then the service and its method. -/
example : Reachable AnyTree Ex.c1 ∧ (∃ a, Node.wrapped a .file ⟨1, []⟩ ∈ Ex.c1.pool) ∧ ¬ SomeMisused Ex.c1.reg 1 ∧
    walked (walkFile 5 ⟨1, []⟩ Ex.c1.reg).1 = some [[2], [4], [0, 4], [1, 4], [2, 4], [3, 4], [0, 3, 4], [1, 3, 4],
      [4, 4], [5, 4], [1, 5, 4], [0, 5, 4], [0, 0, 5, 4], [6, 4], [0, 6, 4], [1, 6, 4], [5], [0, 5]] :=
  ⟨Ex.c1_reach, Ex.hasW_spec (i := 0) (by decide +kernel), not_misused (by decide +kernel) 1, by decide +kernel⟩

/-- `message M { S x = 1; }  service S {}`. -/
def WS : World := Ex.worldOf [(descriptorPath, Ex.descriptor), (b!"m.proto",
  let f := b!"m.proto"
  [Ex.el f 1 (.message b!"M" false) [Ex.fld f 2 b!"x" b!"S" 1], Ex.el f 3 (.service b!"S")])]
def cS : Client := Client.exec ⟨(newRegistry WS 5).2, []⟩ [.proto WS 5 b!"m.proto"]

def walkPanicked : Res (List Node) → Bool
  | .panic _ => true
  | _ => false

/-- The other outcome is there: a field of type `S`, where `S` is a service. -/
example : Reachable AnyTree cS ∧ (∃ a, Node.wrapped a .file ⟨1, []⟩ ∈ cS.pool) ∧
    walkPanicked (walkFile 5 ⟨1, []⟩ cS.reg).1 = true ∧ SomeMisused cS.reg 1 :=
  ⟨⟨WS, 5, _, _, fun _ _ _ _ => trivial, Ex.ok_of_okOk (by decide +kernel), fun op _ => by
      cases op <;> first | exact trivial | exact fun _ _ _ _ => trivial, rfl⟩,
   Ex.hasW_spec (i := 0) (by decide +kernel), by decide +kernel,
   ⟨1, [0, 0]⟩, rfl, .inside (.top (by rfl) (by rfl)) (by rfl) (by rfl) (by rfl),
   b!"x", b!"S", 1, false, false, ⟨1, [1]⟩, .service b!"S", by rfl, (not_keyword_iff _).mpr (by decide +kernel),
   resolve_refers (c := b!".S") (by decide +kernel) (by decide +kernel), by rfl, by rfl⟩

end Protoast.Props
