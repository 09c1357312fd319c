import Verif.Proof.Origin
import Verif.Props.Everything
import Verif.Props.OptionName
/-
  C113: where option handles come from.
-/
namespace Protoast.Props
open Protoast

/-- The scope a call really uses. -/
def rawScope (r : Reg) (n : Node) : Query → Str → Prop
  | .iter .options _, s | .named .optionNamed _, s =>
    ∃ p, n.decl = some p ∧ ((∀ a p, n ≠ .wrapped a .file p) → s = r.scope (.at p)) ∧
      ((∃ a, n = .wrapped a .file p) → s = firstPackage ((r.children p).getD []))
  | .iter .fileEverything _, s | .iter .messageEverything _, s | .iter .enumEverything _, s
  | .iter .serviceEverything _, s | .iter .methodOptions _, s => s = []
  | _, _ => False

/-- A new option of the receiver. -/
def NewOf (r : Reg) (n : Node) (q : Query) (x : Node) : Prop :=
  ∃ p cn s, optionClassOf r n = some (p, cn) ∧ NewOption r p cn s x ∧ rawScope r n q s

theorem toList_ok {m : M (Option Node)} {r r' : Reg} {l : List Node} {x : Node}
    (h : (m >>= fun x => pure x.toList) r = (.ok l, r')) (hx : x ∈ l) : m r = (.ok (some x), r') := by
  simp only [M.bind_apply] at h
  rcases hm : m r with ⟨res, r1⟩
  rw [hm] at h
  cases res <;> cases h
  rename_i y
  cases y <;> simp at hx
  subst hx; rfl

theorem iter_made {o r} (hi : Inv o r) (hs : Sound r) (q : IterQ) {n : Node} (g : Good o r n) (i : Nat) {r' : Reg} {x : Node}
    (h : q.run n i r = (.ok (some x), r')) : NotOption x ∨ NewOf r n (.iter q i) x := by
  have wr : ∀ {p : Ptr} {pick : Ptr → Kind → Option (M Node)}, Rooted r p →
      (∀ q k m, pick q k = some m → (∃ w, m = wrapAs w q) ∨ m = wrapNamed q) →
      Seq.nth (overKids p pick) i r = (.ok (some x), r') → NotOption x := by
    intro p pick hp h hn
    obtain ⟨q, e, m, h1, h2, h3⟩ := nth_ok hn
    rcases h q e.kind m h2 with ⟨w, rfl⟩ | rfl
    · obtain ⟨_, _, _, h4⟩ := wrapAs_no hi (k := w) (kids_under hp h1)
      exact h4 x (by rw [h3])
    · obtain ⟨_, _, _, h4⟩ := wrapNamed_no hi (kids_under hp h1)
      exact h4 x (by rw [h3])
  unfold IterQ.run at h
  split at h
  iterate 5
    · refine .inl (wr (by first | exact GoodW.rooted g | exact g.2.2) (fun q k m h => ?_) h)
      split at h <;> cases h <;> first | exact .inl ⟨_, rfl⟩ | exact .inr rfl
  · rcases everything_made hi hs (GoodW.rooted g) h with h | h
    · exact .inl h
    · exact .inr ⟨_, _, _, rfl, h, rfl⟩
  iterate 3
    · refine .inl (wr (by first | exact GoodW.rooted g | exact g.2.2) (fun q k m h => ?_) h)
      split at h <;> cases h <;> first | exact .inl ⟨_, rfl⟩ | exact .inr rfl
  · rcases everything_made hi hs (GoodW.rooted g) h with h | h
    · exact .inl h
    · exact .inr ⟨_, _, _, rfl, h, rfl⟩
  iterate 2
    · refine .inl (wr (by first | exact GoodW.rooted g | exact g.2.2) (fun q k m h => ?_) h)
      split at h <;> cases h <;> first | exact .inl ⟨_, rfl⟩ | exact .inr rfl
  · rcases everything_made hi hs (GoodW.rooted g) h with h | h
    · exact .inl h
    · exact .inr ⟨_, _, _, rfl, h, rfl⟩
  iterate 2
    · refine .inl (wr (by first | exact GoodW.rooted g | exact g.2.2) (fun q k m h => ?_) h)
      split at h <;> cases h <;> first | exact .inl ⟨_, rfl⟩ | exact .inr rfl
  · rcases everything_made hi hs (GoodW.rooted g) h with h | h
    · exact .inl h
    · exact .inr ⟨_, _, _, rfl, h, rfl⟩
  · exact .inr ⟨_, _, _, rfl, methodOptions_made hs h, rfl⟩
  · rcases options_shape g with ⟨p, cn, s, h1, h2, _, h4, h5, h6⟩ | ⟨e, h1, _⟩
    · refine .inr ⟨p, cn, s, h1, ?_, p, h5, h4, h6⟩
      simp only [M.bind_apply, h2] at h
      exact seqOptions_made (i := i) (r' := r') (by simp only [M.bind_apply]; exact h)
    · simp only [M.bind_apply, h1] at h
      cases h
  · cases h

theorem named_made {o r} (hi : Inv o r) (q : NamedQ) {n : Node} (g : Good o r n) (s : Str) {r' : Reg} {x : Node}
    (h : q.run n s r = (.ok (some x), r')) : NotOption x ∨ NewOf r n (.named q s) x := by
  have no : ∀ {m : M (Option Node)}, Tri o r m NoOpt → m r = (.ok (some x), r') → NotOption x := by
    intro m ⟨_, _, _, h4⟩ hm
    exact h4 (some x) (by rw [hm]) x rfl
  unfold NamedQ.run at h
  split at h
  · exact .inl (no (firstKid_no hi (by first | exact GoodW.rooted g | exact g.2.2)) h)
  · exact .inl (no (firstKid_no hi (by first | exact GoodW.rooted g | exact g.2.2)) h)
  · exact .inl (no (fileType_no hi (GoodW.rooted g)) h)
  · exact .inl (no (firstKid_no hi (by first | exact GoodW.rooted g | exact g.2.2)) h)
  · exact .inl (no (firstKid_no hi (by first | exact GoodW.rooted g | exact g.2.2)) h)
  · exact .inl (no (firstKid_no hi (by first | exact GoodW.rooted g | exact g.2.2)) h)
  · exact .inl (no (messageType_no hi (GoodW.rooted g)) h)
  · exact .inl (no (firstKid_no hi (by first | exact GoodW.rooted g | exact g.2.2)) h)
  · exact .inl (no (firstKid_no hi (by first | exact GoodW.rooted g | exact g.2.2)) h)
  · exact .inl (no (firstKid_no hi (by first | exact GoodW.rooted g | exact g.2.2)) h)
  · exact .inl (no (firstKid_no hi (by first | exact GoodW.rooted g | exact g.2.2)) h)
  · rcases options_shape g with ⟨p, cn, s', h1, h2, h3, h4, h5, h6⟩ | ⟨e, h1, h2⟩
    · refine .inr ⟨p, cn, s', h1, ?_, p, h5, h4, h6⟩
      rcases h3 s with h3 | ⟨e, h3⟩
      · rw [h3] at h
        exact namedOption_made h
      · rw [h3] at h; cases h
    · obtain ⟨e, h2⟩ := h2 s
      rw [h2] at h; cases h
  · cases h

theorem query_made {o r} (hi : Inv o r) (hs : Sound r) (q : Query) {n : Node} (g : Good o r n) {r' : Reg} {l : List Node}
    {x : Node} (h : q.run n r = (.ok l, r')) (hx : x ∈ l) : x = n ∨ NotOption x ∨ NewOf r n q x := by
  cases q with
  | iter q i => exact .inr (iter_made hi hs q g i (toList_ok h hx))
  | named q s => exact .inr (named_made hi q g s (toList_ok h hx))
  | plain q =>
    obtain ⟨_, _, _, h4⟩ := plain_no hi q g
    rcases h4 l (by show (q.run n r).1 = _; rw [show q.run n r = (.ok l, r') from h]) x hx with h | h
    · exact .inl h
    · exact .inr (.inl h)

/-- The scope used is the scope of the node. -/
theorem nameScope_of {c n p s} (hc : CleanReachable WFFile c) (hn : n ∈ c.pool) (hd : n.decl = some p)
    (hs : (∀ a p, n ≠ .wrapped a .file p) → s = c.reg.scope (.at p))
    (hp : (∃ a, n = .wrapped a .file p) → s = firstPackage ((c.reg.children p).getD [])) :
    ∃ s', NameScope c.reg n s' ∧ dotted s = dotted s' := by
  have hr := clean_reachable hc
  obtain ⟨o, hi, hg⟩ := reachable_inv hr
  have hso := reachable_sound hr
  by_cases hev : ∃ a q, n = .wrapped a .enumValue q
  · obtain ⟨a, q, rfl⟩ := hev
    cases hd
    refine ⟨[], rfl, ?_⟩
    rw [hs (by intro a p h; cases h), enumValue_scope hr hn]
  have hname : ∀ s', (OptionScope c.reg n s' ∨ (s' = [] ∧ ∀ s'', ¬ OptionScope c.reg n s'')) → NameScope c.reg n s' := by
    intro s' h
    unfold NameScope
    split
    · next a q => exact absurd ⟨_, _, rfl⟩ hev
    · exact h
  by_cases hfile : ∃ a q, n = .wrapped a .file q
  · obtain ⟨a, q, rfl⟩ := hfile
    cases hd
    have hw : GoodW o c.reg a .file p := hg _ hn
    obtain ⟨f, hf, hpp⟩ : ∃ f, c.reg.heap[p.file]? = some f ∧ p.path = [] := by
      have ht := hw.target
      rcases p with ⟨fi, path⟩
      cases path with
      | nil =>
        simp only [Reg.wrapTarget] at ht
        split at ht
        · next h => exact ⟨_, List.getElem?_eq_getElem h, rfl⟩
        · cases ht
      | cons j rest =>
        simp only [Reg.wrapTarget] at ht
        rw [Option.map_eq_some_iff] at ht
        obtain ⟨k, hk, ht⟩ := ht
        rw [Option.bind_eq_some_iff] at hk
        obtain ⟨e, _, hk⟩ := hk
        cases ht
        exact absurd rfl (wrapKind_ne_file hk)
    have hch : c.reg.children p = some f.elems := by
      unfold Reg.children
      rw [hf, hpp]; rfl
    have hwp : hasDotPrefix (firstPackage f.elems) = false := wf_package (hso.wf _ _ hf)
    refine ⟨packageDot f.elems, hname _ (.inl ⟨_, hch, rfl⟩), ?_⟩
    rw [hp ⟨a, rfl⟩, hch, Option.getD_some, dotted_packageDot hwp]
  · have hnf : ∀ a p, n ≠ .wrapped a .file p := fun a p h => hfile ⟨a, p, h⟩
    have hsc := hs hnf
    have hos : ∀ s', OptionScope c.reg n s' ↔ Declared c.reg s' p := by
      intro s'
      unfold OptionScope
      split
      · next a q => exact absurd rfl (hnf _ _)
      · rw [hd]
        exact ⟨fun ⟨_, h1, h2⟩ => by cases h1; exact h2, fun h => ⟨_, rfl, h⟩⟩
    obtain ⟨kd, hkd, hne'⟩ : ∃ kd, c.reg.kind p = some kd ∧ ∀ s v, kd ≠ .enumField s v := by
      have ht := hg _ hn
      cases n with
      | wrapped a k q =>
        cases hd
        obtain ⟨kd, h1, h2⟩ := handle_kind hr hn (fun h => hnf a p (by rw [h]))
        refine ⟨kd, h1, ?_⟩
        rintro s v rfl
        cases h2
        exact hev ⟨_, _, rfl⟩
      | oneof a q =>
        cases hd
        obtain ⟨nm, h1⟩ := ht.2.1
        exact ⟨_, h1, by intro s v h; cases h⟩
      | map a q =>
        cases hd
        obtain ⟨_, _, _, _, h1⟩ := ht.2
        exact ⟨_, h1, by intro s v h; cases h⟩
      | _ => cases hd
    have hne : ∀ s v, c.reg.kind p ≠ some (.enumField s v) := by
      intro s v h
      rw [hkd] at h
      cases h
      exact hne' _ _ rfl
    by_cases hdec : ∃ s', Declared c.reg s' p
    · obtain ⟨s', h⟩ := hdec
      exact ⟨s', hname _ (.inl ((hos s').mpr h)), by rw [hsc, scope_declared hc h hne]⟩
    · refine ⟨[], hname _ (.inr ⟨rfl, fun s'' h => hdec ⟨s'', (hos s'').mp h⟩⟩), ?_⟩
      rw [hsc]
      unfold Reg.scope
      cases h : c.reg.scopes (.at p) with
      | none => rfl
      | some s' =>
        exact absurd ⟨s', hso.scopes p s' h (kind_path hkd)⟩ hdec

/-- One call. -/
theorem step_made {c : Client} {op : Op} (hc : CleanReachable WFFile c) {a : Nat} {opt cls f : Ptr}
    (hn : Node.option a opt cls f ∈ (c.step op).pool) (ho : Node.option a opt cls f ∉ c.pool) :
    ∃ h q, op = .query h q ∧ MadeBy c h q opt cls f := by
  have hr := clean_reachable hc
  obtain ⟨o, hi, hg⟩ := reachable_inv hr
  have hso := reachable_sound hr
  unfold Client.step at hn
  rcases hrun : op.run c.pool c.reg with ⟨res, r'⟩
  rw [hrun] at hn
  cases res with
  | panic e => exact absurd hn ho
  | timeout => exact absurd hn ho
  | ok ns =>
    have hnew : Node.option a opt cls f ∈ ns := (List.mem_append.mp hn).resolve_left ho
    clear hn
    have hn := hnew
    clear hnew
    cases op with
    | proto W fuel path =>
      exfalso
      simp only [Op.run, M.bind_apply] at hrun
      rcases hp : proto W fuel path c.reg with ⟨res, r1⟩
      obtain ⟨o', h1, h2, h3⟩ := proto_tri (W := W) (fuel := fuel) (path := path) hi
      rw [hp] at hrun h3
      cases res with
      | panic e => cases hrun
      | timeout => cases hrun
      | ok x =>
        cases x with
        | error e => cases hrun; cases hn
        | ok y =>
          cases hrun
          simp only [List.mem_cons, List.not_mem_nil, or_false] at hn
          subst hn
          obtain ⟨_, _, _, h, _⟩ := h3 _ rfl _ rfl
          cases h
    | byName name =>
      exfalso
      have := toList_ok hrun hn
      unfold nodeByFullName at this
      obtain ⟨_, _, _, h4⟩ : Tri o c.reg (nodeByFullName name) NoOpt := by
        unfold nodeByFullName
        refine Tri.get ?_
        split
        · next p hp =>
          exact wrap_no hi (by intro x hx; cases hx; exact (hi.regRooted _ _ hp).under)
        · exact wrap_no hi (by intro x hx; cases hx)
      exact h4 _ (by rw [toList_ok hrun hn]) _ rfl
    | query h q =>
      refine ⟨h, q, rfl, ?_⟩
      simp only [Op.run] at hrun
      rcases hh : c.pool[h]? with _ | n
      · rw [hh] at hrun; cases hrun; cases hn
      rw [hh] at hrun
      have hnp := List.mem_of_getElem? hh
      rcases query_made hi hso q (hg n hnp) hrun hn with rfl | h1 | ⟨p, cn, s, h1, h2, h3⟩
      · exact absurd hnp ho
      · exact absurd h1 (by intro h; exact h)
      · obtain ⟨a', q', cls', f', w, e, hcl, hw, hb⟩ := h2
        cases e
        have fin : ∀ s', q.LooksUpIn c.reg n s' → dotted s = dotted s' → MadeBy c h q opt cls f := fun s' hl hd =>
          ⟨n, p, cn, w, s', hh, h1, hcl, hw, hl, hb.scope_congr hd⟩
        have opts : (∃ p, n.decl = some p ∧ ((∀ a p, n ≠ .wrapped a .file p) → s = c.reg.scope (.at p)) ∧
            ((∃ a, n = .wrapped a .file p) → s = firstPackage ((c.reg.children p).getD []))) →
            ∃ s', NameScope c.reg n s' ∧ dotted s = dotted s' :=
          fun ⟨p, h1, h2, h3⟩ => nameScope_of hc hnp h1 h2 h3
        unfold rawScope at h3
        split at h3
        · obtain ⟨s', g1, g2⟩ := opts h3
          exact fin s' g1 g2
        · obtain ⟨s', g1, g2⟩ := opts h3
          exact fin s' g1 g2
        iterate 5 exact fin s h3 rfl
        · exact h3.elim

theorem loadsOK_prefix {c : Client} : ∀ {as bs : List Op}, LoadsOK c (as ++ bs) → LoadsOK c as := by
  intro as
  induction as generalizing c with
  | nil => intro bs _; trivial
  | cons a as ih =>
    intro bs h
    exact ⟨h.1, ih h.2⟩

/-- C113: every option handle the client holds was made by one of its calls: `Options` or `OptionNamed` on a declaration,
    in the scope of that declaration, or `Everything` or `Method.Options` on the declaration, in the outermost scope.
    The declaration has the statement among its options, the class of the handle is the descriptor message for that kind
    of declaration, and its field is what the name was bound to in that scope when the call was made. -/
theorem C113_origin {c a opt cls f} (hc : CleanReachable WFFile c) (hn : Node.option a opt cls f ∈ c.pool) :
    ∃ c0 h q rest, CleanReachable WFFile c0 ∧ c = c0.exec (.query h q :: rest) ∧ (∀ op ∈ rest, Op.Sat WFFile op) ∧
      Node.option a opt cls f ∉ c0.pool ∧ MadeBy c0 h q opt cls f := by
  obtain ⟨W, fuel, r, ops, h1, h2, h3, h4, rfl⟩ := hc
  suffices H : ∀ (post pre : List Op), pre ++ post = ops → Node.option a opt cls f ∉ (Client.exec ⟨r, []⟩ pre).pool →
      ∃ pre' op post', ops = pre' ++ op :: post' ∧ Node.option a opt cls f ∉ (Client.exec ⟨r, []⟩ pre').pool ∧
        Node.option a opt cls f ∈ ((Client.exec ⟨r, []⟩ pre').step op).pool by
    obtain ⟨pre, op, post, e, g1, g2⟩ := H ops [] rfl (by simp [Client.exec])
    have hc0 : CleanReachable WFFile (Client.exec ⟨r, []⟩ pre) :=
      ⟨W, fuel, r, pre, h1, h2, fun x hx => h3 x (by rw [e]; simp [hx]), loadsOK_prefix (e ▸ h4), rfl⟩
    obtain ⟨h, q, rfl, hm⟩ := step_made hc0 g2 g1
    exact ⟨_, h, q, post, hc0, by rw [e, exec_append], fun x hx => h3 x (by rw [e]; simp [hx]), g1, hm⟩
  intro post
  induction post with
  | nil =>
    intro pre e hno
    rw [List.append_nil] at e
    subst e
    exact absurd hn hno
  | cons op post ih =>
    intro pre e hno
    by_cases hin : Node.option a opt cls f ∈ ((Client.exec ⟨r, []⟩ pre).step op).pool
    · exact ⟨pre, op, post, e.symm, hno, hin⟩
    · refine ih (pre ++ [op]) (by rw [← e]; simp) ?_
      rw [exec_append]
      exact hin

theorem later_optionsOf {r r' : Reg} (h : Later r r') {p : Ptr} {x} (hx : x ∈ optionsOf r p) : x ∈ optionsOf r' p := by
  by_cases hp : p.file < r.heap.length
  · unfold optionsOf
    rw [h.children hp]
    exact hx
  · unfold optionsOf Reg.children at hx
    rw [List.getElem?_eq_none (by omega)] at hx
    simp at hx

theorem later_optionClassOf {o : Ghost} {r r' : Reg} (h : Later r r') {n : Node} (g : Good o r n) :
    optionClassOf r' n = optionClassOf r n := by
  cases n with
  | wrapped a k p =>
    cases k <;> try rfl
    have hw : GoodW o r a .messageField p := g
    simp only [optionClassOf]
    rw [h.kind]
    rcases fieldKind_cases hw.target with ⟨_, _, _, _, _, hk⟩ | ⟨_, hk⟩ | ⟨_, _, _, _, hk⟩ <;>
      exact kind_file hk
  | _ => rfl

/-- C113, as seen at any later time: the client still holds a handle of the declaration, the option statement is one of
    its options, and the class of the option handle is still the descriptor message for that kind of declaration. -/
theorem C113_owner {c a opt cls f} (hc : CleanReachable WFFile c) (hu : UniqueNames c.reg)
    (hn : Node.option a opt cls f ∈ c.pool) :
    ∃ n p className w, n ∈ c.pool ∧ optionClassOf c.reg n = some (p, className) ∧ ClassAt c.reg className cls ∧
      (opt, w) ∈ optionsOf c.reg p := by
  obtain ⟨c0, h, q, rest, hc0, rfl, hs, _, n, p, cn, w, s, h1, h2, h3, h4, _, _⟩ := C113_origin hc hn
  have hr0 := clean_reachable hc0
  obtain ⟨o, hi, hg⟩ := reachable_inv hr0
  have hl := exec_later (.query h q :: rest) c0
  obtain ⟨l, hp⟩ := exec_pool (.query h q :: rest) c0
  have hmem := List.mem_of_getElem? h1
  refine ⟨n, p, cn, w, by rw [hp]; simp [hmem], by rw [later_optionClassOf hl (hg n hmem)]; exact h2, ⟨?_, ?_⟩,
    later_optionsOf hl h4⟩
  · refine registry_stable hr0 ?_ hu h3.1
    intro op hop
    rcases List.mem_cons.mp hop with rfl | h
    · trivial
    · exact hs op h
  · obtain ⟨nm, e, hk⟩ := h3.2
    refine ⟨nm, e, ?_⟩
    rw [hl.kind (kind_file hk), hk]

/-! ### Non-vacuity -/

/-- The first option of the message of the example was made by a call of `Options` on the handle of the message. -/
example : (∃ a, Node.option a ⟨1, [0, 6]⟩ ⟨0, [3]⟩ ⟨1, [0, 3]⟩ ∈ cV.pool) ∧ CleanReachable WFFile cV ∧
    UniqueNames cV.reg :=
  ⟨hasOpt_spec (i := 7) (by decide +kernel), cV_clean, Ex.uniqueB_spec (by decide +kernel)⟩

set_option maxRecDepth 100000 in
example : MadeBy (Client.exec ⟨(newRegistry WV 5).2, []⟩ (opsV.take 7)) 3 (.iter .options 0) ⟨1, [0, 6]⟩ ⟨0, [3]⟩
    ⟨1, [0, 3]⟩ := by
  have h : ∃ a, (Client.exec ⟨(newRegistry WV 5).2, []⟩ (opsV.take 7)).pool[3]? = some (.wrapped a .message ⟨1, [6]⟩) := by
    have h := show Ex.hasW (Client.exec ⟨(newRegistry WV 5).2, []⟩ (opsV.take 7)) 3 .message ⟨1, [6]⟩ = true by
      decide +kernel
    unfold Ex.hasW at h
    split at h
    · next a k' p' hx =>
      simp only [decide_eq_true_eq] at h
      obtain ⟨rfl, rfl⟩ := h
      exact ⟨a, hx⟩
    · cases h
  obtain ⟨a, ha⟩ := h
  exact ⟨_, ⟨1, [6]⟩, b!".google.protobuf.MessageOptions", b!"(tag)", b!".v.M", ha, rfl, ⟨by decide +kernel, _, _, rfl⟩,
    by decide +kernel, .inl ⟨_, rfl, declared_intro (by decide +kernel)⟩,
    .inl ⟨resolve_refers (c := b!".v.tag") (by decide +kernel) (by decide +kernel), _, _, _, _, _, rfl⟩⟩

end Protoast.Props
