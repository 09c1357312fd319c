import Verif.Spec.Meta
import Verif.Props.Options
import Verif.Props.Iter
import Verif.Proof.ValueSpec
/-
  C52–C56: go_package, comments, descriptions and accessors.
-/
namespace Protoast.Props
open Protoast

/-! ### A world for the examples -/

/-- `k.proto` has a comment between its statements, a go_package option with a comment of its own, and a map field;
    `r.proto` has a custom file option written relative to its package; `g.proto` has neither. -/
def WG : World := Ex.worldOf [(descriptorPath, Ex.descriptor), (b!"k.proto",
  let f := b!"k.proto"
  [Ex.el f 1 (.packageK b!"k"), Ex.el f 2 .comment,
   .mk { filename := f, line := 4 } (some [b!"doc"]) (.option b!"go_package" (Ex.lit f b!"x/y;z")) [],
   Ex.el f 5 (.message b!"M" false) [Ex.el f 6 (.mapField b!"mp" b!"string" b!"string" 1), Ex.fld f 7 b!"s" b!"string" 2,
     Ex.el f 8 (.oneof b!"c") [Ex.el f 9 (.oneofField b!"left" b!"string" 4)]]]),
  (b!"r.proto",
  let f := b!"r.proto"
  [Ex.el f 1 (.packageK b!"r"), Ex.el f 2 (.importK descriptorPath),
   Ex.el f 3 (.message b!"google.protobuf.FileOptions" true) [Ex.fld f 4 b!"note" b!"string" 50001],
   Ex.el f 5 (.option b!"(note)" (Ex.lit f b!"n")), Ex.el f 6 (.option b!"go_package" (Ex.lit f b!"x/y;z"))]),
  (b!"g.proto",
  let f := b!"g.proto"
  [Ex.el f 1 (.packageK b!"g"), Ex.el f 2 (.option b!"java_package" (Ex.lit f b!"j")),
   Ex.el f 3 (.option b!"go_package" (Ex.lit f b!"x/y;z")), Ex.el f 4 (.enum b!"E") [Ex.el f 5 (.enumField b!"A" 7)]])]

/-- Pool: 0 file k, 1 M, 2 its map field, 3 the map, 4 its string field, 5 the go_package option of k, 6 file r, 7 file g,
    8 E, 9 A, 10 the go_package option of g, 11 its java_package option, 12 the oneof field, 13 the oneof, 14 its branch. -/
def opsG : List Op :=
  [.proto WG 5 b!"k.proto", .query 0 (.named .fileMessage b!"M"), .query 1 (.iter .messageFields 0),
   .query 2 (.plain .fieldType), .query 1 (.iter .messageFields 1), .query 0 (.iter .options 0),
   .proto WG 5 b!"r.proto", .proto WG 5 b!"g.proto", .query 7 (.named .fileEnum b!"E"), .query 8 (.iter .enumValues 0),
   .query 7 (.iter .options 1), .query 7 (.iter .options 0), .query 1 (.iter .messageFields 2),
   .query 12 (.plain .fieldType), .query 13 (.iter .oneofBranches 0)]
def cG : Client := Client.exec ⟨(newRegistry WG 5).2, []⟩ opsG

theorem cG_clean : CleanReachable WFFile cG := by
  have hW : WG.Sat WFFile := by
    apply Ex.worldOf_sat
    intro x hx
    apply Ex.wfb_spec
    simp only [List.mem_cons, List.not_mem_nil, or_false] at hx
    rcases hx with rfl | rfl | rfl | rfl <;> decide +kernel
  refine ⟨WG, 5, _, opsG, hW, Ex.ok_of_okOk (by decide +kernel), ?_, Ex.loadsB_spec (by decide +kernel), rfl⟩
  apply Ex.opsW_sat
  intro op hop W' f p e
  subst e
  simp only [opsG, List.mem_cons, Op.proto.injEq, reduceCtorEq, List.not_mem_nil, or_false, false_or] at hop
  rcases hop with h | h | h <;> (rw [h.1]; exact hW)

example : cG.pool.length = 15 := by decide +kernel

/-! ### C52 -/

theorem indexByte_spec {c : UInt8} : ∀ {s : Str}, (indexByte c s = none → c ∉ s) ∧
    ∀ i, indexByte c s = some i → c ∉ s.take i ∧ s = s.take i ++ c :: s.drop (i + 1) := by
  intro s
  induction s with
  | nil => exact ⟨by simp [indexByte], by simp [indexByte]⟩
  | cons b s ih =>
    unfold indexByte
    split
    · next hb =>
      subst hb
      refine ⟨by simp, ?_⟩
      intro i h
      cases h
      simp
    · next hb =>
      refine ⟨?_, ?_⟩
      · intro h
        rw [Option.map_eq_none_iff] at h
        rw [List.mem_cons]
        rintro (h' | h')
        · exact hb h'.symm
        · exact ih.1 h h'
      · intro i h
        rw [Option.map_eq_some_iff] at h
        obtain ⟨j, hj, rfl⟩ := h
        obtain ⟨h1, h2⟩ := ih.2 j hj
        rw [List.take_succ_cons, List.drop_succ_cons]
        refine ⟨?_, ?_⟩
        · rw [List.mem_cons]
          rintro (h' | h')
          · exact hb h'.symm
          · exact h1 h'
        · rw [List.cons_append, ← h2]

theorem split_spec (source : Str) : SplitsAt source (splitGoPackage source).path (splitGoPackage source).name := by
  unfold splitGoPackage
  split
  · next h => exact .inr ⟨indexByte_spec.1 h, rfl, rfl⟩
  · next i h => exact .inl (indexByte_spec.2 i h)

/-- C52: for a go_package option (the option field is the one registered as go_package of the file options) the result
    is the source split at the first semicolon. -/
theorem C52_split {c a q cls gf name lit} (_hc : CleanReachable WFFile c) (_ho : Node.option a q cls gf ∈ c.pool)
    (hg : c.reg.registry b!".google.protobuf.FileOptions.go_package" = some gf)
    (hk : c.reg.kind q = some (.option name lit)) :
    ∃ info, goPackageOption (.option a q cls gf) c.reg = (.ok (some info), c.reg) ∧
      SplitsAt lit.source info.path info.name := by
  refine ⟨_, ?_, split_spec lit.source⟩
  simp only [goPackageOption, M.bind_apply, M.get_apply, show c.reg.registry goPackageField = some gf from hg, hk]
  rw [if_neg (by simp)]
  rfl

/-- C52: every other option gives nil. -/
theorem C52_other {c a q cls f gf} (_hc : CleanReachable WFFile c) (_ho : Node.option a q cls f ∈ c.pool)
    (hg : c.reg.registry b!".google.protobuf.FileOptions.go_package" = some gf) (hf : f ≠ gf) :
    goPackageOption (.option a q cls f) c.reg = (.ok none, c.reg) := by
  simp only [goPackageOption, M.bind_apply, M.get_apply, show c.reg.registry goPackageField = some gf from hg]
  rw [if_pos (by simpa using hf)]
  rfl

/-- C52: nodes that are no options give nil. -/
theorem C52_not_option {n : Node} {r : Reg} (h : n.optionField = none) : goPackageOption n r = (.ok none, r) := by
  cases n with
  | option => cases h
  | _ => rfl

/-- The split determines path and name. -/
theorem C52_unique {source path name path' name'} (h : SplitsAt source path name) (g : SplitsAt source path' name') :
    path = path' ∧ name = name' := by
  have key : ∀ {s t x y : Str}, (59 : UInt8) ∉ s → (59 : UInt8) ∉ t → s ++ 59 :: x = t ++ 59 :: y → s = t ∧ x = y := by
    intro s
    induction s with
    | nil =>
      intro t x y _ ht h
      cases t with
      | nil => simp at h; exact ⟨rfl, h⟩
      | cons a t => simp at h; exact absurd (h.1 ▸ List.mem_cons_self) ht
    | cons a s ih =>
      intro t x y hs ht h
      cases t with
      | nil => simp at h; exact absurd (h.1 ▸ List.mem_cons_self) hs
      | cons b t =>
        simp only [List.cons_append, List.cons.injEq] at h
        have := ih (fun hc => hs (List.mem_cons_of_mem _ hc)) (fun hc => ht (List.mem_cons_of_mem _ hc)) h.2
        exact ⟨by rw [h.1, this.1], this.2⟩
  rcases h with ⟨h1, h2⟩ | ⟨h1, h2, h3⟩ <;> rcases g with ⟨g1, g2⟩ | ⟨g1, g2, g3⟩
  · rw [h2] at g2; exact key h1 g1 g2
  · rw [h2] at g1; simp at g1
  · rw [g2] at h1; simp at h1
  · subst h2 h3 g2 g3; exact ⟨rfl, rfl⟩

/-- Non-vacuity of C52. -/
example : ∃ a info, Node.option a ⟨3, [2]⟩ ⟨0, [2]⟩ ⟨0, [1, 2]⟩ ∈ cG.pool ∧
    goPackageOption (.option a ⟨3, [2]⟩ ⟨0, [2]⟩ ⟨0, [1, 2]⟩) cG.reg = (.ok (some info), cG.reg) ∧
    info.path = b!"x/y" ∧ info.name = b!"z" := by
  obtain ⟨a, hm⟩ := hasOpt_spec (c := cG) (i := 10) (q := ⟨3, [2]⟩) (cls := ⟨0, [2]⟩) (f := ⟨0, [1, 2]⟩) (by decide +kernel)
  obtain ⟨info, h1, h2⟩ := C52_split cG_clean hm (by decide +kernel) (name := b!"go_package")
    (lit := Ex.lit b!"g.proto" b!"x/y;z") rfl
  have := C52_unique h2 (.inl ⟨by decide, rfl⟩ : SplitsAt (Ex.lit b!"g.proto" b!"x/y;z").source b!"x/y" b!"z")
  exact ⟨a, info, hm, h1, this⟩
example : ∃ a, Node.option a ⟨3, [1]⟩ ⟨0, [2]⟩ ⟨0, [0, 2]⟩ ∈ cG.pool ∧
    goPackageOption (.option a ⟨3, [1]⟩ ⟨0, [2]⟩ ⟨0, [0, 2]⟩) cG.reg = (.ok none, cG.reg) := by
  obtain ⟨a, hm⟩ := hasOpt_spec (c := cG) (i := 11) (q := ⟨3, [1]⟩) (cls := ⟨0, [2]⟩) (f := ⟨0, [0, 2]⟩) (by decide +kernel)
  exact ⟨a, hm, C52_other cG_clean hm (gf := ⟨0, [1, 2]⟩) (by decide +kernel) (by decide)⟩

/-- `IsValid`. -/
theorem C52_valid (i : GoPackageInfo) : i.isValid = true ↔ i.path ≠ [] ∧ i.name ≠ [] := by
  simp [GoPackageInfo.isValid]

/-! ### C53 -/

/-- C53 as promised: whatever the file contains. -/
def C53_statement : Prop :=
  ∀ c, CleanReachable WFFile c → ∀ n ∈ c.pool, ∀ a p r1 es cls gf, nodeFile n c.reg = (.ok (some (.wrapped a .file p)), r1) →
    c.reg.children p = some es → ClassAt c.reg b!".google.protobuf.FileOptions" cls →
    c.reg.registry b!".google.protobuf.FileOptions.go_package" = some gf → FieldNamed c.reg cls b!"go_package" gf →
    ∃ res r', goPackage n c.reg = (.ok res, r') ∧ GoPackageOf c.reg p (packageDot es) cls gf res

theorem fieldNamed_parent {r : Reg} {cls name f} (h : FieldNamed r cls name f) : f.parent = .at cls := by
  obtain ⟨_, i, _, _, _, _, _, _, rfl, _⟩ := h
  rfl

theorem fieldNamed_kind {r : Reg} {cls name f} (h : FieldNamed r cls name f) :
    ∃ b c d g, r.kind f = some (.normalField name b c d g) := by
  obtain ⟨es, i, e, b, c, d, g, h1, rfl, h3, h4, _⟩ := h
  refine ⟨b, c, d, g, ?_⟩
  unfold Reg.children at h1
  rw [Option.bind_eq_some_iff] at h1
  obtain ⟨fo, h1, h2⟩ := h1
  simp only [Reg.kind, Reg.elem, h1, Option.bind_some, ProtoFile.elemAt, h2, h3, Option.map_some, h4]

/-- Two members of the same object with the same name have the same fully qualified name. -/
theorem declared_sibling {r : Reg} {f g cls : Ptr} {s t name : Str} (hf : Declared r s f) (hg : Declared r t g)
    (pf : f.parent = .at cls) (pg : g.parent = .at cls) {b c d h b' c' d' h'}
    (kf : r.kind f = some (.normalField name b c d h)) (kg : r.kind g = some (.normalField name b' c' d' h')) : s = t := by
  rcases f with ⟨fi, fp⟩
  rcases g with ⟨gi, gp⟩
  cases fp with
  | nil => cases pf
  | cons i fp =>
  cases gp with
  | nil => cases pg
  | cons j gp =>
  simp only [Ptr.parent, Vis.at.injEq] at pf pg
  rw [← pg] at pf
  cases pf
  obtain ⟨fo, h1, h2⟩ := hf
  obtain ⟨fo', h3, h4⟩ := hg
  simp only at h1 h2 h3 h4
  rw [h1] at h3
  cases h3
  unfold Reg.kind at kf kg
  rw [Option.map_eq_some_iff] at kf kg
  obtain ⟨e, h5, h6⟩ := kf
  obtain ⟨e', h7, h8⟩ := kg
  simp only [Reg.elem, h1, Option.bind_some] at h5 h7
  unfold ProtoFile.fqn at h2 h4
  simp only [h5, h7, h6, h8, Option.bind_some, Kind.declName] at h2 h4
  cases hs : fo.scopeAt fp with
  | none => rw [hs] at h2; simp at h2
  | some sc =>
    rw [hs] at h2 h4
    simp only [Option.some.injEq] at h2 h4
    rw [← h2, ← h4]

/-- The name of a file option is that of go_package exactly if it is bound to go_package. -/
theorem optionName_go {r : Reg} (hN : Named r) {cls gf q f : Ptr} {w : Str} {lit : Literal}
    (hcl : ClassAt r b!".google.protobuf.FileOptions" cls)
    (hg : r.registry b!".google.protobuf.FileOptions.go_package" = some gf)
    (hgn : FieldNamed r cls b!"go_package" gf) (hk : r.kind q = some (.option w lit)) (hb : Binds r [] cls w f) :
    ∃ nm, Option.name q cls f r = (.ok nm, r) ∧ (nm = b!"(.google.protobuf.FileOptions).go_package" ↔ f = gf) := by
  have hsc : r.scope (.at cls) = b!".google.protobuf.FileOptions" := by
    obtain ⟨n, e, hkc⟩ := hcl.2
    exact hN.scope _ _ (hN.sound.names _ _ hcl.1) (by intro _ _ h; rw [hkc] at h; cases h)
  have hgk := fieldNamed_kind hgn
  have hgp := fieldNamed_parent hgn
  have hfk : ∃ n b c d g, r.kind f = some (.normalField n b c d g) := by
    rcases hb with ⟨_, h⟩ | ⟨_, h⟩
    · exact h
    · obtain ⟨b, c, d, g, h⟩ := fieldNamed_kind h; exact ⟨_, _, _, _, _, h⟩
  obtain ⟨n, b, c, d, g, hfk⟩ := hfk
  by_cases hp : f.parent = .at cls
  · refine ⟨b!"(" ++ r.scope (.at cls) ++ b!")." ++ n, ?_, ?_⟩
    · simp only [Option.name, M.bind_apply, M.get_apply, hp, if_true, hfk]
      rfl
    · rw [hsc]
      constructor
      · intro h
        have hn : n = b!"go_package" := by
          have : b!"(.google.protobuf.FileOptions)." ++ n = b!"(.google.protobuf.FileOptions)." ++ b!"go_package" := h
          exact List.append_cancel_left this
        subst hn
        rcases hb with ⟨hr, _⟩ | ⟨_, hfn⟩
        · obtain ⟨x, _, hx⟩ := refers_resolve hr
          obtain ⟨b', c', d', g', hgk⟩ := hgk
          have e := declared_sibling (hN.sound.names _ _ hx) (hN.sound.names _ _ hg) hp hgp hfk hgk
          rw [e, hg] at hx
          cases hx
          rfl
        · obtain ⟨_, _, _, _, hk'⟩ := fieldNamed_kind hfn
          rw [hfk] at hk'
          cases hk'
          have := builtin_named.mpr hfn
          rw [builtin_named.mpr hgn] at this
          cases this
          rfl
      · rintro rfl
        obtain ⟨_, _, _, _, hgk⟩ := hgk
        rw [hfk] at hgk
        cases hgk
        rfl
  · refine ⟨w, ?_, ?_⟩
    · simp only [Option.name, M.bind_apply, M.get_apply, if_neg hp, hk]
      rfl
    · constructor
      · rintro rfl
        rcases hb with ⟨hr, _⟩ | ⟨hu, _⟩
        · have hr : r.registry b!".google.protobuf.FileOptions.go_package" = some f := hr
          rw [hg] at hr
          cases hr
          rfl
        · have hu : r.registry b!".google.protobuf.FileOptions.go_package" = none := hu
          rw [hg] at hu
          cases hu
      · rintro rfl
        exact absurd hgp hp

/-- The loop of `GoPackage` over a list of elements. -/
theorem goPackage_loop {r0 : Reg} (hN : Named r0) {cls gf : Ptr}
    (hcl : ClassAt r0 b!".google.protobuf.FileOptions" cls)
    (hg : r0.registry b!".google.protobuf.FileOptions.go_package" = some gf)
    (hgn : FieldNamed r0 cls b!"go_package" gf) : ∀ (l : List (Ptr × Elem)) {o r}, Inv o r → CacheExt r0 r →
    Present r l → (∀ x ∈ l, Representable r0 b!".google.protobuf.FileOptions" x.2) →
    ∃ res r', runSteps goPackageBody (l.filterMap fun x => everythingStep registryOptionsFile x.1 x.2.kind) none r =
        (.ok res, r') ∧
      ((res = none ∧ ∀ x ∈ l.filterMap optionOf, ¬ Binds r0 [] cls x.2 gf) ∨
       ∃ pre x post w lit info, l.filterMap optionOf = pre ++ x :: post ∧ (∀ y ∈ pre, ¬ Binds r0 [] cls y.2 gf) ∧
         Binds r0 [] cls x.2 gf ∧ r0.kind x.1 = some (.option w lit) ∧ res = some (some info) ∧
         SplitsAt lit.source info.path info.name) := by
  intro l
  induction l with
  | nil => intro o r _ _ _ _; exact ⟨none, r, rfl, .inl ⟨rfl, by simp⟩⟩
  | cons x l ih =>
    intro o r hi hx hp hrep
    have hcl' : ClassAt r registryOptionsFile cls := hcl.congr hx.heap hx.registry
    obtain ⟨m, n, o', r', h1, h2, h3, h4, h5, h6⟩ := everything_step_fields hi (hN.sound.cacheExt hx) hcl'
      (hp x (by simp)).1 (hp x (by simp)).2 ((hrep x (by simp)).congr hx.heap hx.registry)
    have hx' : CacheExt r0 r' := hx.trans h6
    rw [List.filterMap_cons, h1]
    simp only [runSteps, M.bind_apply, h2]
    have tail := fun hi hx hp => ih (o := o') (r := r') hi hx hp fun y hy => hrep y (by simp [hy])
    have tail := tail h5 hx' (present_ext h4 fun y hy => hp y (by simp [hy]))
    rcases h3 with ⟨h3, h3'⟩ | ⟨w, a, f, h3, rfl, hb⟩
    · -- not an option
      have hbody : goPackageBody none n r' = (.ok (none, true), r') := by
        rcases n with _ | n
        · rfl
        · cases n with
          | option => cases h3
          | _ => rfl
      rw [hbody]
      simp only [if_true]
      obtain ⟨res, r2, e1, e2⟩ := tail
      refine ⟨res, r2, e1, ?_⟩
      rw [List.filterMap_cons, h3']
      exact e2
    · have hb0 : Binds r0 [] cls w f := hb.congr hx.heap.symm hx.registry.symm
      have hkq : ∃ lit, r0.kind x.1 = some (.option w lit) := by
        have he := (hp x (by simp)).1
        rw [show r.elem x.1 = r0.elem x.1 by simp only [Reg.elem, hx.heap]] at he
        unfold optionOf at h3
        split at h3
        · next w' lit hk =>
          cases h3
          exact ⟨lit, by simp [Reg.kind, he, hk]⟩
        · cases h3
      obtain ⟨lit, hkq⟩ := hkq
      have hN' := hN.cacheExt hx'
      have hkq' : r'.kind x.1 = some (.option w lit) := by rw [hx'.kind_eq]; exact hkq
      have hg' : r'.registry b!".google.protobuf.FileOptions.go_package" = some gf := by rw [hx'.registry]; exact hg
      obtain ⟨nm, g1, g2⟩ := optionName_go hN' (hcl.congr hx'.heap hx'.registry) hg'
        (by unfold FieldNamed at hgn ⊢; rw [hx'.children_eq]; exact hgn) hkq' (hb0.congr hx'.heap hx'.registry)
      by_cases hf : f = gf
      · subst hf
        have hnm := g2.mpr rfl
        refine ⟨some (some (splitGoPackage lit.source)), r', ?_, .inr ⟨[], (x.1, w), l.filterMap optionOf, w, lit, _, ?_, by simp, hb0, hkq, rfl,
          split_spec lit.source⟩⟩
        · have hopt : goPackageOption (.option a x.1 cls f) r' = (.ok (some (splitGoPackage lit.source)), r') := by
            simp only [goPackageOption, M.bind_apply, M.get_apply, show r'.registry goPackageField = some f from hg', hkq']
            rw [if_neg (by simp)]
            rfl
          have hbody : goPackageBody none (some (.option a x.1 cls f)) r' =
              (.ok (some (some (splitGoPackage lit.source)), false), r') := by
            simp only [goPackageBody, M.bind_apply, g1, hnm]
            rw [if_neg (by simp)]
            simp only [M.bind_apply, hopt]
            rfl
          rw [hbody]
          rfl
        · rw [List.filterMap_cons, h3]; rfl
      · have hnm : nm ≠ b!"(.google.protobuf.FileOptions).go_package" := fun h => hf (g2.mp h)
        have hbody : goPackageBody none (some (.option a x.1 cls f)) r' = (.ok (none, true), r') := by
          simp only [goPackageBody, M.bind_apply, g1]
          rw [if_pos hnm]
          rfl
        rw [hbody]
        simp only [if_true]
        obtain ⟨res, r2, e1, e2⟩ := tail
        refine ⟨res, r2, e1, ?_⟩
        have hnb : ¬ Binds r0 [] cls w gf := fun h => hf (hb0.unique h)
        rw [List.filterMap_cons, h3]
        rcases e2 with ⟨e2, e3⟩ | ⟨pre, y, post, w', lit', info, e2, e3, e4⟩
        · refine .inl ⟨e2, ?_⟩
          intro y hy
          rcases List.mem_cons.mp hy with rfl | hy
          · exact hnb
          · exact e3 y hy
        · refine .inr ⟨(x.1, w) :: pre, y, post, w', lit', info, by rw [e2]; rfl, ?_, e4⟩
          intro y hy
          rcases List.mem_cons.mp hy with rfl | hy
          · exact hnb
          · exact e3 y hy

/-- C53 for files all of whose elements have node types or are options whose names only the outermost scope declares.
    Missing: files with comments at top level, editions or groups, and files with options written relative to their
    package: there `GoPackage` panics. -/
theorem C53_partial {c n a p r1 es cls gf} (hc : CleanReachable WFFile c) (_hn : n ∈ c.pool)
    (hfile : nodeFile n c.reg = (.ok (some (.wrapped a .file p)), r1)) (hes : c.reg.children p = some es)
    (hcl : ClassAt c.reg b!".google.protobuf.FileOptions" cls)
    (hg : c.reg.registry b!".google.protobuf.FileOptions.go_package" = some gf)
    (hgn : FieldNamed c.reg cls b!"go_package" gf)
    (hrep : ∀ e ∈ es, Representable c.reg b!".google.protobuf.FileOptions" e)
    (hout : ∀ x ∈ optionsOf c.reg p, OutermostOnly c.reg (packageDot es) (optionRef x.2)) :
    ∃ res r', goPackage n c.reg = (.ok res, r') ∧ GoPackageOf c.reg p (packageDot es) cls gf res := by
  obtain ⟨o, hi, hgood⟩ := reachable_inv (clean_reachable hc)
  have hx : CacheExt c.reg r1 := by
    have := (RO.nodeFile n).ext c.reg
    rw [hfile] at this
    exact this
  obtain ⟨o1, h1, h2, h3⟩ := nodeFile_tri hi n
  rw [hfile] at h1 h2 h3
  have hroot : Rooted r1 p := GoodW.rooted (h3 _ rfl _ rfl)
  have hkids : r1.kids p = c.reg.kids p := hx.kids_eq p
  have hN : Named c.reg := ⟨reachable_sound (clean_reachable hc), fun _ _ => scope_declared hc⟩
  obtain ⟨res, r', e1, e2⟩ := goPackage_loop hN hcl hg hgn (r1.kids p) h2 hx (present_kids hroot) (by
    intro y hy
    rw [hkids, kids_zipIdx, List.mem_map] at hy
    obtain ⟨⟨e, i⟩, hy, rfl⟩ := hy
    have := List.fst_mem_of_mem_zipIdx hy
    rw [hes] at this
    exact hrep e this)
  rw [hkids, ← optionsOf_kids] at e2
  have hrun : goPackage n c.reg = (.ok (res.getD none), r') := by
    simp only [goPackage, M.bind_apply, hfile, Seq.run, File.everything, overKids_apply]
    rw [e1]
    cases res <;> rfl
  refine ⟨_, _, hrun, ?_⟩
  have bi : ∀ x ∈ optionsOf c.reg p, (Binds c.reg (packageDot es) cls x.2 gf ↔ Binds c.reg [] cls x.2 gf) :=
    fun x hx => outermost_binds (hout x hx)
  rcases e2 with ⟨rfl, e3⟩ | ⟨pre, x, post, w, lit, info, f1, f2, f3, f4, rfl, f6⟩
  · exact .inl ⟨rfl, fun x hx h => e3 x hx ((bi x hx).mp h)⟩
  · refine .inr ⟨pre, x, post, w, lit, info, f1, ?_, (bi x (by rw [f1]; simp)).mpr f3, f4, rfl, f6⟩
    intro y hy h
    exact f2 y hy ((bi y (by rw [f1]; simp [hy])).mp h)

theorem cG_class : ClassAt cG.reg b!".google.protobuf.FileOptions" ⟨0, [2]⟩ := ⟨by decide +kernel, _, _, rfl⟩
theorem cG_go : FieldNamed cG.reg ⟨0, [2]⟩ b!"go_package" ⟨0, [1, 2]⟩ := by
  rw [← builtin_named]
  decide +kernel

/-- The file `NodeFile` finds. -/
def fileFound : Res (Option Node) × Reg → Option Ptr
  | (.ok (some (.wrapped _ .file p)), _) => some p
  | _ => none
theorem fileFound_spec {x p} (h : fileFound x = some p) : ∃ a r1, x = (.ok (some (.wrapped a .file p)), r1) := by
  rcases x with ⟨res, r1⟩
  cases res with
  | ok y =>
    rcases y with _ | y
    · cases h
    · cases y with
      | wrapped a k q => cases k <;> cases h; exact ⟨_, _, rfl⟩
      | _ => cases h
  | _ => cases h

/-- C53 is false: the comment in `k.proto` makes `GoPackage` of its message panic. -/
theorem C53_false : ¬ C53_statement := by
  intro h
  obtain ⟨a, hm⟩ := Ex.hasW_spec (c := cG) (i := 1) (k := .message) (p := ⟨1, [3]⟩) (by decide +kernel)
  obtain ⟨b, r1, hf⟩ := fileFound_spec (x := nodeFile (.wrapped a .message ⟨1, [3]⟩) cG.reg) (p := ⟨1, []⟩)
    (by show fileFound (nodeFile (.wrapped 0 .message ⟨1, [3]⟩) cG.reg) = _; decide +kernel)
  obtain ⟨res, r', e, _⟩ := h cG cG_clean _ hm _ _ _ _ _ _ hf rfl cG_class (by decide +kernel) cG_go
  have hp : Ex.isOk (goPackage (.wrapped a .message ⟨1, [3]⟩) cG.reg).1 = false := by
    show Ex.isOk (goPackage (.wrapped 0 .message ⟨1, [3]⟩) cG.reg).1 = false
    decide +kernel
  rw [e] at hp
  cases hp

/-- So does the custom option of `r.proto`, written relative to its package. -/
theorem C53_relative_option_panics : ∃ a, Node.wrapped a .file ⟨2, []⟩ ∈ cG.pool ∧
    Ex.isOk (goPackage (.wrapped a .file ⟨2, []⟩) cG.reg).1 = false := by
  obtain ⟨a, hm⟩ := Ex.hasW_spec (c := cG) (i := 6) (k := .file) (p := ⟨2, []⟩) (by decide +kernel)
  refine ⟨a, hm, ?_⟩
  show Ex.isOk (goPackage (.wrapped 0 .file ⟨2, []⟩) cG.reg).1 = false
  decide +kernel

/-- Non-vacuity of C53_partial: the enum value of `g.proto`. -/
example : ∃ a res r', Node.wrapped a .enumValue ⟨3, [0, 3]⟩ ∈ cG.pool ∧
    goPackage (.wrapped a .enumValue ⟨3, [0, 3]⟩) cG.reg = (.ok res, r') ∧
    GoPackageOf cG.reg ⟨3, []⟩ b!".g" ⟨0, [2]⟩ ⟨0, [1, 2]⟩ res ∧
    Binds cG.reg b!".g" ⟨0, [2]⟩ b!"go_package" ⟨0, [1, 2]⟩ := by
  obtain ⟨a, hm⟩ := Ex.hasW_spec (c := cG) (i := 9) (k := .enumValue) (p := ⟨3, [0, 3]⟩) (by decide +kernel)
  obtain ⟨b, r1, hf⟩ := fileFound_spec (x := nodeFile (.wrapped a .enumValue ⟨3, [0, 3]⟩) cG.reg) (p := ⟨3, []⟩)
    (by show fileFound (nodeFile (.wrapped 0 .enumValue ⟨3, [0, 3]⟩) cG.reg) = _; decide +kernel)
  have hu : ∀ s, s = [] ∨ s = b!".g" → ∀ w, w = b!"go_package" ∨ w = b!"java_package" → Unresolved cG.reg s w := by
    rintro s (rfl | rfl) w (rfl | rfl) <;> exact unresolved_iff.mpr (by decide +kernel)
  have hj : FieldNamed cG.reg ⟨0, [2]⟩ b!"java_package" ⟨0, [0, 2]⟩ := by rw [← builtin_named]; decide +kernel
  obtain ⟨res, r', h1, h2⟩ := C53_partial cG_clean hm hf (es := _) rfl cG_class (by decide +kernel) cG_go (by
    intro e he
    simp only [List.mem_cons, List.not_mem_nil, or_false] at he
    rcases he with rfl | rfl | rfl | rfl
    · exact .inl rfl
    · exact .inr ⟨_, _, _, _, rfl, cG_class, .inr ⟨hu _ (.inl rfl) _ (.inr rfl), hj⟩⟩
    · exact .inr ⟨_, _, _, _, rfl, cG_class, .inr ⟨hu _ (.inl rfl) _ (.inl rfl), cG_go⟩⟩
    · exact .inl rfl) (by
    intro x hx
    right
    intro s' hs' _
    have e : optionsOf cG.reg ⟨3, []⟩ = [(⟨3, [1]⟩, b!"java_package"), (⟨3, [2]⟩, b!"go_package")] := by decide +kernel
    rw [e] at hx
    simp only [List.mem_cons, List.not_mem_nil, or_false] at hx
    rcases hx with rfl | rfl
    · have := hu b!".g" (.inr rfl) b!"java_package" (.inr rfl)
      exact this s' hs'
    · have := hu b!".g" (.inr rfl) b!"go_package" (.inl rfl)
      exact this s' hs')
  exact ⟨a, res, r', hm, h1, h2, .inr ⟨hu _ (.inr rfl) _ (.inl rfl), cG_go⟩⟩

/-! ### C54 -/

/-- C54 as promised: for every node that stands for an element of the source. -/
def C54_statement : Prop :=
  ∀ c, CleanReachable WFFile c → ∀ n ∈ c.pool, ∃ r', comment n c.reg = (.ok (commentOf c.reg n), r')

/-- C54 for all nodes but options: `Comment` succeeds and gives the attached comment lines, nil when there are none. -/
theorem C54_partial {P c n} (hr : Reachable P c) (hn : n ∈ c.pool) (ho : n.optionField = none) :
    comment n c.reg = (.ok (commentOf c.reg n), c.reg) := by
  cases n with
  | wrapped a k p =>
    by_cases hf : k = .file
    · subst hf
      obtain ⟨o, hi, hg⟩ := reachable_inv hr
      have ht := (hg _ hn).target
      have hp : c.reg.elem p = none := by
        rcases p with ⟨i, path⟩
        cases path with
        | nil => cases h : c.reg.heap[i]? <;> simp [Reg.elem, h, ProtoFile.elemAt]
        | cons j rest =>
          simp only [Reg.wrapTarget] at ht
          rw [Option.map_eq_some_iff] at ht
          obtain ⟨k, hk, ht⟩ := ht
          rw [Option.bind_eq_some_iff] at hk
          obtain ⟨e, _, hk⟩ := hk
          cases ht
          exact absurd rfl (wrapKind_ne_file hk)
      simp [comment, commentOf, Node.element, hp]
    · obtain ⟨kd, h1, h2⟩ := handle_kind hr hn hf
      cases k
      case messageField =>
        cases kd <;> cases h2 <;> simp [comment, commentOf, Node.element, h1]
      case file => exact absurd rfl hf
      all_goals rfl
  | option => cases ho
  | _ => rfl

/-- Options do not have their comments. -/
theorem C54_option_nil (a q cls f r) : comment (.option a q cls f) r = (.ok none, r) := rfl

/-- C54 is false: the go_package option of `k.proto` has a comment. -/
theorem C54_false : ¬ C54_statement := by
  intro h
  obtain ⟨a, hm⟩ := hasOpt_spec (c := cG) (i := 5) (q := ⟨1, [2]⟩) (cls := ⟨0, [2]⟩) (f := ⟨0, [1, 2]⟩) (by decide +kernel)
  obtain ⟨r', e⟩ := h cG cG_clean _ hm
  rw [C54_option_nil] at e
  have : commentOf cG.reg (.option a ⟨1, [2]⟩ ⟨0, [2]⟩ ⟨0, [1, 2]⟩) = some [b!"doc"] := rfl
  rw [this] at e
  cases e

/-! ### C55 -/

/-- C55 as promised. -/
def C55_statement : Prop :=
  ∀ c, CleanReachable WFFile c → ∀ n ∈ c.pool, ∃ d r', nodeDescription n c.reg = (.ok d, r') ∧ d ≠ []

/-- The nodes that have a description: not maps, builtin types, option values, nor repeated types of these. -/
def Node.describable : Node → Bool
  | .wrapped _ _ _ => true
  | .option _ _ _ _ => true
  | .oneof _ _ => true
  | .repeated _ (some t) => Node.describable t
  | _ => false

theorem describes_nonempty {n d} (h : Describes n d) : d ≠ [] := by
  cases h <;> simp

/-- C55 for the describable nodes, and what the description is. Missing: maps, builtin types, option values. -/
theorem C55_partial : ∀ (n : Node), Node.describable n = true → ∀ r, ∃ d, nodeDescription n r = (.ok d, r) ∧
    Describes n d ∧ d ≠ []
  | .wrapped a k p, _, r => by
    cases k <;> exact ⟨_, rfl, by constructor, by simp⟩
  | .option _ _ _ _, _, r => ⟨_, rfl, .option, by simp⟩
  | .oneof _ _, _, r => ⟨_, rfl, .oneof, by simp⟩
  | .repeated a (some t), h, r => by
    obtain ⟨d, h1, h2, _⟩ := C55_partial t h r
    refine ⟨b!"[]" ++ d, ?_, .repeated h2, by simp⟩
    simp only [nodeDescription, M.bind_apply, h1]
    rfl
  | .repeated _ none, h, _ => by cases h
  | .builtin _, h, _ => by cases h
  | .map _ _, h, _ => by cases h
  | .value _, h, _ => by cases h
  | .mapItem _ _, h, _ => by cases h

/-- All other nodes make `NodeDescription` panic. -/
theorem C55_panics : ∀ (n : Node), Node.describable n = false → ∀ r, ∃ e r', nodeDescription n r = (.panic e, r')
  | .repeated _ (some t), h, r => by
    obtain ⟨e, r', h1⟩ := C55_panics t h r
    refine ⟨e, r', ?_⟩
    simp only [nodeDescription, M.bind_apply, h1]
  | .repeated _ none, _, _ => ⟨_, _, rfl⟩
  | .builtin _, _, _ => ⟨_, _, rfl⟩
  | .value _, _, _ => ⟨_, _, rfl⟩
  | .mapItem _ _, _, _ => ⟨_, _, rfl⟩
  | .map _ p, _, r => by
    unfold nodeDescription Map.key
    simp only [M.bind_apply, M.get_apply]
    split
    · next k _ h => cases k <;> exact ⟨_, _, rfl⟩
    · exact ⟨_, _, rfl⟩
    · next h =>
      exfalso
      cases hk : r.kind p with
      | none => rw [hk] at h; cases h
      | some k =>
        rw [hk] at h
        cases k
        case mapField x kt y z =>
          cases hb : builtinComparableType kt <;> simp only [hb] at h <;> cases h
        all_goals cases h
  | .wrapped _ _ _, h, _ => by cases h
  | .option _ _ _ _, h, _ => by cases h
  | .oneof _ _, h, _ => by cases h

/-- C55 is false: a map type has no description. -/
theorem C55_false : ¬ C55_statement := by
  intro h
  have hmap : ∃ a p, Node.map a p ∈ cG.pool := by
    have : (match cG.pool[3]? with | some (.map _ _) => true | _ => false) = true := by decide +kernel
    split at this
    · next a p h => exact ⟨a, p, List.mem_of_getElem? h⟩
    · cases this
  obtain ⟨a, p, hm⟩ := hmap
  obtain ⟨d, r', e, _⟩ := h cG cG_clean _ hm
  obtain ⟨e', r'', g⟩ := C55_panics (.map a p) rfl cG.reg
  rw [g] at e
  cases e

/-! ### C56 -/

/-- C56, names: for every handle of a declaration `Name` is the name in the source. -/
theorem C56_name {P c a k p} (hr : Reachable P c) (hn : Node.wrapped a k p ∈ c.pool)
    (hk : k ∈ [WKind.message, .enum, .enumValue, .messageField, .oneofBranch, .service, .method]) :
    ∃ kd s, c.reg.kind p = some kd ∧ kd.sourceName = some s ∧
      Attr.read .name (.wrapped a k p) c.reg = (.ok (.str s), c.reg) := by
  obtain ⟨kd, h1, h2⟩ := handle_kind hr hn (by rintro rfl; revert hk; decide)
  cases kd <;> cases h2 <;> try exact absurd hk (by decide)
  all_goals
    refine ⟨_, _, h1, rfl, ?_⟩
    simp only [Attr.read, Message.name, Enum.name, EnumValue.name, MessageField.name, OneOfBranch.name, Service.name,
      Method.name, M.bind_apply, M.get_apply, h1]
    rfl

/-- C56, numbers: `Value` of a field, branch or enum value is the number in the source; the only failure is `Value` of
    a oneof field, which panics. -/
theorem C56_number {P c a k p} (hr : Reachable P c) (hn : Node.wrapped a k p ∈ c.pool)
    (hk : k ∈ [WKind.enumValue, .messageField, .oneofBranch]) :
    ∃ kd, c.reg.kind p = some kd ∧
      ((∃ v, kd.sourceNumber = some v ∧ Attr.read .number (.wrapped a k p) c.reg = (.ok (.int v), c.reg)) ∨
       (∃ s, kd = .oneof s ∧ k = .messageField ∧
          Attr.read .number (.wrapped a k p) c.reg = (.panic .oneofHasNoValue, c.reg))) := by
  obtain ⟨kd, h1, h2⟩ := handle_kind hr hn (by rintro rfl; revert hk; decide)
  refine ⟨kd, h1, ?_⟩
  cases kd <;> cases h2 <;> try exact absurd hk (by decide)
  case oneof s =>
    refine .inr ⟨s, rfl, rfl, ?_⟩
    simp only [Attr.read, MessageField.value, M.bind_apply, M.get_apply, h1]
    rfl
  all_goals
    refine .inl ⟨_, rfl, ?_⟩
    simp only [Attr.read, EnumValue.value, MessageField.value, OneOfBranch.value, M.bind_apply, M.get_apply, h1]
    rfl

/-- C56, labels: `Optional` of a field succeeds and is true exactly for the fields declared `optional`. -/
theorem C56_optional {P c a p} (hr : Reachable P c) (hn : Node.wrapped a .messageField p ∈ c.pool) :
    ∃ b, Attr.read .optional (.wrapped a .messageField p) c.reg = (.ok (.bool b), c.reg) ∧
      (b = true ↔ ∃ n t s rep, c.reg.kind p = some (.normalField n t s rep true)) := by
  obtain ⟨kd, h1, h2⟩ := handle_kind hr hn (by decide)
  cases kd <;> cases h2
  case normalField n t s rep o =>
    refine ⟨o, ?_, ?_⟩
    · simp only [Attr.read, MessageField.optional, M.bind_apply, M.get_apply, h1]; rfl
    · rw [h1]
      constructor
      · rintro rfl; exact ⟨_, _, _, _, rfl⟩
      · rintro ⟨_, _, _, _, h⟩; cases h; rfl
  all_goals
    refine ⟨false, ?_, ?_⟩
    · simp only [Attr.read, MessageField.optional, M.bind_apply, M.get_apply, h1]; rfl
    · rw [h1]
      constructor
      · intro h; cases h
      · rintro ⟨_, _, _, _, h⟩; cases h

/-- C56, extend blocks: `IsExtension` of a message handle is true exactly for extend blocks. -/
theorem C56_isExtension {P c a p} (hr : Reachable P c) (hn : Node.wrapped a .message p ∈ c.pool) :
    ∃ b n, Attr.read .isExtension (.wrapped a .message p) c.reg = (.ok (.bool b), c.reg) ∧
      c.reg.kind p = some (.message n b) := by
  obtain ⟨kd, h1, h2⟩ := handle_kind hr hn (by decide)
  cases kd <;> cases h2
  refine ⟨_, _, ?_, h1⟩
  simp only [Attr.read, Message.isExtension, M.bind_apply, M.get_apply, h1]; rfl

/-- C56, statements: `Import.Path`, `Syntax.Value` and `Package.Package` are what the statements say. -/
theorem C56_statements {P c a k p} (hr : Reachable P c) (hn : Node.wrapped a k p ∈ c.pool) :
    (k = .importW → ∃ s, c.reg.kind p = some (.importK s) ∧
      Attr.read .importPath (.wrapped a k p) c.reg = (.ok (.str s), c.reg)) ∧
    (k = .syntaxW → ∃ s, c.reg.kind p = some (.syntaxK s) ∧
      Attr.read .syntaxValue (.wrapped a k p) c.reg = (.ok (.str s), c.reg)) ∧
    (k = .packageW → ∃ s, c.reg.kind p = some (.packageK s) ∧
      Attr.read .package (.wrapped a k p) c.reg = (.ok (.str s), c.reg)) := by
  refine ⟨?_, ?_, ?_⟩ <;>
    (rintro rfl
     obtain ⟨kd, h1, h2⟩ := handle_kind hr hn (by decide)
     cases kd <;> cases h2
     refine ⟨_, h1, ?_⟩
     simp only [Attr.read, Import.path, Syntax.value, Package.package, M.bind_apply, M.get_apply, h1]
     rfl)

/-- C56, files: `Name` of a file handle is the path the file was loaded under. -/
theorem C56_file {P c a p} (hr : Reachable P c) (hn : Node.wrapped a .file p ∈ c.pool) :
    ∃ f, c.reg.heap[p.file]? = some f ∧ Attr.read .name (.wrapped a .file p) c.reg = (.ok (.str f.filename), c.reg) ∧
      c.reg.protos f.filename = some p.file := by
  obtain ⟨o, hi, hg⟩ := reachable_inv hr
  have ht := (hg _ hn).target
  rcases p with ⟨i, path⟩
  cases path with
  | nil =>
    simp only [Reg.wrapTarget] at ht
    split at ht
    · next hl =>
      have hf : c.reg.heap[i]? = some c.reg.heap[i] := List.getElem?_eq_getElem hl
      refine ⟨_, hf, ?_, hi.heapProtos _ _ hf⟩
      simp only [Attr.read, File.name, M.bind_apply, M.get_apply, hf]
      rfl
    · cases ht
  | cons j rest =>
    simp only [Reg.wrapTarget] at ht
    rw [Option.map_eq_some_iff] at ht
    obtain ⟨k, hk, ht⟩ := ht
    rw [Option.bind_eq_some_iff] at hk
    obtain ⟨e, _, hk⟩ := hk
    cases ht
    exact absurd rfl (wrapKind_ne_file hk)

/-- C56, packages: `Package` of a file handle is what its first package statement says, and empty if it has none. -/
theorem C56_package {P c a p} (hr : Reachable P c) (hn : Node.wrapped a .file p ∈ c.pool) :
    ∃ f s, c.reg.heap[p.file]? = some f ∧ Attr.read .package (.wrapped a .file p) c.reg = (.ok (.str s), c.reg) ∧
      ((∃ pre e post, f.elems = pre ++ e :: post ∧ e.kind = .packageK s ∧ ∀ x ∈ pre, ∀ t, x.kind ≠ .packageK t) ∨
       (s = [] ∧ ∀ x ∈ f.elems, ∀ t, x.kind ≠ .packageK t)) := by
  obtain ⟨f, hf, _, _⟩ := C56_file hr hn
  have hpath : p.path = [] := by
    obtain ⟨o, hi, hg⟩ := reachable_inv hr
    have ht := (hg _ hn).target
    rcases p with ⟨i, path⟩
    cases path with
    | nil => rfl
    | cons j rest =>
      simp only [Reg.wrapTarget] at ht
      rw [Option.map_eq_some_iff] at ht
      obtain ⟨k, hk, ht⟩ := ht
      rw [Option.bind_eq_some_iff] at hk
      obtain ⟨e, _, hk⟩ := hk
      cases ht
      exact absurd rfl (wrapKind_ne_file hk)
  have first : ∀ es : List Elem,
      (∃ pre e post, es = pre ++ e :: post ∧ e.kind = .packageK (firstPackage es) ∧ ∀ x ∈ pre, ∀ t, x.kind ≠ .packageK t) ∨
      (firstPackage es = [] ∧ ∀ x ∈ es, ∀ t, x.kind ≠ .packageK t) := by
    intro es
    induction es with
    | nil => exact .inr ⟨rfl, by simp⟩
    | cons e es ih =>
      by_cases h : ∃ t, e.kind = .packageK t
      · obtain ⟨t, h⟩ := h
        exact .inl ⟨[], e, es, rfl, by rw [firstPackage, h], by simp⟩
      · have he : firstPackage (e :: es) = firstPackage es := by
          rw [firstPackage]
          split
          · next n hk => exact absurd ⟨n, hk⟩ h
          · rfl
        rw [he]
        have h' : ∀ t, e.kind ≠ .packageK t := fun t ht => h ⟨t, ht⟩
        rcases ih with ⟨pre, x, post, h1, h2, h3⟩ | ⟨h1, h2⟩
        · refine .inl ⟨e :: pre, x, post, congrArg (e :: ·) h1, h2, ?_⟩
          intro y hy
          rcases List.mem_cons.mp hy with rfl | hy
          · exact h'
          · exact h3 y hy
        · refine .inr ⟨h1, ?_⟩
          intro y hy
          rcases List.mem_cons.mp hy with rfl | hy
          · exact h'
          · exact h2 y hy
  refine ⟨f, firstPackage f.elems, hf, ?_, first f.elems⟩
  obtain ⟨i, path⟩ := p
  cases hpath
  simp [Attr.read, File.package, Reg.children, hf, ProtoFile.childrenAt]

/-- Non-vacuity of C56: the oneof field and the branch of `k.proto`, the enum value of `g.proto`. -/
example : ∃ a, Node.wrapped a .messageField ⟨1, [2, 3]⟩ ∈ cG.pool ∧
    Attr.read .number (.wrapped a .messageField ⟨1, [2, 3]⟩) cG.reg = (.panic .oneofHasNoValue, cG.reg) := by
  obtain ⟨a, hm⟩ := Ex.hasW_spec (c := cG) (i := 12) (k := .messageField) (p := ⟨1, [2, 3]⟩) (by decide +kernel)
  obtain ⟨kd, h1, ⟨v, h2, _⟩ | ⟨_, _, _, h⟩⟩ := C56_number (clean_reachable cG_clean) hm (by decide)
  · have : cG.reg.kind ⟨1, [2, 3]⟩ = some (.oneof b!"c") := rfl
    rw [this] at h1
    cases h1
    cases h2
  · exact ⟨a, hm, h⟩
example : ∃ a, Node.wrapped a .enumValue ⟨3, [0, 3]⟩ ∈ cG.pool ∧
    Attr.read .number (.wrapped a .enumValue ⟨3, [0, 3]⟩) cG.reg = (.ok (.int 7), cG.reg) := by
  obtain ⟨a, hm⟩ := Ex.hasW_spec (c := cG) (i := 9) (k := .enumValue) (p := ⟨3, [0, 3]⟩) (by decide +kernel)
  have hk : cG.reg.kind ⟨3, [0, 3]⟩ = some (.enumField b!"A" 7) := rfl
  obtain ⟨kd, h1, ⟨v, h2, h3⟩ | ⟨_, h, _, _⟩⟩ := C56_number (clean_reachable cG_clean) hm (by decide)
  · rw [hk] at h1
    cases h1
    cases h2
    exact ⟨a, hm, h3⟩
  · rw [hk] at h1
    cases h1
    cases h
example : ∃ a s, Node.wrapped a .oneofBranch ⟨1, [0, 2, 3]⟩ ∈ cG.pool ∧
    Attr.read .name (.wrapped a .oneofBranch ⟨1, [0, 2, 3]⟩) cG.reg = (.ok (.str s), cG.reg) := by
  obtain ⟨a, hm⟩ := Ex.hasW_spec (c := cG) (i := 14) (k := .oneofBranch) (p := ⟨1, [0, 2, 3]⟩) (by decide +kernel)
  obtain ⟨kd, s, _, _, h⟩ := C56_name (clean_reachable cG_clean) hm (by decide)
  exact ⟨a, s, hm, h⟩

end Protoast.Props
