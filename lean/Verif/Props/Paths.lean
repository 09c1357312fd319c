import Verif.Proof.Tree
import Verif.Spec.Errors
import Verif.Proof.Paths
/-
  C21–C23, C62, C63: the builder of path resolvers and the resolvers.
-/
namespace Protoast.Props
open Protoast

/-! ### The calls -/

theorem builderAfter_eq (calls : List BuilderCall) :
    (builderAfter calls).roots = rootsGiven calls ∧ ((builderAfter calls).isProtoc = true ↔ wantsProtoc calls) := by
  have key : ∀ (calls : List BuilderCall) (b : Builder),
      (calls.foldl (fun b c => match c with | .withProtoc => b.withProtoc | .withRoot rs => b.withRoot rs) b).roots =
        b.roots ++ rootsGiven calls ∧
      ((calls.foldl (fun b c => match c with | .withProtoc => b.withProtoc | .withRoot rs => b.withRoot rs) b).isProtoc =
        true ↔ b.isProtoc = true ∨ wantsProtoc calls) := by
    intro calls
    induction calls with
    | nil => intro b; simp [rootsGiven, wantsProtoc]
    | cons c calls ih =>
      intro b
      rw [List.foldl_cons]
      obtain ⟨h1, h2⟩ := ih (match c with | .withProtoc => b.withProtoc | .withRoot rs => b.withRoot rs)
      refine ⟨h1.trans ?_, h2.trans ?_⟩
      · cases c <;> simp [Builder.withProtoc, Builder.withRoot, rootsGiven]
      · cases c <;> simp [Builder.withProtoc, Builder.withRoot, wantsProtoc]
  obtain ⟨h1, h2⟩ := key calls {}
  exact ⟨h1, h2.trans ⟨fun h => h.resolve_left (by simp), .inr⟩⟩

theorem build_eq (os : OS) (b : Builder) :
    b.build os =
      if b.isProtoc then
        match protocRoot os with
        | .error e => .error (.wrap b!"setup protoc distribution resolver" e)
        | .ok root =>
          match checkRoots os (compactInPlace (sortStrs b.roots)) with
          | .error e => .error e
          | .ok rs => .ok (.protoc root :: rs)
      else checkRoots os (compactInPlace (sortStrs b.roots)) := rfl

/-! ### C21 -/

/-- C21, independence: only whether protoc was requested and which roots were given, how often, matters; not the order
    nor the grouping into calls. -/
theorem C21_order_irrelevant (os : OS) {calls calls' : List BuilderCall} (hp : wantsProtoc calls ↔ wantsProtoc calls')
    (hr : (rootsGiven calls).Perm (rootsGiven calls')) :
    (builderAfter calls).build os = (builderAfter calls').build os := by
  obtain ⟨h1, h2⟩ := builderAfter_eq calls
  obtain ⟨h3, h4⟩ := builderAfter_eq calls'
  have e : (builderAfter calls).isProtoc = (builderAfter calls').isProtoc := by
    rw [Bool.eq_iff_iff, h2, h4, hp]
  rw [build_eq, build_eq, h1, h3, e, sortStrs_perm_eq hr]

theorem compact_keeps {os : OS} (hu : os.Unix) {l : List Str} (hs : SortedStr l) {rs}
    (h : checkRoots os (compactInPlace l) = .ok rs) :
    l.Nodup ∧ rs = l.map .root ∧ ∀ x ∈ l, os.stat x = .ok true := by
  obtain ⟨h1, h2⟩ := checkRoots_ok h
  obtain ⟨e, he⟩ := hu
  have hlen : (compactKeep l).length = l.length := by
    have := compactKeep_length l
    by_cases hlt : (compactKeep l).length < l.length
    · exfalso
      have hm : ([] : Str) ∈ compactInPlace l := by
        unfold compactInPlace
        rw [List.mem_append]
        right
        rw [List.mem_replicate]
        exact ⟨by omega, rfl⟩
      have := h2 _ hm
      rw [he] at this
      cases this
    · omega
  have hin : compactInPlace l = l := by
    unfold compactInPlace
    rw [hlen, compactKeep_eq hlen]
    simp
  rw [hin] at h1 h2
  exact ⟨compactKeep_full hs hlen, h1, h2⟩

/-- C21, result: what `Build` returns when it succeeds is protoc's resolver first, if requested, and then one
    resolver per root in lexicographic order. -/
theorem C21_result {os : OS} (hu : os.Unix) {calls rs} (h : (builderAfter calls).build os = .ok rs) :
    (wantsProtoc calls ∧ ∃ incl rs', protocRoot os = .ok incl ∧ rs = .protoc incl :: rs' ∧
        RootResolvers (rootsGiven calls) rs') ∨
    (¬ wantsProtoc calls ∧ RootResolvers (rootsGiven calls) rs) := by
  obtain ⟨h1, h2⟩ := builderAfter_eq calls
  have roots : ∀ {rs}, checkRoots os (compactInPlace (sortStrs (rootsGiven calls))) = .ok rs →
      RootResolvers (rootsGiven calls) rs := by
    intro rs h
    obtain ⟨g1, g2, g3⟩ := compact_keeps hu (sortStrs_sorted _) h
    refine ⟨_, ?_, fun x => (sortStrs_perm _).mem_iff, g2⟩
    have := compactKeep_sorted (sortStrs_sorted (rootsGiven calls))
    rw [compactKeep_nodup g1] at this
    exact this
  rw [build_eq, h1] at h
  split at h
  · next hp =>
    split at h
    · cases h
    · next incl hi =>
      split at h
      · cases h
      · next rs' hrs =>
        cases h
        exact .inl ⟨h2.mp hp, incl, rs', hi, rfl, roots hrs⟩
  · next hp => exact .inr ⟨fun hw => hp (h2.mpr hw), roots h⟩

/-- C21, success: `Build` succeeds exactly when protoc's include directory is found (if requested) and the roots are
    distinct directories. -/
theorem C21_succeeds_iff {os : OS} (hu : os.Unix) (calls : List BuilderCall) :
    (∃ rs, (builderAfter calls).build os = .ok rs) ↔
      (wantsProtoc calls → ∃ incl, protocRoot os = .ok incl) ∧ (rootsGiven calls).Nodup ∧
      ∀ root ∈ rootsGiven calls, os.stat root = .ok true := by
  obtain ⟨h1, h2⟩ := builderAfter_eq calls
  have pm := sortStrs_perm (rootsGiven calls)
  have roots : (∃ rs, checkRoots os (compactInPlace (sortStrs (rootsGiven calls))) = .ok rs) ↔
      (rootsGiven calls).Nodup ∧ ∀ root ∈ rootsGiven calls, os.stat root = .ok true := by
    constructor
    · rintro ⟨rs, h⟩
      obtain ⟨g1, g2, g3⟩ := compact_keeps hu (sortStrs_sorted _) h
      exact ⟨pm.nodup_iff.mp g1, fun x hx => g3 x (pm.mem_iff.mpr hx)⟩
    · rintro ⟨g1, g2⟩
      have hn := pm.nodup_iff.mpr g1
      have hin : compactInPlace (sortStrs (rootsGiven calls)) = sortStrs (rootsGiven calls) := by
        unfold compactInPlace
        rw [compactKeep_nodup hn]
        simp
      exact ⟨_, by rw [hin]; exact checkRoots_all fun x hx => g2 x (pm.mem_iff.mp hx)⟩
  rw [build_eq, h1, ← roots]
  by_cases hp : (builderAfter calls).isProtoc = true
  · rw [if_pos hp]
    have hw := h2.mp hp
    constructor
    · rintro ⟨rs, h⟩
      split at h
      · cases h
      · next incl hi =>
        refine ⟨fun _ => ⟨incl, hi⟩, ?_⟩
        split at h
        · cases h
        · next rs' hrs => exact ⟨rs', hrs⟩
    · rintro ⟨g1, rs, g2⟩
      obtain ⟨incl, hi⟩ := g1 hw
      rw [hi, g2]
      exact ⟨_, rfl⟩
  · rw [if_neg hp]
    constructor
    · exact fun h => ⟨fun hw => absurd (h2.mpr hw) hp, h⟩
    · exact fun h => h.2

/-! ### C22 -/

/-- C22 as promised. -/
def C22_statement : Prop :=
  ∀ os : OS, os.Unix → ∀ calls calls', (wantsProtoc calls ↔ wantsProtoc calls') →
    (∀ x, x ∈ rootsGiven calls ↔ x ∈ rootsGiven calls') →
    (builderAfter calls).build os = (builderAfter calls').build os

/-- What does hold: if `Build` succeeds then it returns the same for every other list of the same roots for which it
    succeeds, and there is one resolver per distinct root. Missing: with a root given twice it does not succeed. -/
theorem C22_partial {os : OS} (hu : os.Unix) {calls calls' rs rs'} (hp : wantsProtoc calls ↔ wantsProtoc calls')
    (hr : ∀ x, x ∈ rootsGiven calls ↔ x ∈ rootsGiven calls') (h : (builderAfter calls).build os = .ok rs)
    (h' : (builderAfter calls').build os = .ok rs') : rs = rs' := by
  have n1 := ((C21_succeeds_iff hu calls).mp ⟨_, h⟩).2.1
  have n2 := ((C21_succeeds_iff hu calls').mp ⟨_, h'⟩).2.1
  have pm : (rootsGiven calls).Perm (rootsGiven calls') := (List.perm_ext_iff_of_nodup n1 n2).mpr hr
  rw [C21_order_irrelevant os hp pm, h'] at h
  cases h
  rfl

/-- A root given twice makes `Build` fail, whatever the file system. -/
theorem C22_duplicate_fails {os : OS} (hu : os.Unix) {calls} (h : ¬ (rootsGiven calls).Nodup) :
    ∃ e, (builderAfter calls).build os = .error e := by
  cases hb : (builderAfter calls).build os with
  | error e => exact ⟨e, rfl⟩
  | ok rs => exact absurd ((C21_succeeds_iff hu calls).mp ⟨rs, hb⟩).2.1 h

/-- A file system with the directories `/r` and `/s`, protoc with its include directory, and the file `a.proto` below
    all three, `etc` below `/s` only. -/
def exOS : OS where
  lookPath := .ok b!"/usr/bin/protoc"
  stat p :=
    if p = b!"/r" ∨ p = b!"/s" then .ok true
    else if p = b!"/usr/include/google/protobuf/any.proto" ∨ p = b!"/usr/include/any.proto" ∨ p = b!"/r/a.proto" ∨
      p = b!"/s/a.proto" ∨ p = b!"/s/etc" ∨ p = b!"/etc" then .ok false
    else .error .notExist

theorem exOS_unix : exOS.Unix := ⟨_, rfl⟩

/-- C22 is false. -/
theorem C22_false : ¬ C22_statement := by
  intro h
  have := h exOS exOS_unix [.withRoot [b!"/r"]] [.withRoot [b!"/r", b!"/r"]] (by simp [wantsProtoc]) (by simp [rootsGiven])
  obtain ⟨e, he⟩ := C22_duplicate_fails exOS_unix (calls := [.withRoot [b!"/r", b!"/r"]]) (by simp [rootsGiven])
  rw [he] at this
  have hs : (builderAfter [.withRoot [b!"/r"]]).build exOS = .ok [.root b!"/r"] := rfl
  rw [hs] at this
  cases this

/-- Non-vacuity of C21 and C22_partial: two ways to ask for the same resolvers. -/
example : (builderAfter [.withRoot [b!"/s"], .withProtoc, .withRoot [b!"/r"]]).build exOS =
      .ok [.protoc b!"/usr/include", .root b!"/r", .root b!"/s"] ∧
    (builderAfter [.withProtoc, .withRoot [b!"/r", b!"/s"]]).build exOS =
      .ok [.protoc b!"/usr/include", .root b!"/r", .root b!"/s"] := by
  have h : (builderAfter [.withProtoc, .withRoot [b!"/r", b!"/s"]]).build exOS =
      .ok [.protoc b!"/usr/include", .root b!"/r", .root b!"/s"] := by rfl
  refine ⟨?_, h⟩
  rw [← h]
  exact C21_order_irrelevant exOS (by simp [wantsProtoc]) (by simp [rootsGiven]; exact .swap _ _ _)

/-! ### C23 -/

/-- C23 as promised: the place a resolver answers with is below its root. -/
def C23_statement : Prop :=
  ∀ (os : OS) (root path full : Str), root ≠ [] → rootResolve os root path = .ok full →
    ∀ cwd r f, Denotes cwd root r → Denotes cwd full f → r <+: f

theorem resolve_full {os : OS} {root path full} (h : rootResolve os root path = .ok full) :
    full = joinPath [root, path] ∧ ∃ b, os.stat full = .ok b := by
  unfold rootResolve at h
  simp only at h
  split at h
  · cases h
  · next b hb => cases h; exact ⟨rfl, b, hb⟩

/-- Where a resolver's answer is: the place one gets to by walking the import path from the root, in any working
    directory; something exists there. -/
theorem C23_location {os : OS} {root path full} (hr : root ≠ []) (h : rootResolve os root path = .ok full)
    {cwd r f cs} (hroot : Denotes cwd root r) (hfull : Denotes cwd full f) (hcs : Components path cs) :
    f = walkFrom r cs ∧ ∃ b, os.stat full = .ok b := by
  obtain ⟨rfl, hb⟩ := resolve_full h
  rw [denotes_iff] at hroot hfull
  rw [hfull, hroot, join_walk cwd path hr, components_split hcs]
  exact ⟨rfl, hb⟩

/-- C23 for import paths that do not climb above their starting point; in particular all without a `..` component.
    Missing: paths that climb. -/
theorem C23_partial {os : OS} {root path full} (hr : root ≠ []) (h : rootResolve os root path = .ok full)
    {cwd r f cs} (hroot : Denotes cwd root r) (hfull : Denotes cwd full f) (hcs : Components path cs)
    (hin : StaysInside 0 cs) : r <+: f := by
  obtain ⟨hf, _⟩ := C23_location hr h hroot hfull hcs
  obtain ⟨rest, he⟩ := staysInside_prefix (cs := cs) (root := r) (inner := []) hin
  rw [List.append_nil] at he
  rw [hf, he]
  exact List.prefix_append r rest

theorem staysInside_no_dotdot : ∀ {cs : List Str}, b!".." ∉ cs → ∀ depth, StaysInside depth cs
  | [], _, _ => trivial
  | c :: cs, h, depth => by
    rw [List.mem_cons, not_or] at h
    unfold StaysInside
    split
    · exact staysInside_no_dotdot h.2 _
    · rw [if_neg (fun e => h.1 e.symm)]
      exact staysInside_no_dotdot h.2 _

/-- C23 for import paths without a `..` component. -/
theorem C23_no_dotdot {os : OS} {root path full} (hr : root ≠ []) (h : rootResolve os root path = .ok full)
    {cwd r f cs} (hroot : Denotes cwd root r) (hfull : Denotes cwd full f) (hcs : Components path cs)
    (hin : b!".." ∉ cs) : r <+: f := C23_partial hr h hroot hfull hcs (staysInside_no_dotdot hin 0)

theorem denotes_walk (cwd : List Str) (path : Str) : Denotes cwd path (walkFrom (startOf cwd path) (splitSlash path)) :=
  denotes_iff.mpr rfl

/-- C23 is false: `../etc` leaves `/r`. -/
theorem C23_false : ¬ C23_statement := by
  intro h
  have := h exOS b!"/r" b!"../etc" b!"/etc" (by decide) rfl [] _ _ (denotes_walk _ _) (denotes_walk _ _)
  revert this
  decide

/-- Non-vacuity: an absolute import path stays inside, and so does one that climbs only where it has been. -/
example : rootResolve exOS b!"/s" b!"/etc" = .ok b!"/s/etc" ∧ rootResolve exOS b!"/s" b!"x/../etc" = .ok b!"/s/etc" ∧
    ([b!"s"] : List Str) <+: walkFrom [] (splitSlash b!"/s/etc") := by
  have h : rootResolve exOS b!"/s" b!"x/../etc" = .ok b!"/s/etc" := rfl
  refine ⟨rfl, h, ?_⟩
  exact C23_partial (by decide) h (denotes_walk [] b!"/s") (denotes_walk [] b!"/s/etc")
    (cs := [b!"x", b!"..", b!"etc"]) (splitSlash_components b!"x/../etc") (by simp [StaysInside])

/-! ### C62: protoc's include directory -/

theorem lastIndex_append {c : UInt8} : ∀ {s t : Str}, c ∉ t → lastIndex c (s ++ c :: t) = some s.length
  | [], t, h => by
    have : lastIndex c t = none := by
      induction t with
      | nil => rfl
      | cons b t ih =>
        rw [List.mem_cons, not_or] at h
        unfold lastIndex
        rw [ih h.2]
        exact if_neg fun e => h.1 e.symm
    simp [lastIndex, this]
  | b :: s, t, h => by
    rw [List.cons_append, lastIndex, lastIndex_append h]
    rfl

theorem splitDir_append {s t : Str} (h : slash ∉ t) : splitDir (s ++ slash :: t) = s ++ [slash] := by
  unfold splitDir
  rw [lastIndex_append h]
  simp only
  rw [List.take_append, List.take_of_length_le (by omega)]
  simp

theorem include_dir_eq {dir bin name : Str} (hbin : (47 : UInt8) ∉ bin) (hname : (47 : UInt8) ∉ name) :
    splitDir (trimSlash (splitDir (dir ++ 47 :: (bin ++ 47 :: name)))) = dir ++ [47] := by
  have e1 : dir ++ (47 : UInt8) :: (bin ++ 47 :: name) = (dir ++ 47 :: bin) ++ slash :: name := by simp
  rw [e1, splitDir_append hname]
  have e2 : trimSlash (dir ++ (47 : UInt8) :: bin ++ [slash]) = dir ++ 47 :: bin := by
    unfold trimSlash
    rw [List.getLast?_concat]
    simp only [if_true]
    exact List.dropLast_concat
  rw [e2]
  exact splitDir_append hbin

theorem include_dir_join (dir : Str) : ∀ cwd d, Denotes cwd (dir ++ [47]) d →
    Denotes cwd (joinPath [dir ++ [47], b!"include"]) (d ++ [b!"include"]) := by
  intro cwd d h
  rw [denotes_iff] at h ⊢
  rw [join_walk cwd _ (by simp), ← h]
  rfl

theorem join_leads {dir : Str} (hd : dir ≠ []) (path : Str) : LeadsTo dir path (joinPath [dir, path]) :=
  fun _ _ _ h hc => (join_denotes hd h hc).1

/-- C62: for a protoc found as `dir/bin/name` the root of the resolver is the place `include` in `dir`, provided
    `google/protobuf/any.proto` exists there, and the builder fails otherwise, with the error of `os.Stat`. -/
theorem C62_include {os : OS} {dir bin name : Str} (hbin : (47 : UInt8) ∉ bin) (hname : (47 : UInt8) ∉ name)
    (hl : os.lookPath = .ok (dir ++ 47 :: (bin ++ 47 :: name))) :
    ∃ incl any : Str,
      (∀ cwd d, Denotes cwd (dir ++ [47]) d → Denotes cwd incl (d ++ [b!"include"]) ∧
        Denotes cwd any (d ++ [b!"include", b!"google", b!"protobuf", b!"any.proto"])) ∧
      (∀ b, os.stat any = .ok b → protocRoot os = .ok incl) ∧
      (∀ e, os.stat any = .error e → ∃ err, protocRoot os = .error err ∧ Unwraps err e) := by
  obtain ⟨incl, any, h1, h2, h3⟩ : ∃ incl any : Str, any = joinPath [incl, b!"google", b!"protobuf", b!"any.proto"] ∧
      (∀ cwd d, Denotes cwd (dir ++ [47]) d → Denotes cwd incl (d ++ [b!"include"])) ∧
      ((∀ b, os.stat any = .ok b → protocRoot os = .ok incl) ∧
        (∀ e, os.stat any = .error e → ∃ err, protocRoot os = .error err ∧ Unwraps err e)) := by
    refine ⟨_, _, rfl, include_dir_join dir, ?_⟩
    unfold protocRoot
    rw [hl]
    simp only [include_dir_eq hbin hname]
    exact ⟨fun b hs => by rw [hs], fun e hs => ⟨_, by rw [hs], .inside (.here e)⟩⟩
  refine ⟨incl, any, fun cwd d hd => ⟨h2 cwd d hd, ?_⟩, h3⟩
  have hi := h2 cwd d hd
  have hne : incl ≠ [] := by
    rintro rfl
    -- the empty path denotes the working directory, whatever it is
    obtain ⟨d', hd'⟩ := denotes_some [] (dir ++ [47])
    have := denotes_iff.mp (h2 [] d' hd')
    exact absurd this (by simp [walkFrom, startOf, splitSlash, stepInto])
  have e : any = joinPath [incl, b!"google/protobuf/any.proto"] := by
    rw [h1]
    cases hi : incl with
    | nil => exact absurd hi hne
    | cons b bs => rfl
  have hc : Components b!"google/protobuf/any.proto" [b!"google", b!"protobuf", b!"any.proto"] :=
    splitSlash_components b!"google/protobuf/any.proto"
  have := join_leads hne _ cwd _ _ hi hc
  rw [e]
  simpa [walkFrom, stepInto] using this

/-- Non-vacuity of C62. -/
example : ∃ incl, protocRoot exOS = .ok incl ∧ Denotes [] incl [b!"usr", b!"include"] := by
  obtain ⟨incl, any, h1, _, h3⟩ :=
    C62_include (os := exOS) (dir := b!"/usr") (bin := b!"bin") (name := b!"protoc") (by decide) (by decide) rfl
  obtain ⟨g1, _⟩ := h1 [] [b!"usr"] (denotes_walk [] b!"/usr/")
  cases hp : protocRoot exOS with
  | error e => cases hp
  | ok x =>
    refine ⟨x, rfl, ?_⟩
    cases hp
    exact denotes_walk [] b!"/usr/include"

/-! ### C63: which root a file is read from -/

/-- With the resolvers a builder returns, an import path is located by the first of them, in the order of C21,
    below whose root something exists; nothing is located if there is none. (Errors of `os.Stat` other than absence
    excluded.) -/
theorem first_root_join {os : OS} (habs : ∀ p e, os.stat p = .error e → e.isNotExist = true) (path : Str) :
    ∀ rs : List PathResolver,
      (∃ pre x post, rs = pre ++ x :: post ∧ (∀ y ∈ pre, ∃ e, os.stat (joinPath [y.dir, path]) = .error e) ∧
        (∃ b, os.stat (joinPath [x.dir, path]) = .ok b) ∧
        locate path (rs.map (PathResolver.toResolver os)) = .ok (joinPath [x.dir, path])) ∨
      ((∀ y ∈ rs, ∃ e, os.stat (joinPath [y.dir, path]) = .error e) ∧
        locate path (rs.map (PathResolver.toResolver os)) = .ok [])
  | [] => .inr ⟨by simp, rfl⟩
  | x :: rs => by
    have hres : (x.toResolver os).resolve path = rootResolve os x.dir path := by cases x <;> rfl
    rw [List.map_cons, locate, hres]
    unfold rootResolve
    cases hs : os.stat (joinPath [x.dir, path]) with
    | ok b => exact .inl ⟨[], x, rs, rfl, by simp, ⟨b, hs⟩, by simp only [hs]⟩
    | error e =>
      simp only [hs]
      have hn : (Err.wrap b!"check computed path" e).isNotExist = true := (habs _ _ hs :)
      rw [if_pos hn]
      rcases first_root_join habs path rs with ⟨pre, y, post, h1, h2, h3, h4⟩ | ⟨h1, h2⟩
      · refine .inl ⟨x :: pre, y, post, by rw [h1]; rfl, ?_, h3, h4⟩
        intro z hz
        rcases List.mem_cons.mp hz with rfl | hz
        · exact ⟨e, hs⟩
        · exact h2 z hz
      · refine .inr ⟨?_, h2⟩
        intro z hz
        rcases List.mem_cons.mp hz with rfl | hz
        · exact ⟨e, hs⟩
        · exact h1 z hz

/-- C63: with the resolvers a builder returns, an import path is located by the first of them, in the order of C21,
    below whose root something exists; nothing is located if there is none. `full y` is where the path leads from the root
    of `y`. (Errors of `os.Stat` other than absence excluded.) -/
theorem C63_first_root {os : OS} (habs : ∀ p e, os.stat p = .error e → e.isNotExist = true) (path : Str)
    {rs : List PathResolver} (hrs : ∀ y ∈ rs, y.dir ≠ []) :
    ∃ full : PathResolver → Str, (∀ y ∈ rs, LeadsTo y.dir path (full y)) ∧
      ((∃ pre x post, rs = pre ++ x :: post ∧ (∀ y ∈ pre, Absent os (full y)) ∧ (∃ b, os.stat (full x) = .ok b) ∧
        locate path (rs.map (PathResolver.toResolver os)) = .ok (full x)) ∨
      ((∀ y ∈ rs, Absent os (full y)) ∧ locate path (rs.map (PathResolver.toResolver os)) = .ok [])) := by
  refine ⟨fun y => joinPath [y.dir, path], fun y hy => join_leads (hrs y hy) path, ?_⟩
  rcases first_root_join habs path rs with ⟨pre, x, post, h1, h2, h3, h4⟩ | ⟨h1, h2⟩
  · exact .inl ⟨pre, x, post, h1, fun y hy => (h2 y hy).imp fun e he => ⟨he, habs _ _ he⟩, h3, h4⟩
  · exact .inr ⟨fun y hy => (h1 y hy).imp fun e he => ⟨he, habs _ _ he⟩, h2⟩

/-- Non-vacuity of C63: `etc` is found below the second root. -/
example : locate b!"etc" ([PathResolver.root b!"/r", .root b!"/s"].map (PathResolver.toResolver exOS)) = .ok b!"/s/etc" := by
  have habs : ∀ p e, exOS.stat p = .error e → e.isNotExist = true := by
    intro p e h
    unfold exOS at h
    simp only at h
    split at h
    · cases h
    · split at h
      · cases h
      · cases h; rfl
  have _ := C63_first_root habs b!"etc" (rs := [.root b!"/r", .root b!"/s"]) (by simp [PathResolver.dir])
  rcases first_root_join habs b!"etc" [.root b!"/r", .root b!"/s"] with ⟨pre, x, post, h1, h2, ⟨b, h3⟩, h4⟩ | ⟨h1, _⟩
  · rw [h4]
    cases pre with
    | nil =>
      cases h1
      exact absurd h3 (by intro h; cases h)
    | cons y pre =>
      cases pre with
      | nil => cases h1; rfl
      | cons z pre =>
        cases pre with
        | nil => cases h1
        | cons => cases h1
  · obtain ⟨e, he⟩ := h1 (.root b!"/s") (by simp)
    cases he

end Protoast.Props
