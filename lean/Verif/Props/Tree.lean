import Verif.Proof.Tree
import Verif.Props.Disk
import Verif.Proof.Later
import Verif.Proof.NewFiles
/-
  C116: the files of a disk. What `Build` accepts and what `Proto(path)` reads, in terms of places in a directory tree.
-/
namespace Protoast.Props
open Protoast

theorem splitDir_flat : ∀ {name : Str}, (47 : UInt8) ∉ name → splitDir name = []
  | name, h => by
    have : lastIndex slash name = none := by
      induction name with
      | nil => rfl
      | cons b t ih =>
        rw [List.mem_cons, not_or] at h
        unfold lastIndex
        rw [ih h.2]
        exact if_neg fun e => h.1 e.symm
    unfold splitDir
    rw [this]

theorem trimSlash_append (s : Str) : trimSlash (s ++ [slash]) = s := by
  unfold trimSlash
  rw [List.getLast?_concat]
  simp only [if_true]
  exact List.dropLast_concat

theorem splitDir_slash (s : Str) : splitDir (s ++ [slash]) = s ++ [slash] := splitDir_append (t := []) (by simp)

/-- The directory the include directory is joined to. -/
theorem include_dir {cwd loc incl} (h : IncludePlace cwd loc incl) :
    Denotes cwd (joinPath [splitDir (trimSlash (splitDir loc)), b!"include"]) incl ∧
    joinPath [splitDir (trimSlash (splitDir loc)), b!"include"] ≠ [] := by
  have hflat : Denotes cwd (joinPath [[], b!"include"]) (cwd ++ [b!"include"]) := denotes_iff.mpr rfl
  cases h with
  | @beside dir bin name d hb hn hd =>
    have e1 : dir ++ (47 : UInt8) :: (bin ++ 47 :: name) = (dir ++ 47 :: bin) ++ slash :: name := by simp
    rw [e1, splitDir_append hn, trimSlash_append, splitDir_append hb]
    obtain ⟨g1, _, g3⟩ := join_denotes (path := b!"include") (cs := [b!"include"]) (by simp) hd (.last (by decide))
    exact ⟨g1, g3⟩
  | flat hn =>
    rw [splitDir_flat hn]
    exact ⟨hflat, by decide⟩
  | @top bin name hb hn =>
    rw [splitDir_append hn, trimSlash_append, splitDir_flat hb]
    exact ⟨hflat, by decide⟩

/-- Every location of the binary leads to one place. -/
theorem include_some (cwd : List Str) (loc : Str) : ∃ incl, IncludePlace cwd loc incl := by
  have split : ∀ s : Str, (47 : UInt8) ∉ s ∨ ∃ a b, s = a ++ 47 :: b ∧ (47 : UInt8) ∉ b := by
    intro s
    induction s with
    | nil => exact .inl (by simp)
    | cons c s ih =>
      rcases ih with h | ⟨a, b, h, hb⟩
      · by_cases hc : c = 47
        · exact .inr ⟨[], s, by rw [hc]; rfl, h⟩
        · exact .inl (by simp [h, Ne.symm hc])
      · exact .inr ⟨c :: a, b, by rw [h]; rfl, hb⟩
  rcases split loc with h | ⟨a, name, rfl, hn⟩
  · exact ⟨_, .flat h⟩
  · rcases split a with h | ⟨dir, bin, rfl, hb⟩
    · exact ⟨_, .top h hn⟩
    · obtain ⟨d, hd⟩ := denotes_some cwd (dir ++ [47])
      refine ⟨d ++ [b!"include"], ?_⟩
      rw [List.append_assoc, List.cons_append]
      exact .beside hb hn hd

theorem include_fun {cwd loc x y} (h : IncludePlace cwd loc x) (g : IncludePlace cwd loc y) : x = y :=
  denotes_fun (include_dir h).1 (include_dir g).1

/-- Protoc's include directory on a tree. -/
theorem protocRoot_tree {T os load} (h : OnTree T os load) :
    (∀ incl, protocRoot os = .ok incl → incl ≠ [] ∧ ∃ place, Denotes T.cwd incl place ∧ HasInclude T os place) ∧
    ((∃ place, HasInclude T os place) → ∃ incl, protocRoot os = .ok incl) := by
  have key : ∀ loc place, IncludePlace T.cwd loc place →
      let incl := joinPath [splitDir (trimSlash (splitDir loc)), b!"include"]
      let any := joinPath [incl, b!"google", b!"protobuf", b!"any.proto"]
      Denotes T.cwd any (place ++ [b!"google", b!"protobuf", b!"any.proto"]) ∧ UpFirst any ∧ any ≠ [] := by
    intro loc place hp incl any
    obtain ⟨g1, g2⟩ := include_dir hp
    have e : any = joinPath [incl, b!"google/protobuf/any.proto"] := by
      cases hi : incl with
      | nil => exact absurd hi g2
      | cons b bs => simp only [any, hi]; rfl
    have hw : walkFrom place [b!"google", b!"protobuf", b!"any.proto"] =
        place ++ [b!"google", b!"protobuf", b!"any.proto"] := by
      simp [walkFrom, stepInto]
    rw [e, ← hw]
    exact join_denotes g2 g1 (splitSlash_components b!"google/protobuf/any.proto")
  constructor
  · intro incl hr
    unfold protocRoot at hr
    split at hr
    · cases hr
    · next loc hl =>
      obtain ⟨place, hp⟩ := include_some T.cwd loc
      obtain ⟨k1, k2, k3⟩ := key loc place hp
      obtain ⟨g1, g2⟩ := include_dir hp
      simp only at hr
      split at hr
      · cases hr
      · next b hs =>
        cases hr
        refine ⟨g2, place, g1, loc, hl, hp, ?_⟩
        intro hnone
        obtain ⟨e, he, _⟩ := h.absent _ _ k3 k2 k1 hnone
        rw [he] at hs
        cases hs
  · rintro ⟨place, loc, hl, hp, hne⟩
    obtain ⟨k1, k2, k3⟩ := key loc place hp
    unfold protocRoot
    rw [hl]
    simp only
    cases hent : T.entry (place ++ [b!"google", b!"protobuf", b!"any.proto"]) with
    | none => exact absurd hent hne
    | some x =>
      cases x with
      | dir => rw [(h.dir _ _ k3 k2 k1 hent).1]; exact ⟨_, rfl⟩
      | file c => rw [(h.file _ _ c k3 k2 k1 hent).1]; exact ⟨_, rfl⟩

/-- C116, `Build`: on a directory tree it succeeds exactly when protoc's include directory has a
    `google/protobuf/any.proto` (if protoc was asked for), no root is given twice and every root is a directory. (Roots
    that go up only at their beginning.) -/
theorem C116_build {T os load} (h : OnTree T os load) (calls : List BuilderCall)
    (hroots : ∀ root ∈ rootsGiven calls, UpFirst root) :
    (∃ rs, (builderAfter calls).build os = .ok rs) ↔
      (wantsProtoc calls → ∃ incl, HasInclude T os incl) ∧ (rootsGiven calls).Nodup ∧
      ∀ root ∈ rootsGiven calls, root ≠ [] ∧ ∃ place, Denotes T.cwd root place ∧ T.entry place = some .dir := by
  rw [C21_succeeds_iff h.empty]
  obtain ⟨p1, p2⟩ := protocRoot_tree h
  have e1 : (∃ incl, protocRoot os = .ok incl) ↔ ∃ incl, HasInclude T os incl :=
    ⟨fun ⟨i, hi⟩ => let ⟨_, pl, _, g⟩ := p1 i hi; ⟨pl, g⟩, p2⟩
  rw [e1]
  refine and_congr_right fun _ => and_congr_right fun _ => ?_
  constructor
  · intro hd root hr
    have hs := hd root hr
    have hne : root ≠ [] := by
      rintro rfl
      obtain ⟨e, he⟩ := h.empty
      rw [he] at hs
      cases hs
    obtain ⟨place, hp⟩ := denotes_some T.cwd root
    refine ⟨hne, place, hp, ?_⟩
    cases hent : T.entry place with
    | none =>
      obtain ⟨e, he, _⟩ := h.absent _ _ hne (hroots root hr) hp hent
      rw [he] at hs
      cases hs
    | some x =>
      cases x with
      | dir => rfl
      | file c => rw [(h.file _ _ c hne (hroots root hr) hp hent).1] at hs; cases hs
  · intro hd root hr
    obtain ⟨hne, place, hp, hent⟩ := hd root hr
    exact (h.dir _ _ hne (hroots root hr) hp hent).1

theorem searchPlaces_fun {T os calls x y} (h : SearchPlaces T os calls x) (g : SearchPlaces T os calls y) : x = y := by
  obtain ⟨l1, a1, a2, a3, a4⟩ := h
  obtain ⟨l2, b1, b2, b3, b4⟩ := g
  have e1 : l1.map Prod.fst = l2.map Prod.fst := by
    refine List.Perm.eq_of_pairwise (le := (· < ·)) ?_ a1 b1 ?_
    · intro a b _ _ h1 h2
      exact absurd h2 (List.lt_asymm h1)
    · exact (List.perm_ext_iff_of_nodup (a1.imp fun h => by rintro rfl; exact List.lt_irrefl _ h)
        (b1.imp fun h => by rintro rfl; exact List.lt_irrefl _ h)).mpr fun a => by rw [a2, b2]
  have e2 : l1.map Prod.snd = l2.map Prod.snd := by
    clear a1 a2 b1 b2 a4 b4
    induction l1 generalizing l2 with
    | nil => cases l2 with
      | nil => rfl
      | cons => cases e1
    | cons x l1 ih => cases l2 with
      | nil => cases e1
      | cons y l2 =>
        simp only [List.map_cons, List.cons.injEq] at e1 ⊢
        have := b3 y (by simp)
        rw [← e1.1] at this
        exact ⟨denotes_fun (a3 x (by simp)) this,
          ih (fun z hz => a3 z (by simp [hz])) l2 (fun z hz => b3 z (by simp [hz])) e1.2⟩
  rcases a4 with ⟨_, i1, ⟨loc1, h1, h2, _⟩, rfl⟩ | ⟨hw, rfl⟩ <;>
    rcases b4 with ⟨hw', i2, ⟨loc2, g1, g2, _⟩, rfl⟩ | ⟨hw', rfl⟩
  · rw [h1] at g1
    cases g1
    rw [include_fun h2 g2, e2]
  · contradiction
  · contradiction
  · exact e2

/-- C116, `Proto`: take the resolvers that `Build` returned and a registry that uses them, on a directory tree. For a path
    that is not loaded, `Proto(path)` walks the components of `path` from the places of C21, in that order, and stops at the
    first where this leads to something. If that is a file, its contents become part of the registry, or the call fails
    with the error of reading it; if it is a directory, the call fails. If it leads nowhere from any place, the call
    fails with "not found". -/
theorem C116_read {T os load} (h : OnTree T os load) {calls rs} (hb : (builderAfter calls).build os = .ok rs) :
    (∃ places, SearchPlaces T os calls places) ∧ ∀ places, SearchPlaces T os calls places →
      ∀ (path : Str) (cs : List Str) (r : Reg) (fuel : Nat), Components path cs → r.protos path = none →
        (∀ pre d post, places = pre ++ d :: post → (∀ y ∈ pre, T.entry (walkFrom y cs) = none) →
          (∀ contents elems, T.entry (walkFrom d cs) = some (.file contents) → contents path = .ok elems →
            (proto ⟨rs.map (PathResolver.toResolver os), load⟩ fuel path r).2.heap[r.heap.length]? = some ⟨path, elems⟩ ∧
            (proto ⟨rs.map (PathResolver.toResolver os), load⟩ fuel path r).2.protos path = some r.heap.length) ∧
          (∀ contents e, T.entry (walkFrom d cs) = some (.file contents) → contents path = .error e →
            ∃ err, proto ⟨rs.map (PathResolver.toResolver os), load⟩ fuel path r = (.ok (.error err), r) ∧ Unwraps err e) ∧
          (T.entry (walkFrom d cs) = some .dir →
            ∃ err, proto ⟨rs.map (PathResolver.toResolver os), load⟩ fuel path r = (.ok (.error err), r))) ∧
        ((∀ y ∈ places, T.entry (walkFrom y cs) = none) →
          ∃ err, proto ⟨rs.map (PathResolver.toResolver os), load⟩ fuel path r = (.ok (.error err), r) ∧
            Unwraps err .notFound) := by
  obtain ⟨dirs, ⟨l, hl1, hl2, hl3⟩, hread⟩ := disk_join h.empty hb load
  obtain ⟨p1, _⟩ := protocRoot_tree h
  have hroot : ∀ x ∈ l, x ≠ [] := by
    rintro x hx rfl
    have := ((C21_succeeds_iff h.empty calls).mp ⟨rs, hb⟩).2.2 [] ((hl2 []).mp hx)
    obtain ⟨e, he⟩ := h.empty
    rw [he] at this
    cases this
  -- the place of a directory
  let plc : Str → List Str := fun d => walkFrom (startOf T.cwd d) (splitSlash d)
  have hplc : ∀ d, Denotes T.cwd d (plc d) := fun d => denotes_iff.mpr rfl
  have hmap : (l.map fun x => (x, plc x)).map Prod.fst = l := by simp [Function.comp_def]
  have hmap' : (l.map fun x => (x, plc x)).map Prod.snd = l.map plc := by simp [Function.comp_def]
  have hsp : SearchPlaces T os calls (dirs.map plc) ∧ ∀ d ∈ dirs, d ≠ [] := by
    rcases hl3 with ⟨hw, incl, hi, rfl⟩ | ⟨hw, rfl⟩
    · obtain ⟨g1, place, g2, g3⟩ := p1 incl hi
      refine ⟨⟨l.map fun x => (x, plc x), by rw [hmap]; exact hl1, by rw [hmap]; exact hl2, ?_, .inl ⟨hw, place, g3, ?_⟩⟩, ?_⟩
      · intro x hx
        obtain ⟨y, _, rfl⟩ := List.mem_map.mp hx
        exact hplc y
      · rw [hmap', List.map_cons, denotes_fun (hplc incl) g2]
      · intro d hd
        rcases List.mem_cons.mp hd with rfl | hd
        · exact g1
        · exact hroot d hd
    · refine ⟨⟨dirs.map fun x => (x, plc x), by rw [hmap]; exact hl1, by rw [hmap]; exact hl2, ?_, .inr ⟨hw, hmap'.symm⟩⟩, hroot⟩
      intro x hx
      obtain ⟨y, _, rfl⟩ := List.mem_map.mp hx
      exact hplc y
  obtain ⟨hsp, hdirs⟩ := hsp
  refine ⟨⟨_, hsp⟩, fun places hplaces => ?_⟩
  cases searchPlaces_fun hsp hplaces
  intro path cs r fuel hcs hn
  obtain ⟨r1, r2⟩ := hread _ rfl path r fuel hn
  have hj : ∀ d ∈ dirs, _ := fun d hd => join_denotes (path := path) (cs := cs) (hdirs d hd) (hplc d) hcs
  have habs : ∀ y ∈ dirs, T.entry (walkFrom (plc y) cs) = none → AbsentIn os y path := by
    intro y hy hnone
    obtain ⟨j1, j2, j3⟩ := hj y hy
    exact h.absent _ _ j3 j2 j1 hnone
  refine ⟨?_, ?_⟩
  · intro pre d post hsplit hpre
    obtain ⟨pre', x, post', e1, e2, e3, e4⟩ := map_split hsplit
    subst e3
    have hx : x ∈ dirs := by rw [e1]; simp
    obtain ⟨j1, j2, j3⟩ := hj x hx
    obtain ⟨q1, q2, _⟩ := r1 pre' x post' e1 (by
      intro y hy
      refine habs y (by rw [e1]; simp [hy]) (hpre _ ?_)
      rw [← e2]
      exact List.mem_map_of_mem hy)
    refine ⟨?_, ?_, ?_⟩
    · intro contents elems hent hc
      obtain ⟨s1, s2⟩ := h.file _ _ _ j3 j2 j1 hent
      exact q1 false elems s1 (by rw [s2]; exact hc)
    · intro contents e hent hc
      obtain ⟨s1, s2⟩ := h.file _ _ _ j3 j2 j1 hent
      exact q2 false e s1 (by rw [s2]; exact hc)
    · intro hent
      obtain ⟨s1, s2⟩ := h.dir _ _ j3 j2 j1 hent
      obtain ⟨e, he⟩ := s2 path
      obtain ⟨err, g, _⟩ := q2 true e s1 he
      exact ⟨err, g⟩
  · intro hall
    exact r2 fun y hy => habs y hy (hall _ (List.mem_map_of_mem hy))

/-- What the operating system shows of a tree, for every path. -/
def treeOS (T : Tree) (look : Except Err Str) : OS where
  lookPath := look
  stat p :=
    if p = [] then .error .notExist
    else match T.entry (walkFrom (startOf T.cwd p) (splitSlash p)) with
      | none => .error .notExist
      | some .dir => .ok true
      | some (.file _) => .ok false
/-- Reading a file of a tree. -/
def treeLoad (T : Tree) (p path : Str) : Except Err (List Elem) :=
  match T.entry (walkFrom (startOf T.cwd p) (splitSlash p)) with
  | some (.file c) => c path
  | some .dir => .error (.other 21)
  | none => .error .notExist

/-- Every tree is met. -/
theorem onTree (T : Tree) (look : Except Err Str) : OnTree T (treeOS T look) (treeLoad T) where
  empty := ⟨_, rfl⟩
  absent p place hp _ hd hn := by
    rw [denotes_iff] at hd
    subst hd
    exact ⟨.notExist, by simp [treeOS, hp, hn], rfl⟩
  dir p place hp _ hd hn := by
    rw [denotes_iff] at hd
    subst hd
    exact ⟨by simp [treeOS, hp, hn], fun path => ⟨.other 21, by simp [treeLoad, hn]⟩⟩
  file p place c hp _ hd hn := by
    rw [denotes_iff] at hd
    subst hd
    exact ⟨by simp [treeOS, hp, hn], fun path => by simp [treeLoad, hn]⟩

/-- The working directory is `/home`; `/usr/include` has the files of protoc; `/home/s` has `a.proto` and a directory
    `d`. -/
def exTree : Tree where
  cwd := [b!"home"]
  entry p :=
    if p = [] ∨ p = [b!"home"] ∨ p = [b!"home", b!"s"] ∨ p = [b!"home", b!"s", b!"d"] then some .dir
    else if p = [b!"home", b!"s", b!"a.proto"] then some (.file fun _ => .ok [Ex.el b!"a.proto" 1 (.message b!"M" false)])
    else if p = [b!"usr", b!"include", b!"google", b!"protobuf", b!"any.proto"] then some (.file fun _ => .ok [])
    else none
def exTreeOS : OS := treeOS exTree (.ok b!"/usr/bin/protoc")
def exTreeCalls : List BuilderCall := [.withRoot [b!"../home/s"], .withProtoc, .withRoot [b!"s"]]

theorem exTree_build : (builderAfter exTreeCalls).build exTreeOS =
    .ok [.protoc b!"/usr/include", .root b!"../home/s", .root b!"s"] := by rfl

/-- The hypotheses of C116: `Build` succeeds by `C116_build`, and `s/../s/a.proto` walked from the second place searched
    leads to a file. -/
example : OnTree exTree exTreeOS (treeLoad exTree) ∧ (∃ rs, (builderAfter exTreeCalls).build exTreeOS = .ok rs) ∧
    SearchPlaces exTree exTreeOS exTreeCalls [[b!"usr", b!"include"], [b!"home", b!"s"], [b!"home", b!"s"]] ∧
    Components b!"../s/a.proto" [b!"..", b!"s", b!"a.proto"] ∧
    (exTree.entry (walkFrom [b!"usr", b!"include"] [b!"..", b!"s", b!"a.proto"])).isNone = true ∧
    (exTree.entry (walkFrom [b!"home", b!"s"] [b!"..", b!"s", b!"a.proto"])).isSome = true := by
  have hT := onTree exTree (.ok b!"/usr/bin/protoc")
  have hincl : HasInclude exTree exTreeOS [b!"usr", b!"include"] :=
    ⟨_, rfl, .beside (dir := b!"/usr") (bin := b!"bin") (name := b!"protoc") (d := [b!"usr"]) (by decide) (by decide)
      (denotes_iff.mpr rfl), by simp [exTree]⟩
  refine ⟨hT, (C116_build hT exTreeCalls ?_).mpr ⟨fun _ => ⟨_, hincl⟩, by decide, ?_⟩, ?_,
    splitSlash_components b!"../s/a.proto", rfl, rfl⟩
  · intro root hr
    have hr : root = b!"../home/s" ∨ root = b!"s" := by simpa [rootsGiven, exTreeCalls] using hr
    rcases hr with rfl | rfl
    · refine upFirst_of (cs := [b!"..", b!"home", b!"s"]) rfl ?_
      intro pre post e
      match pre, e with
      | [], _ => simp
      | [_], e => cases e
      | [_, _], e => cases e
      | [_, _, _], e => cases e
      | _ :: _ :: _ :: _ :: _, e => cases e
    · refine upFirst_of (cs := [b!"s"]) rfl ?_
      intro pre post e
      match pre, e with
      | [], e => cases e
      | [_], e => cases e
      | _ :: _ :: _, e => cases e
  · intro root hr
    have hr : root = b!"../home/s" ∨ root = b!"s" := by simpa [rootsGiven, exTreeCalls] using hr
    rcases hr with rfl | rfl
    · exact ⟨by simp, _, denotes_iff.mpr rfl, rfl⟩
    · exact ⟨by simp, _, denotes_iff.mpr rfl, rfl⟩
  · refine ⟨[(b!"../home/s", [b!"home", b!"s"]), (b!"s", [b!"home", b!"s"])], by decide, ?_, ?_, .inl ⟨by simp [wantsProtoc, exTreeCalls], _, hincl, rfl⟩⟩
    · intro x
      simp [rootsGiven, exTreeCalls]
    · intro x hx
      simp only [List.mem_cons, List.not_mem_nil, or_false] at hx
      rcases hx with rfl | rfl <;> exact denotes_iff.mpr rfl

/-! ### C117: one file, two spellings -/

/-- C117: let two different import paths lead to the same places, wherever one starts. If one of them is loaded and the
    other is not, then `Proto` of the other reads the same file again: afterwards the registry has two files, and every
    full name declared in one is declared in the other as well. (`hpath`: whether the file can be parsed, and what names
    it declares, does not depend on the import path it is read for.) -/
theorem C117_twice {T os load} (h : OnTree T os load) {calls rs} (hb : (builderAfter calls).build os = .ok rs)
    {path path' : Str} {cs cs' : List Str} (hc : Components path cs) (hc' : Components path' cs')
    (hsame : ∀ d, walkFrom d cs = walkFrom d cs')
    (hpath : ∀ place contents elems, T.entry place = some (.file contents) → contents path = .ok elems →
      ∃ elems', contents path' = .ok elems' ∧ ∀ p, (ProtoFile.mk path elems).fqn p = (ProtoFile.mk path' elems').fqn p)
    {fuel fuel' r0 r n} (hn : r0.protos path = none)
    (h1 : proto ⟨rs.map (PathResolver.toResolver os), load⟩ fuel path r0 = (.ok (.ok n), r))
    (hn' : r.protos path' = none) :
    ∃ i j, i ≠ j ∧ (proto ⟨rs.map (PathResolver.toResolver os), load⟩ fuel' path' r).2.protos path = some i ∧
      (proto ⟨rs.map (PathResolver.toResolver os), load⟩ fuel' path' r).2.protos path' = some j ∧
      ∀ p name, Declared (proto ⟨rs.map (PathResolver.toResolver os), load⟩ fuel' path' r).2 name ⟨i, p⟩ ↔
        Declared (proto ⟨rs.map (PathResolver.toResolver os), load⟩ fuel' path' r).2 name ⟨j, p⟩ := by
  obtain ⟨⟨places, hsp⟩, hread⟩ := C116_read h hb
  replace hread := hread places hsp
  obtain ⟨a1, a2⟩ := hread path cs r0 fuel hc hn
  obtain ⟨b1, _⟩ := hread path' cs' r fuel' hc' hn'
  -- the first place with something
  have hsplit : ∀ l : List (List Str), (∀ y ∈ l, T.entry (walkFrom y cs) = none) ∨
      ∃ pre d post x, l = pre ++ d :: post ∧ (∀ y ∈ pre, T.entry (walkFrom y cs) = none) ∧ T.entry (walkFrom d cs) = some x := by
    intro l
    induction l with
    | nil => exact .inl (by simp)
    | cons d l ih =>
      cases hd : T.entry (walkFrom d cs) with
      | some x => exact .inr ⟨[], d, l, x, rfl, by simp, hd⟩
      | none =>
        rcases ih with g | ⟨pre, d', post, x, g1, g2, g3⟩
        · exact .inl (by simpa [hd] using g)
        · exact .inr ⟨d :: pre, d', post, x, by rw [g1]; rfl, by simpa [hd] using g2, g3⟩
  rcases hsplit places with hall | ⟨pre, d, post, x, e1, e2, e3⟩
  · obtain ⟨err, g, _⟩ := a2 hall
    rw [g] at h1
    cases h1
  · obtain ⟨q1, q2, q3⟩ := a1 pre d post e1 e2
    obtain ⟨s1, _, _⟩ := b1 pre d post e1 (by simpa only [hsame] using e2)
    cases x with
    | dir =>
      obtain ⟨err, g⟩ := q3 e3
      rw [g] at h1
      cases h1
    | file contents =>
      cases hcon : contents path with
      | error e =>
        obtain ⟨err, g, _⟩ := q2 contents e e3 hcon
        rw [g] at h1
        cases h1
      | ok elems =>
        obtain ⟨elems', hcon', hfqn⟩ := hpath _ _ _ e3 hcon
        obtain ⟨t1, t2⟩ := q1 contents elems e3 hcon
        obtain ⟨u1, u2⟩ := s1 contents elems' (by rw [← hsame]; exact e3) hcon'
        rw [h1] at t1 t2
        simp only at t1 t2
        have hl := proto_later ⟨rs.map (PathResolver.toResolver os), load⟩ fuel' path' r
        obtain ⟨l, hl1⟩ := hl.heap
        have hlt : r0.heap.length < r.heap.length := (List.getElem?_eq_some_iff.mp t1).1
        have t1' : (proto ⟨rs.map (PathResolver.toResolver os), load⟩ fuel' path' r).2.heap[r0.heap.length]? =
            some ⟨path, elems⟩ := by
          rw [hl1, List.getElem?_append_left hlt]
          exact t1
        refine ⟨r0.heap.length, r.heap.length, by omega, hl.protos _ _ t2, u2, ?_⟩
        intro p name
        unfold Declared
        simp only [t1', u1, Option.some.injEq, exists_eq_left']
        rw [hfqn p]

theorem childrenAt_filename (a b : Str) (elems : List Elem) : ∀ p,
    (ProtoFile.mk a elems).childrenAt p = (ProtoFile.mk b elems).childrenAt p
  | [] => rfl
  | i :: p => by rw [ProtoFile.childrenAt, ProtoFile.childrenAt, childrenAt_filename a b elems p]

theorem scopeAt_filename (a b : Str) (elems : List Elem) : ∀ p,
    (ProtoFile.mk a elems).scopeAt p = (ProtoFile.mk b elems).scopeAt p
  | [] => rfl
  | i :: p => by
    rw [ProtoFile.scopeAt, ProtoFile.scopeAt, scopeAt_filename a b elems p]
    simp only [ProtoFile.elemAt, childrenAt_filename a b]

theorem fqn_filename (a b : Str) (elems : List Elem) : ∀ p, (ProtoFile.mk a elems).fqn p = (ProtoFile.mk b elems).fqn p
  | [] => rfl
  | i :: p => by
    rw [ProtoFile.fqn, ProtoFile.fqn, scopeAt_filename a b elems p]
    simp only [ProtoFile.elemAt, childrenAt_filename a b]

/-- The hypotheses of C117 are met by `a.proto` and `./a.proto`: the registry ends up with two messages of the same full
    name. -/
example : ∃ r : Reg, ¬ UniqueNames r ∧ (r.protos b!"a.proto").isSome = true ∧ (r.protos b!"./a.proto").isSome = true := by
  have hb := exTree_build
  have h1 : ∃ n r, proto ⟨[PathResolver.protoc b!"/usr/include", .root b!"../home/s", .root b!"s"].map
      (PathResolver.toResolver exTreeOS), treeLoad exTree⟩ 1 b!"a.proto" Reg.empty = (.ok (.ok n), r) ∧
      r.protos b!"./a.proto" = none ∧ r.heap[0]? = some ⟨b!"a.proto", [Ex.el b!"a.proto" 1 (.message b!"M" false)]⟩ ∧
      r.protos b!"a.proto" = some 0 := ⟨_, _, rfl, rfl, rfl, rfl⟩
  obtain ⟨n, r, h1, hn', hf, hp⟩ := h1
  obtain ⟨i, j, hij, hi, hj, hd⟩ := C117_twice (os := exTreeOS) (onTree exTree (.ok b!"/usr/bin/protoc")) hb
    (splitSlash_components b!"a.proto") (splitSlash_components b!"./a.proto") (fun d => rfl) (by
      intro place contents elems hent hc
      simp only [exTree] at hent
      split at hent
      · cases hent
      · split at hent
        · cases hent
          cases hc
          exact ⟨_, rfl, fun p => fqn_filename _ _ _ p⟩
        · split at hent
          · cases hent
            cases hc
            exact ⟨_, rfl, fun p => fqn_filename _ _ _ p⟩
          · cases hent) (fuel' := 1) rfl h1 hn'
  refine ⟨_, ?_, by rw [hi]; rfl, by rw [hj]; rfl⟩
  intro hu
  have hl := proto_later ⟨[PathResolver.protoc b!"/usr/include", .root b!"../home/s", .root b!"s"].map
      (PathResolver.toResolver exTreeOS), treeLoad exTree⟩ 1 b!"./a.proto" r
  obtain ⟨l, hl1⟩ := hl.heap
  have e0 : i = 0 := by
    have := hl.protos _ _ hp
    rw [this] at hi
    exact (Option.some.inj hi).symm
  subst e0
  have hlt : 0 < r.heap.length := (List.getElem?_eq_some_iff.mp hf).1
  have hM : Declared _ b!".M" ⟨0, [0]⟩ := ⟨_, by rw [hl1, List.getElem?_append_left hlt]; exact hf, rfl⟩
  have := hu _ _ _ hM ((hd [0] _).mp hM)
  cases this
  exact hij rfl

end Protoast.Props
