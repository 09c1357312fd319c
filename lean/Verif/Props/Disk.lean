import Verif.Props.Paths
import Verif.Props.Load
import Verif.Spec.Errors
import Verif.Examples
/-
  C107: from the builder to the registry. What `Proto(path)` reads, in terms of the directories given to the builder and
  the files on disk.
-/
namespace Protoast.Props
open Protoast

/-- Nothing exists at `path` joined to `dir`. -/
def AbsentIn (os : OS) (dir path : Str) : Prop := Absent os (joinPath [dir, path])

theorem toResolver_resolve (os : OS) (x : PathResolver) (path : Str) :
    (x.toResolver os).resolve path = rootResolve os x.dir path := by cases x <;> rfl

theorem map_split {α β} {f : α → β} : ∀ {l : List α} {pre : List β} {d : β} {post : List β},
    l.map f = pre ++ d :: post → ∃ pre' x post', l = pre' ++ x :: post' ∧ pre'.map f = pre ∧ f x = d ∧ post'.map f = post := by
  intro l
  induction l with
  | nil => intro pre d post h; cases pre <;> cases h
  | cons a l ih =>
    intro pre d post h
    cases pre with
    | nil =>
      simp only [List.map_cons, List.nil_append, List.cons.injEq] at h
      exact ⟨[], a, l, rfl, rfl, h.1, h.2⟩
    | cons p pre =>
      simp only [List.map_cons, List.cons_append, List.cons.injEq] at h
      obtain ⟨pre', x, post', h1, h2, h3, h4⟩ := ih h.2
      exact ⟨a :: pre', x, post', by rw [h1]; rfl, by rw [List.map_cons, h.1, h2], h3, h4⟩

/-- Take the resolvers that `Build` returns and a registry that uses them; `load` reads and parses the file at a
    location. Then `Proto(path)`, for a path that is not loaded, goes through the directories in the order of C21 and stops
    at the first where `path` is not simply absent. If something exists there, `path` is read from there: its contents
    become part of the registry, or the call fails with the error of reading it (also when it is a directory, and whatever
    the later directories have). If `stat` fails for another reason, the call fails with that error. If `path` is absent
    everywhere, the call fails with "not found". -/
theorem disk_join {os : OS} (hu : os.Unix) {calls rs} (hb : (builderAfter calls).build os = .ok rs)
    (load : Str → Str → Except Err (List Elem)) :
    ∃ dirs, SearchDirs os calls dirs ∧ ∀ W, W = ⟨rs.map (PathResolver.toResolver os), load⟩ →
      ∀ (path : Str) (r : Reg) (fuel : Nat), r.protos path = none →
        (∀ pre d post, dirs = pre ++ d :: post → (∀ y ∈ pre, AbsentIn os y path) →
          (∀ b elems, os.stat (joinPath [d, path]) = .ok b → load (joinPath [d, path]) path = .ok elems →
            (proto W fuel path r).2.heap[r.heap.length]? = some ⟨path, elems⟩ ∧
            (proto W fuel path r).2.protos path = some r.heap.length) ∧
          (∀ b e, os.stat (joinPath [d, path]) = .ok b → load (joinPath [d, path]) path = .error e →
            ∃ err, proto W fuel path r = (.ok (.error err), r) ∧ Unwraps err e) ∧
          (∀ e, os.stat (joinPath [d, path]) = .error e → e.isNotExist = false →
            ∃ err, proto W fuel path r = (.ok (.error err), r) ∧ Unwraps err e)) ∧
        ((∀ y ∈ dirs, AbsentIn os y path) → ∃ err, proto W fuel path r = (.ok (.error err), r) ∧ Unwraps err .notFound) := by
  refine ⟨rs.map PathResolver.dir, ?_, ?_⟩
  · rcases C21_result hu hb with ⟨hp, incl, rs', h1, h2, l, h3, h4, h5⟩ | ⟨hp, l, h3, h4, h5⟩
    · refine ⟨l, h3, h4, .inl ⟨hp, incl, h1, ?_⟩⟩
      rw [h2, h5]
      simp [PathResolver.dir, Function.comp_def]
    · refine ⟨l, h3, h4, .inr ⟨hp, ?_⟩⟩
      rw [h5]
      simp [PathResolver.dir, Function.comp_def]
  · rintro W rfl path r fuel hn
    have habs : ∀ y : PathResolver, AbsentIn os y.dir path →
        ∃ e, (y.toResolver os).resolve path = .error e ∧ e.isNotExist = true := by
      rintro y ⟨e, he, hne⟩
      rw [toResolver_resolve]
      unfold rootResolve
      exact ⟨.wrap b!"check computed path" e, by simp only [he], hne⟩
    refine ⟨?_, ?_⟩
    · intro pre d post hd hpre
      obtain ⟨pre', x, post', h1, h2, h3, h4⟩ := map_split hd
      subst h3
      have hpre' : ∀ R ∈ pre'.map (PathResolver.toResolver os), ∃ e, R.resolve path = .error e ∧ e.isNotExist = true := by
        intro R hR
        obtain ⟨y, hy, rfl⟩ := List.mem_map.mp hR
        exact habs y (hpre _ (by rw [← h2]; exact List.mem_map_of_mem hy))
      have hlist : (rs.map (PathResolver.toResolver os)) =
          pre'.map (PathResolver.toResolver os) ++ x.toResolver os :: post'.map (PathResolver.toResolver os) := by
        rw [h1]; simp
      have hres : (x.toResolver os).resolve path = rootResolve os x.dir path := toResolver_resolve os x path
      have hhit : ∀ b, os.stat (joinPath [x.dir, path]) = .ok b →
          FirstHit (rs.map (PathResolver.toResolver os)) path (x.toResolver os) ∧
          (x.toResolver os).resolve path = .ok (joinPath [x.dir, path]) ∧ joinPath [x.dir, path] ≠ [] := by
        intro b hs
        have e1 : (x.toResolver os).resolve path = .ok (joinPath [x.dir, path]) := by
          rw [hres]; unfold rootResolve; simp only [hs]
        refine ⟨⟨_, _, hlist, hpre', ?_⟩, e1, ?_⟩
        · intro e he
          rw [e1] at he
          cases he
        · intro h0
          rw [h0] at hs
          obtain ⟨e, he⟩ := hu
          rw [he] at hs
          cases hs
      refine ⟨?_, ?_, ?_⟩
      · intro b elems hs hload
        obtain ⟨g1, g2, g3⟩ := hhit b hs
        exact (C16_first_hit ⟨rs.map (PathResolver.toResolver os), load⟩ path r hn _ g1 _ g2 g3 fuel).1 elems hload
      · intro b e hs hload
        obtain ⟨g1, g2, g3⟩ := hhit b hs
        obtain ⟨c1, c2, h⟩ :=
          (C16_first_hit ⟨rs.map (PathResolver.toResolver os), load⟩ path r hn _ g1 _ g2 g3 fuel).2 e hload
        exact ⟨_, h, .inside (.inside (.here _))⟩
      · intro e hs hne
        have e1 : (x.toResolver os).resolve path = .error (.wrap b!"check computed path" e) := by
          rw [hres]; unfold rootResolve; simp only [hs]
        have hF : FirstHit (rs.map (PathResolver.toResolver os)) path (x.toResolver os) := by
          refine ⟨_, _, hlist, hpre', ?_⟩
          intro e' he'
          rw [e1] at he'
          cases he'
          exact hne
        obtain ⟨c1, c2, h⟩ := C16_hard_error ⟨rs.map (PathResolver.toResolver os), load⟩ path r hn _ hF _ e1 fuel
        exact ⟨_, h, .inside (.inside (.inside (.here _)))⟩
    · intro hall
      obtain ⟨c1, h⟩ := C16_not_found ⟨rs.map (PathResolver.toResolver os), load⟩ path r hn (by
        intro R hR
        obtain ⟨y, hy, rfl⟩ := List.mem_map.mp hR
        exact habs y (hall _ (List.mem_map_of_mem hy))) fuel
      exact ⟨_, h, .inside (.here _)⟩

/-- Build returns resolvers with non-empty directories. -/
theorem searchDirs_ne {os : OS} (hu : os.Unix) {calls rs dirs} (hb : (builderAfter calls).build os = .ok rs)
    (hd : SearchDirs os calls dirs) : ∀ d ∈ dirs, d ≠ [] := by
  obtain ⟨l, hl1, hl2, hl3⟩ := hd
  have hroot : ∀ x ∈ l, x ≠ [] := by
    rintro x hx rfl
    have := ((C21_succeeds_iff hu calls).mp ⟨rs, hb⟩).2.2 [] ((hl2 []).mp hx)
    obtain ⟨e, he⟩ := hu
    rw [he] at this
    cases this
  have hincl : ∀ incl, protocRoot os = .ok incl → incl ≠ [] := by
    intro incl h
    unfold protocRoot at h
    split at h
    · cases h
    · simp only at h
      split at h
      · cases h
      · cases h
        generalize splitDir (trimSlash (splitDir _)) = d
        cases d with
        | nil => decide
        | cons b bs => exact clean_ne _
  rcases hl3 with ⟨_, incl, hi, rfl⟩ | ⟨_, rfl⟩
  · intro d hd
    rcases List.mem_cons.mp hd with rfl | hd
    · exact hincl d hi
    · exact hroot d hd
  · exact hroot

/-- C107: take the resolvers that `Build` returns and a registry that uses them; `load` reads and parses the file at a
    location. Then `Proto(path)`, for a path that is not loaded, goes through the directories in the order of C21 and stops
    at the first where `path` is not simply absent; `full d` is where `path` leads from `d`. If something exists there,
    `path` is read from there: its contents become part of the registry, or the call fails with the error of reading it
    (also when it is a directory, and whatever the later directories have). If `stat` fails for another reason, the call
    fails with that error. If `path` is absent everywhere, the call fails with "not found". -/
theorem C107_disk {os : OS} (hu : os.Unix) {calls rs} (hb : (builderAfter calls).build os = .ok rs)
    (load : Str → Str → Except Err (List Elem)) :
    ∃ dirs, SearchDirs os calls dirs ∧ ∀ W, W = ⟨rs.map (PathResolver.toResolver os), load⟩ →
      ∀ (path : Str), ∃ full : Str → Str, (∀ d ∈ dirs, LeadsTo d path (full d)) ∧
      ∀ (r : Reg) (fuel : Nat), r.protos path = none →
        (∀ pre d post, dirs = pre ++ d :: post → (∀ y ∈ pre, Absent os (full y)) →
          (∀ b elems, os.stat (full d) = .ok b → load (full d) path = .ok elems →
            (proto W fuel path r).2.heap[r.heap.length]? = some ⟨path, elems⟩ ∧
            (proto W fuel path r).2.protos path = some r.heap.length) ∧
          (∀ b e, os.stat (full d) = .ok b → load (full d) path = .error e →
            ∃ err, proto W fuel path r = (.ok (.error err), r) ∧ Unwraps err e) ∧
          (∀ e, os.stat (full d) = .error e → e.isNotExist = false →
            ∃ err, proto W fuel path r = (.ok (.error err), r) ∧ Unwraps err e)) ∧
        ((∀ y ∈ dirs, Absent os (full y)) → ∃ err, proto W fuel path r = (.ok (.error err), r) ∧ Unwraps err .notFound) := by
  obtain ⟨dirs, h1, h2⟩ := disk_join hu hb load
  exact ⟨dirs, h1, fun W hW path => ⟨fun d => joinPath [d, path],
    fun d hd => join_leads (searchDirs_ne hu hb h1 d hd) path, fun r fuel hn => h2 W hW path r fuel hn⟩⟩

/-- Two roots: `a.proto` exists in the second only, `b.proto` is a directory in the first and a file in the second. -/
def diskOS : OS where
  lookPath := .error .notExist
  stat p :=
    if p = b!"/r" ∨ p = b!"/s" ∨ p = b!"/r/b.proto" then .ok true
    else if p = b!"/s/a.proto" ∨ p = b!"/s/b.proto" then .ok false
    else .error .notExist
def diskLoad (loc _path : Str) : Except Err (List Elem) :=
  if loc = b!"/s/a.proto" ∨ loc = b!"/s/b.proto" then .ok [Ex.el loc 1 (.message b!"M" false)] else .error (.other 21)

/-- The hypotheses of C107, and both of its cases: `a.proto` is read from the second root; `b.proto` is not read at all,
    although the second root has it. -/
example : diskOS.Unix ∧ (builderAfter [.withRoot [b!"/s", b!"/r"]]).build diskOS = .ok [.root b!"/r", .root b!"/s"] ∧
    SearchDirs diskOS [.withRoot [b!"/s", b!"/r"]] [b!"/r", b!"/s"] ∧
    AbsentIn diskOS b!"/r" b!"a.proto" ∧ diskOS.stat (joinPath [b!"/s", b!"a.proto"]) = .ok false ∧
    (∃ elems, diskLoad (joinPath [b!"/s", b!"a.proto"]) b!"a.proto" = .ok elems) ∧
    diskOS.stat (joinPath [b!"/r", b!"b.proto"]) = .ok true ∧ diskOS.stat (joinPath [b!"/s", b!"b.proto"]) = .ok false ∧
    diskLoad (joinPath [b!"/r", b!"b.proto"]) b!"b.proto" = .error (.other 21) ∧
    (∃ elems, diskLoad (joinPath [b!"/s", b!"b.proto"]) b!"b.proto" = .ok elems) := by
  refine ⟨⟨_, rfl⟩, rfl, ⟨[b!"/r", b!"/s"], by decide, by intro x; simp [rootsGiven, or_comm], .inr ⟨by simp [wantsProtoc], rfl⟩⟩,
    ⟨_, rfl, rfl⟩, rfl, ⟨_, rfl⟩, rfl, rfl, rfl, ⟨_, rfl⟩⟩

end Protoast.Props
