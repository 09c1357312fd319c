import Verif.Spec.Tree
import Verif.Proof.Paths
/-
  Cleaned paths go up only at their beginning.
-/
namespace Protoast

/-- The output of cleaning (innermost first): behind a `..` there are only `..`. -/
def UpLast (out : List Str) : Prop := ∀ pre post, out = pre ++ b!".." :: post → ∀ c ∈ post, c = b!".."

theorem upLast_tail {d ds} (h : UpLast (d :: ds)) : UpLast ds := fun pre post e =>
  h (d :: pre) post (by rw [e]; rfl)

theorem cleanStep_upLast {rooted out c} (h : UpLast out) : UpLast (cleanStep rooted out c) := by
  unfold cleanStep
  split
  · exact h
  · split
    · next hu =>
      subst hu
      split
      · split
        · exact h
        · intro pre post e
          cases pre with
          | nil => cases e; simp
          | cons _ p => cases p <;> cases e
      · next d ds =>
        split
        · next hd =>
          subst hd
          intro pre post e
          cases pre with
          | nil =>
            cases e
            intro c hc
            rcases List.mem_cons.mp hc with rfl | hc
            · rfl
            · exact h [] ds rfl c hc
          | cons _ pre =>
            simp only [List.cons_append, List.cons.injEq] at e
            exact h pre post e.2
        · exact upLast_tail h
    · next hu =>
      intro pre post e
      cases pre with
      | nil => cases e; exact absurd rfl hu
      | cons _ pre =>
        simp only [List.cons_append, List.cons.injEq] at e
        exact h pre post e.2

theorem fold_upLast {rooted} : ∀ {cs out : List Str}, UpLast out → UpLast (cs.foldl (cleanStep rooted) out)
  | [], _, h => h
  | c :: cs, _, h => by rw [List.foldl_cons]; exact fold_upLast (cleanStep_upLast h)

theorem upFirst_reverse {out : List Str} (h : UpLast out) {pre post} (e : out.reverse = pre ++ b!".." :: post) :
    ∀ c ∈ pre, c = b!".." := by
  have : out = post.reverse ++ b!".." :: pre.reverse := by
    rw [← List.reverse_reverse out, e]
    simp
  intro c hc
  exact h _ _ this c (by simpa using hc)

theorem upFirst_of {p cs} (hs : splitSlash p = cs)
    (h : ∀ pre post, cs = pre ++ b!".." :: post → ∀ c ∈ pre, c = [] ∨ c = b!"." ∨ c = b!"..") : UpFirst p := by
  intro ds hd
  rw [← components_split hd, hs]
  exact h

/-- A cleaned path goes up only at its beginning. -/
theorem clean_upFirst (path : Str) : UpFirst (clean path) := by
  unfold clean
  split
  · exact upFirst_of (cs := [b!"."]) rfl (by intro pre post e; cases pre with
      | nil => cases e
      | cons _ p => cases p <;> cases e)
  · have hns := components_noslash (splitSlash_components path)
    simp only
    split
    · next hr =>
      rw [hr]
      obtain ⟨h1, _⟩ := clean_fold (rooted := true) (start := []) (fun _ => rfl) (cs := splitSlash path) (out := [])
        ⟨by simp, by simp, by simp⟩ hns
      have h2 : UpLast ((splitSlash path).foldl (cleanStep true) []) := fold_upLast (by intro pre post e; cases pre <;> cases e)
      refine upFirst_of (cs := [] :: splitSlash (joinSlash ((splitSlash path).foldl (cleanStep true) []).reverse)) ?_ ?_
      · exact splitSlash_append (w := []) _ (by simp)
      · intro pre post e c hc
        cases pre with
        | nil => cases hc
        | cons w pre =>
          simp only [List.cons_append, List.cons.injEq] at e
          rcases List.mem_cons.mp hc with rfl | hc
          · exact .inl e.1.symm
          · by_cases ho : ((splitSlash path).foldl (cleanStep true) []).reverse = []
            · rw [ho] at e
              have := e.2
              cases pre with
              | nil => cases hc
              | cons _ p => cases p <;> cases this
            · rw [splitSlash_joinSlash ho fun w hw => h1.noslash w (by simpa using hw)] at e
              exact .inr (.inr (upFirst_reverse h2 e.2 c hc))
    · next hr =>
      have hr : (path.head? == some slash) = false := by simpa using hr
      rw [hr]
      obtain ⟨h1, _⟩ := clean_fold (rooted := false) (start := []) (by simp) (cs := splitSlash path) (out := [])
        ⟨by simp, by simp, by simp⟩ hns
      have h2 : UpLast ((splitSlash path).foldl (cleanStep false) []) := fold_upLast (by intro pre post e; cases pre <;> cases e)
      split
      · exact upFirst_of (cs := [b!"."]) rfl (by intro pre post e; cases pre with
          | nil => cases e
          | cons _ p => cases p <;> cases e)
      · next ho =>
        refine upFirst_of (splitSlash_joinSlash ho fun w hw => h1.noslash w (by simpa using hw)) ?_
        intro pre post e c hc
        exact .inr (.inr (upFirst_reverse h2 e c hc))

theorem clean_ne (path : Str) : clean path ≠ [] := by
  unfold clean
  split
  · simp
  · simp only
    split
    · simp
    · split
      · simp
      · next ho =>
        obtain ⟨h1, _⟩ := clean_fold (rooted := (path.head? == some slash)) (start := []) (fun _ => rfl)
          (cs := splitSlash path) (out := []) ⟨by simp, by simp, by simp⟩
          (components_noslash (splitSlash_components path))
        revert ho
        have hw : ∀ w ∈ ((splitSlash path).foldl (cleanStep (path.head? == some slash)) []).reverse, w ≠ [] :=
          fun w hw => (h1.proper w (by simpa using hw)).1
        revert hw
        generalize ((splitSlash path).foldl (cleanStep (path.head? == some slash)) []).reverse = l
        intro hw ho
        cases l with
        | nil => exact absurd rfl ho
        | cons w ws =>
          have := hw w (by simp)
          cases w with
          | nil => exact absurd rfl this
          | cons => cases ws <;> simp [joinSlash]

/-- Joining a non-empty directory with a path. -/
theorem join_denotes {cwd dir d path cs} (hd : dir ≠ []) (h : Denotes cwd dir d) (hc : Components path cs) :
    Denotes cwd (joinPath [dir, path]) (walkFrom d cs) ∧ UpFirst (joinPath [dir, path]) ∧ joinPath [dir, path] ≠ [] := by
  refine ⟨?_, ?_⟩
  · rw [denotes_iff] at h ⊢
    rw [join_walk cwd path hd, ← h, components_split hc]
  · cases dir with
    | nil => exact absurd rfl hd
    | cons b bs => exact ⟨clean_upFirst _, clean_ne _⟩

theorem denotes_fun {cwd p x y} (h : Denotes cwd p x) (g : Denotes cwd p y) : x = y := by
  rw [denotes_iff] at h g
  rw [h, g]

theorem denotes_some (cwd : List Str) (p : Str) : ∃ d, Denotes cwd p d := ⟨_, denotes_iff.mpr rfl⟩

end Protoast
