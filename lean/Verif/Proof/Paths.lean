import Verif.Spec.Paths
/-
  Lemmas about path cleaning and root sorting.
-/
namespace Protoast

/-! ### Components -/

theorem splitSlash_ne : ∀ s, splitSlash s ≠ []
  | [] => by simp [splitSlash]
  | c :: cs => by
    unfold splitSlash
    split
    · simp
    · split <;> simp

theorem splitSlash_noslash : ∀ {w : Str}, slash ∉ w → splitSlash w = [w]
  | [], _ => rfl
  | c :: cs, h => by
    rw [List.mem_cons, not_or] at h
    unfold splitSlash
    rw [if_neg (fun e => h.1 e.symm), splitSlash_noslash h.2]

theorem splitSlash_append : ∀ {w : Str} (t : Str), slash ∉ w → splitSlash (w ++ slash :: t) = w :: splitSlash t
  | [], t, _ => by simp [splitSlash]
  | c :: cs, t, h => by
    rw [List.mem_cons, not_or] at h
    rw [List.cons_append, splitSlash, if_neg (fun e => h.1 e.symm), splitSlash_append t h.2]

theorem components_split {path cs} (h : Components path cs) : splitSlash path = cs := by
  induction h with
  | last h => exact splitSlash_noslash h
  | cons h _ ih => rw [splitSlash_append _ h, ih]

theorem splitSlash_components : ∀ path, Components path (splitSlash path)
  | [] => .last (by simp)
  | c :: path => by
    have ih := splitSlash_components path
    unfold splitSlash
    split
    · next h => subst h; exact .cons (w := []) (by simp) ih
    · next h =>
      have h' : ¬ (47 : UInt8) = c := fun e => h e.symm
      generalize hcs : splitSlash path = cs at ih
      cases ih with
      | last hw =>
        exact .last (by simp [hw, h'])
      | @cons w p ws hw hc =>
        exact .cons (w := c :: w) (by simp [hw, h']) hc

theorem components_noslash {path cs} (h : Components path cs) : ∀ w ∈ cs, slash ∉ w := by
  induction h with
  | last h => intro w hw; simp at hw; exact hw ▸ h
  | cons h _ ih =>
    intro w hw
    rcases List.mem_cons.mp hw with rfl | hw
    · exact h
    · exact ih w hw

theorem components_unique {path cs ds} (h : Components path cs) (g : Components path ds) : cs = ds :=
  (components_split h).symm.trans (components_split g)

theorem splitSlash_joinSlash : ∀ {l : List Str}, l ≠ [] → (∀ w ∈ l, slash ∉ w) → splitSlash (joinSlash l) = l
  | [], h, _ => absurd rfl h
  | [w], _, h => splitSlash_noslash (h w (by simp))
  | w :: v :: ws, _, h => by
    rw [joinSlash, splitSlash_append _ (h w (by simp)), splitSlash_joinSlash (by simp) fun x hx => h x (by simp [hx])]

/-! ### Cleaning -/

/-- `path` starting point. -/
def startOf (cwd : List Str) (path : Str) : List Str := if path.head? = some 47 then [] else cwd

theorem denotes_iff {cwd path place} :
    Denotes cwd path place ↔ place = walkFrom (startOf cwd path) (splitSlash path) := by
  constructor
  · rintro ⟨cs, h, e⟩
    rw [components_split h]
    exact e
  · intro h
    exact ⟨_, splitSlash_components path, h⟩

/-- What the output of cleaning looks like so far (innermost first). -/
structure Tidy (rooted : Bool) (out : List Str) : Prop where
  noslash : ∀ w ∈ out, slash ∉ w
  proper : ∀ w ∈ out, w ≠ [] ∧ w ≠ b!"."
  up : rooted = true → b!".." ∉ out

theorem cleanStep_tidy {rooted out c} (h : Tidy rooted out) (hc : slash ∉ c) : Tidy rooted (cleanStep rooted out c) := by
  unfold cleanStep
  split
  · exact h
  · next hn =>
    rw [not_or] at hn
    split
    · next hu =>
      subst hu
      split
      · split
        · exact h
        · next hr => exact ⟨by simpa using hc, by simp, fun e => absurd e hr⟩
      · next d ds =>
        split
        · next hd =>
          subst hd
          refine ⟨?_, ?_, ?_⟩
          · intro w hw; rcases List.mem_cons.mp hw with rfl | hw
            · exact hc
            · exact h.noslash w hw
          · intro w hw; rcases List.mem_cons.mp hw with rfl | hw
            · simp
            · exact h.proper w hw
          · intro hr; exact absurd (List.mem_cons_self) (h.up hr)
        · exact ⟨fun w hw => h.noslash w (by simp [hw]), fun w hw => h.proper w (by simp [hw]),
            fun hr hm => h.up hr (by simp [hm])⟩
    · next hu =>
      refine ⟨?_, ?_, ?_⟩
      · intro w hw; rcases List.mem_cons.mp hw with rfl | hw
        · exact hc
        · exact h.noslash w hw
      · intro w hw; rcases List.mem_cons.mp hw with rfl | hw
        · exact hn
        · exact h.proper w hw
      · intro hr hm
        rcases List.mem_cons.mp hm with e | hm
        · exact hu e.symm
        · exact h.up hr hm

theorem walkFrom_append (p : List Str) (xs ys : List Str) : walkFrom p (xs ++ ys) = walkFrom (walkFrom p xs) ys := by
  simp [walkFrom]

theorem walkFrom_single (p : List Str) (c : Str) : walkFrom p [c] = stepInto p c := rfl

theorem cleanStep_walk {rooted out c start} (h : Tidy rooted out) (hs : rooted = true → start = []) :
    walkFrom start (cleanStep rooted out c).reverse = stepInto (walkFrom start out.reverse) c := by
  unfold cleanStep
  split
  · next hn => simp [stepInto, hn]
  · next hn =>
    split
    · next hu =>
      split
      · split
        · next hr => rw [hs hr, hu]; rfl
        · simp [walkFrom]
      · next d ds =>
        split
        · rw [List.reverse_cons, walkFrom_append, walkFrom_single]
        · next hd =>
          have hp := h.proper d (by simp)
          rw [List.reverse_cons, walkFrom_append, walkFrom_single]
          have e1 : stepInto (walkFrom start ds.reverse) d = walkFrom start ds.reverse ++ [d] := by
            rw [stepInto, if_neg (not_or.mpr hp), if_neg hd]
          rw [e1, stepInto, if_neg hn, if_pos hu, List.dropLast_concat]
    · rw [List.reverse_cons, walkFrom_append, walkFrom_single]

theorem clean_fold {rooted start} (hs : rooted = true → start = []) : ∀ {cs out : List Str}, Tidy rooted out →
    (∀ w ∈ cs, slash ∉ w) → Tidy rooted (cs.foldl (cleanStep rooted) out) ∧
    walkFrom start (cs.foldl (cleanStep rooted) out).reverse = walkFrom (walkFrom start out.reverse) cs
  | [], out, h, _ => ⟨h, rfl⟩
  | c :: cs, out, h, hc => by
    rw [List.foldl_cons]
    have h1 := cleanStep_tidy (c := c) h (hc c (by simp))
    obtain ⟨h2, h3⟩ := clean_fold hs (cs := cs) h1 fun w hw => hc w (by simp [hw])
    refine ⟨h2, ?_⟩
    rw [h3, cleanStep_walk h hs]
    rfl

/-- Cleaning does not change what a path denotes. -/
theorem clean_walk (cwd : List Str) (path : Str) :
    walkFrom (startOf cwd (clean path)) (splitSlash (clean path)) = walkFrom (startOf cwd path) (splitSlash path) := by
  unfold clean
  split
  · next h =>
    subst h
    rfl
  · next hne =>
    by_cases hr : path.head? = some slash
    · have hb : (path.head? == some slash) = true := by simp [hr]
      simp only [hb, if_true]
      obtain ⟨h1, h2⟩ := clean_fold (rooted := true) (start := []) (fun _ => rfl) (cs := splitSlash path) (out := [])
        ⟨by simp, by simp, by simp⟩ (components_noslash (splitSlash_components path))
      have e : startOf cwd path = [] := by simp [startOf, hr]
      rw [e]
      simp only [List.reverse_nil, walkFrom, List.foldl_nil] at h2
      simp only [walkFrom]
      rw [← h2]
      have e' : ∀ x, startOf cwd (slash :: x) = [] := fun x => by simp [startOf]
      rw [e', show slash :: joinSlash ((splitSlash path).foldl (cleanStep true) []).reverse =
        [] ++ slash :: joinSlash ((splitSlash path).foldl (cleanStep true) []).reverse from rfl,
        splitSlash_append _ (by simp)]
      rw [List.foldl_cons]
      show List.foldl stepInto [] _ = _
      by_cases ho : ((splitSlash path).foldl (cleanStep true) []).reverse = []
      · rw [ho]; rfl
      · rw [splitSlash_joinSlash ho fun w hw => h1.noslash w (by simpa using hw)]
    · have hb : (path.head? == some slash) = false := by simpa using hr
      simp only [hb, Bool.false_eq_true, if_false]
      obtain ⟨h1, h2⟩ := clean_fold (rooted := false) (start := cwd) (by simp) (cs := splitSlash path) (out := [])
        ⟨by simp, by simp, by simp⟩ (components_noslash (splitSlash_components path))
      have e : startOf cwd path = cwd := by
        unfold startOf
        rw [if_neg hr]
      rw [e]
      simp only [List.reverse_nil, walkFrom, List.foldl_nil] at h2
      simp only [walkFrom]
      rw [← h2]
      split
      · next ho => rw [ho]; rfl
      · next ho =>
        have hw : ∀ w ∈ ((splitSlash path).foldl (cleanStep false) []).reverse, slash ∉ w ∧ w ≠ [] := by
          intro w hw
          have hw : w ∈ (splitSlash path).foldl (cleanStep false) [] := by simpa using hw
          exact ⟨h1.noslash w hw, (h1.proper w hw).1⟩
        rw [splitSlash_joinSlash ho fun w h => (hw w h).1]
        have : startOf cwd (joinSlash ((splitSlash path).foldl (cleanStep false) []).reverse) = cwd := by
          revert hw ho
          generalize ((splitSlash path).foldl (cleanStep false) []).reverse = l
          intro ho hw
          cases l with
          | nil => exact absurd rfl ho
          | cons w ws =>
            obtain ⟨h1, h2⟩ := hw w (by simp)
            cases w with
            | nil => exact absurd rfl h2
            | cons b w =>
              have hb : b ≠ 47 := by
                rintro rfl
                simp at h1
              cases ws <;> simp [joinSlash, startOf, hb]
        rw [this]

/-- Joining a non-empty root with a path. -/
theorem join_walk (cwd : List Str) {root : Str} (path : Str) (hr : root ≠ []) :
    walkFrom (startOf cwd (joinPath [root, path])) (splitSlash (joinPath [root, path])) =
      walkFrom (walkFrom (startOf cwd root) (splitSlash root)) (splitSlash path) := by
  cases root with
  | nil => exact absurd rfl hr
  | cons b bs =>
    unfold joinPath
    rw [clean_walk]
    have e1 : startOf cwd (joinSlash [b :: bs, path]) = startOf cwd (b :: bs) := by simp [joinSlash, startOf]
    rw [e1]
    have e2 : ∀ (r : Str), splitSlash (r ++ slash :: path) = splitSlash r ++ splitSlash path := by
      intro r
      have := splitSlash_components r
      generalize splitSlash r = cs at this
      induction this with
      | last h => rw [splitSlash_append _ h]; rfl
      | @cons w p ws h hc ih =>
        rw [List.append_assoc, List.cons_append, splitSlash_append _ h, ih]
        rfl
    show walkFrom _ (splitSlash ((b :: bs) ++ slash :: path)) = _
    rw [e2, walkFrom_append]

theorem staysInside_prefix : ∀ {cs : List Str} {root inner : List Str}, StaysInside inner.length cs →
    ∃ rest, walkFrom (root ++ inner) cs = root ++ rest
  | [], root, inner, _ => ⟨inner, rfl⟩
  | c :: cs, root, inner, h => by
    unfold StaysInside at h
    show ∃ rest, walkFrom (stepInto (root ++ inner) c) cs = _
    unfold stepInto
    split at h
    · next hc => rw [if_pos hc]; exact staysInside_prefix h
    · next hc =>
      rw [if_neg hc]
      split at h
      · next hu =>
        rw [if_pos hu, List.dropLast_append_of_ne_nil (by rintro rfl; simp at h)]
        exact staysInside_prefix (by rw [List.length_dropLast]; exact h.2)
      · next hu =>
        rw [if_neg hu, List.append_assoc]
        exact staysInside_prefix (by simpa using h)

/-! ### Sorting -/

theorem leStr_total : ∀ {a b : Str}, leStr a b = false → leStr b a = true
  | [], _, h => by simp [leStr] at h
  | _ :: _, [], _ => rfl
  | a :: as, b :: bs, h => by
    unfold leStr at h ⊢
    split at h
    · cases h
    · next h1 =>
      split at h
      · next h2 => subst h2; rw [if_neg (by omega), if_pos rfl]; exact leStr_total h
      · next h2 =>
        rw [if_pos]
        have : a.toNat ≠ b.toNat := fun e => h2 (UInt8.toNat_inj.mp e)
        omega

theorem leStr_iff : ∀ {a b : Str}, leStr a b = true ↔ a = b ∨ a < b
  | [], [] => by simp [leStr]
  | [], b :: bs => by simp [leStr]
  | a :: as, [] => by simp [leStr]
  | a :: as, b :: bs => by
    unfold leStr
    rw [List.cons_lt_cons_iff, UInt8.lt_iff_toNat_lt]
    split
    · next h => simp [h]
    · next h =>
      split
      · next h2 =>
        subst h2
        rw [leStr_iff]
        simp
      · next h2 => simp [h, h2]

theorem str_lt_trans {a b c : Str} (h : a < b) (g : b < c) : a < c := List.lt_trans h g
theorem str_lt_irrefl (a : Str) : ¬ a < a := List.lt_irrefl a

theorem insertStr_perm (s : Str) : ∀ l, (insertStr s l).Perm (s :: l)
  | [] => .refl _
  | t :: ts => by
    unfold insertStr
    split
    · exact .refl _
    · exact ((insertStr_perm s ts).cons t).trans (.swap s t ts)

theorem sortStrs_perm : ∀ l, (sortStrs l).Perm l
  | [] => .refl _
  | s :: ss => (insertStr_perm s _).trans ((sortStrs_perm ss).cons s)

/-- Sorted: every element is at most every later one. -/
def SortedStr (l : List Str) : Prop := l.Pairwise fun a b => a = b ∨ a < b

theorem insertStr_sorted {s : Str} : ∀ {l}, SortedStr l → SortedStr (insertStr s l)
  | [], _ => by simp [SortedStr, insertStr]
  | t :: ts, h => by
    unfold SortedStr at h ⊢
    unfold insertStr
    rw [List.pairwise_cons] at h
    split
    · next hs =>
      rw [leStr_iff] at hs
      refine List.pairwise_cons.mpr ⟨?_, List.pairwise_cons.mpr h⟩
      intro b hb
      rcases List.mem_cons.mp hb with rfl | hm
      · exact hs
      · rcases hs with rfl | hs
        · exact h.1 b hm
        · rcases h.1 b hm with rfl | h'
          · exact .inr hs
          · exact .inr (str_lt_trans hs h')
    · next hs =>
      have hs := leStr_total (by simpa using hs)
      rw [leStr_iff] at hs
      refine List.pairwise_cons.mpr ⟨?_, insertStr_sorted h.2⟩
      intro b hb
      rcases List.mem_cons.mp ((insertStr_perm s ts).mem_iff.mp hb) with e | hm
      · exact e ▸ hs
      · exact h.1 b hm

theorem sortStrs_sorted : ∀ l, SortedStr (sortStrs l)
  | [] => .nil
  | _ :: ss => insertStr_sorted (sortStrs_sorted ss)

theorem sorted_perm_eq : ∀ {l m : List Str}, SortedStr l → SortedStr m → l.Perm m → l = m := by
  intro l m hl hm hp
  refine List.Perm.eq_of_pairwise ?_ hl hm hp
  intro a b _ _ h g
  rcases h with h | h
  · exact h
  · rcases g with g | g
    · exact g.symm
    · exact absurd (str_lt_trans h g) (str_lt_irrefl a)

theorem sortStrs_perm_eq {l m : List Str} (h : l.Perm m) : sortStrs l = sortStrs m :=
  sorted_perm_eq (sortStrs_sorted l) (sortStrs_sorted m) ((sortStrs_perm l).trans (h.trans (sortStrs_perm m).symm))

theorem compactKeep_mem {x : Str} : ∀ {l}, x ∈ compactKeep l ↔ x ∈ l
  | [] => by simp [compactKeep]
  | [s] => by simp [compactKeep]
  | s :: t :: rest => by
    unfold compactKeep
    split
    · next h => subst h; rw [compactKeep_mem]; simp
    · rw [List.mem_cons, compactKeep_mem, List.mem_cons (l := t :: rest)]

theorem compactKeep_sorted : ∀ {l}, SortedStr l → (compactKeep l).Pairwise (· < ·)
  | [], _ => .nil
  | [s], _ => by simp [compactKeep]
  | s :: t :: rest, h => by
    unfold SortedStr at h
    rw [List.pairwise_cons] at h
    unfold compactKeep
    split
    · exact compactKeep_sorted h.2
    · next hne =>
      refine List.pairwise_cons.mpr ⟨?_, compactKeep_sorted h.2⟩
      intro b hb
      rw [compactKeep_mem] at hb
      rcases h.1 t (by simp) with e | hlt
      · exact absurd e hne
      · rcases List.mem_cons.mp hb with rfl | hb
        · exact hlt
        · rcases (List.pairwise_cons.mp h.2).1 b hb with rfl | h'
          · exact hlt
          · exact str_lt_trans hlt h'

theorem compactKeep_length : ∀ l, (compactKeep l).length ≤ l.length
  | [] => by simp [compactKeep]
  | [s] => by simp [compactKeep]
  | s :: t :: rest => by
    unfold compactKeep
    have := compactKeep_length (t :: rest)
    split <;> simp at this ⊢ <;> omega

theorem compactKeep_nodup : ∀ {l : List Str}, l.Nodup → compactKeep l = l
  | [], _ => rfl
  | [_], _ => rfl
  | s :: t :: rest, h => by
    rw [List.nodup_cons] at h
    unfold compactKeep
    rw [if_neg (by rintro rfl; exact h.1 (by simp)), compactKeep_nodup h.2]

theorem nodup_of_lt : ∀ {l : List Str}, l.Pairwise (· < ·) → l.Nodup :=
  fun h => h.imp fun hab e => by subst e; exact str_lt_irrefl _ hab

theorem compactKeep_eq : ∀ {l : List Str}, (compactKeep l).length = l.length → compactKeep l = l
  | [], _ => rfl
  | [_], _ => rfl
  | s :: t :: rest, h => by
    have := compactKeep_length (t :: rest)
    unfold compactKeep at h ⊢
    split
    · next e => rw [if_pos e] at h; simp at h this; omega
    · next e =>
      rw [if_neg e] at h
      rw [compactKeep_eq (by simpa using h)]

/-- The kept roots have full length exactly if there were no duplicates. -/
theorem compactKeep_full {l : List Str} (hs : SortedStr l) (h : (compactKeep l).length = l.length) : l.Nodup := by
  rw [← compactKeep_eq h]
  exact nodup_of_lt (compactKeep_sorted hs)

/-! ### Checking -/

theorem checkRoot_ok {os : OS} {root r} (h : checkRoot os root = .ok r) : r = root ∧ os.stat root = .ok true := by
  unfold checkRoot at h
  split at h
  · cases h
  · next b hb =>
    cases b <;> simp at h
    exact ⟨h.symm, hb⟩

theorem checkRoots_ok {os : OS} : ∀ {roots rs}, checkRoots os roots = .ok rs →
    rs = roots.map .root ∧ ∀ x ∈ roots, os.stat x = .ok true
  | [], rs, h => by cases h; simp
  | root :: rest, rs, h => by
    unfold checkRoots at h
    split at h
    · cases h
    · next r hr =>
      split at h
      · cases h
      · next rs' hrs =>
        cases h
        obtain ⟨h1, h2⟩ := checkRoot_ok hr
        obtain ⟨h3, h4⟩ := checkRoots_ok hrs
        subst h1 h3
        refine ⟨rfl, ?_⟩
        intro x hx
        rcases List.mem_cons.mp hx with rfl | hx
        · exact h2
        · exact h4 x hx

theorem checkRoots_all {os : OS} : ∀ {roots}, (∀ x ∈ roots, os.stat x = .ok true) →
    checkRoots os roots = .ok (roots.map .root)
  | [], _ => rfl
  | root :: rest, h => by
    unfold checkRoots checkRoot
    rw [h root (by simp)]
    simp only [if_true]
    rw [checkRoots_all fun x hx => h x (by simp [hx])]
    rfl

end Protoast
