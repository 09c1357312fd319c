import Verif.Small.Again
import Verif.Small.Replay
import Verif.Proof.Again3
/-
  Repeating a whole call, possibly on another handle for the same option or the same file.
-/
namespace Protoast.Small.Again
open Protoast
open Protoast.Again (Upto UptoO Uptos)

abbrev Likes : List Node → List Node → Prop := AllRel Like

theorem Likes.refl (l) : Likes l l := by
  induction l with
  | nil => exact .nil
  | cons _ _ ih => exact .cons (.refl _) ih

theorem Likes.ofUptos {l1 l2} (h : Uptos l1 l2) : Likes l1 l2 := by
  induction h with
  | nil => exact .nil
  | cons h _ ih => exact .cons (by cases h <;> first | exact .refl _ | exact .option) ih

/-- Replies that say the same. -/
def LikeReply (x y : Reply) : Prop := Likes x.1 y.1 ∧ x.2 = y.2

theorem LikeReply.refl (x) : LikeReply x x := ⟨Likes.refl _, rfl⟩

theorem like_hierarchy {n m : Node} (h : Like n m) (fuel : Nat) :
    Rep Likes (Small.nodeHierarchy fuel (some n)) (Small.nodeHierarchy fuel (some m)) := by
  cases fuel with
  | zero => exact Rep.timeout
  | succ k =>
    rw [Small.nodeHierarchy, Small.nodeHierarchy]
    have hp : Small.nodeParent m = Small.nodeParent n := by
      cases h <;> rfl
    rw [hp]
    refine Rep.bind (Same.nodeParent n) ?_
    rintro a _ rfl
    refine Rep.bind (Same.nodeHierarchy k a) ?_
    rintro l _ rfl
    exact Rep.pure (.cons h (Likes.refl _))

theorem like_lastFile {l1 l2} (h : Likes l1 l2) : Small.lastFile l2 = Small.lastFile l1 := by
  induction h with
  | nil => rfl
  | cons h hs ih =>
    cases hs with
    | nil => cases h <;> rfl
    | cons h' hs' =>
      rw [Small.lastFile, Small.lastFile]
      exact ih

theorem like_posDefer {n m : Node} (h : Like n m) (fuel : Nat) (x : Position) :
    Rep Eq (Small.posDefer fuel n x) (Small.posDefer fuel m x) := by
  unfold Small.posDefer
  split
  · exact Rep.pure rfl
  · refine Rep.bind (like_hierarchy h fuel) fun l1 l2 hl => ?_
    rw [like_lastFile hl]
    sp

theorem like_pos {n m : Node} (h : Like n m) (fuel : Nat) : Rep Eq (Small.pos fuel n) (Small.pos fuel m) := by
  constructor
  intro r x r1 e
  unfold Small.pos at e ⊢
  rw [alone_handle] at e
  have hpb : Small.posBody m = Small.posBody n := by cases h <;> rfl
  rw [hpb]
  rcases hb : (Small.posBody n).alone r with ⟨res, r2⟩
  rw [hb] at e
  cases res with
  | ok a =>
    simp only at e
    obtain ⟨h1, h2⟩ := (Same.posBody n).run r a r2 hb
    obtain ⟨h3, h4⟩ := (like_posDefer h fuel a).run r2 x r1 e
    refine ⟨h1.trans h3, fun T hT => (h2 T (h3.trans hT)).handle ?_⟩
    rintro _ rfl
    exact h4 T hT
  | panic p =>
    exfalso
    simp only [alone_bind] at e
    rcases hd : (Small.posDefer fuel n {}).alone r2 with ⟨res, r3⟩
    rw [hd] at e
    cases res <;> cases e
  | timeout => cases e

theorem Same.plainCall (q : PlainQ) (n : Node) : Same (Small.plainCall q n) := by
  unfold Small.plainCall
  split <;> sp

/-- Calls other than iterators and lookups by name. -/
theorem like_plain {n m : Node} (h : Like n m) (q : PlainQ) : Rep LikeReply (Small.plainCall q n) (Small.plainCall q m) := by
  have same : Small.plainCall q m = Small.plainCall q n → Rep LikeReply (Small.plainCall q n) (Small.plainCall q m) := by
    intro e; rw [e]; exact (Same.plainCall q n).mono fun x _ e => e ▸ LikeReply.refl x
  cases q
  case hierarchy f => exact Rep.bind (like_hierarchy h f) fun l1 l2 hl => Rep.pure ⟨hl, rfl⟩
  case pos f => exact Rep.bind (like_pos h f) fun x y e => by subst e; exact Rep.pure (LikeReply.refl _)
  all_goals exact same (by cases h <;> rfl)

theorem like_query {n m : Node} (h : Like n m) (q : Query) : Rep LikeReply (Small.queryCall q n) (Small.queryCall q m) := by
  cases q with
  | iter q i =>
    have e : Small.IterQ.run q m i = Small.IterQ.run q n i := by cases h <;> cases q <;> rfl
    show Rep _ (Small.IterQ.run q n i >>= _) (Small.IterQ.run q m i >>= _)
    rw [e]
    exact Rep.bind (iter_rep q n i) fun x y e => Rep.pure ⟨.ofUptos e.toList, rfl⟩
  | named q s =>
    have e : Small.NamedQ.run q m s = Small.NamedQ.run q n s := by cases h <;> cases q <;> rfl
    show Rep _ (Small.NamedQ.run q n s >>= _) (Small.NamedQ.run q m s >>= _)
    rw [e]
    exact Rep.bind (named_rep q n s) fun x y e => Rep.pure ⟨.ofUptos e.toList, rfl⟩
  | plain q => exact like_plain h q

/-- `Proto` for a file that is already there. -/
theorem proto_rep {W W' : World} {fuel fuel' : Nat} {path : Str} {r : Reg} {x : Reply} {r1 : Reg} {pool pool' : List Node}
    (hl : (r.protos path).isSome = true) (e : (call pool (.proto W fuel path)).alone r = (.ok x, r1)) :
    CacheExt r r1 ∧ ∀ T, CacheExt r1 T → ReadsTo T (LikeReply x) (call pool' (.proto W' fuel' path)) := by
  obtain ⟨i, hi⟩ := Option.isSome_iff_exists.mp hl
  have ep : (Small.proto W fuel path).alone r = (.ok (.ok (.wrapped r.next .file ⟨i, []⟩)), { r with next := r.next + 1 }) := by
    unfold Small.proto
    rw [alone_bind]
    simp only [P.get, P.alone, pure, M.pure, hi]
    rfl
  have e' : (call pool (.proto W fuel path)).alone r = (.ok ([.wrapped r.next .file ⟨i, []⟩], .nothing), { r with next := r.next + 1 }) := by
    simp only [call]
    rw [alone_bind, ep]
    rfl
  rw [e'] at e
  cases e
  refine ⟨RO.alloc r, fun T hT => ?_⟩
  simp only [call]
  refine ReadsTo.bind (Q := fun y => ∃ a, y = .ok (.wrapped a .file ⟨i, []⟩)) (fun r' hr' => ?_) ?_
  · have hp : r'.protos path = some i := by
      have e : r' = { T with next := r'.next } := hr'
      rw [e]
      show T.protos path = some i
      rw [hT.protos]
      exact hi
    show ReadsTo T _ (P.handle _ _ (P.ret r'))
    simp only [P.handle, hp]
    exact fun n => ⟨n, rfl⟩
  · rintro _ ⟨a, rfl⟩
    exact ⟨.cons .file .nil, rfl⟩

/-- Calls that do the same: the same call, on a handle for the same thing. -/
inductive SameCall (pool pool' : List Node) : Op → Op → Prop where
  | proto {W fuel path} : SameCall pool pool' (.proto W fuel path) (.proto W fuel path)
  | byName {name} : SameCall pool pool' (.byName name) (.byName name)
  | query {i j n m q} : pool[i]? = some n → pool'[j]? = some m → Like n m → SameCall pool pool' (.query i q) (.query j q)

/-- A call that loads nothing and returned, made again. -/
theorem call_rep {pool pool' : List Node} {op op' : Op} (h : SameCall pool pool' op op') {r r1 : Reg} {x : Reply}
    (hl : Protoast.Quiet.Loaded' r op) (e : (call pool op).alone r = (.ok x, r1)) :
    CacheExt r r1 ∧ ∀ T, CacheExt r1 T → ReadsTo T (LikeReply x) (call pool' op') := by
  cases h with
  | proto => exact proto_rep hl e
  | byName =>
    rename_i name
    have : Rep LikeReply (call pool (.byName name)) (call pool' (.byName name)) :=
      Rep.bind (Same.nodeByFullName name) fun x y e => by subst e; exact Rep.pure (LikeReply.refl _)
    exact this.run r x r1 e
  | query hi hj hnm =>
    rename_i i j n m q
    have e1 : call pool (.query i q) = queryCall q n := by simp only [call, hi]
    have e2 : call pool' (.query j q) = queryCall q m := by simp only [call, hj]
    rw [e1] at e
    rw [e2]
    exact (like_query hnm q).run r x r1 e

end Protoast.Small.Again
