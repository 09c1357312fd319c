import Verif.Props.Quiet
/-
  C87: programs that share a registry do not influence each other.
-/
namespace Protoast

theorem Corresponds.trans {r1 r2 r3 : Reg} {p q s : Ptr} (h : Corresponds r1 r2 p q) (g : Corresponds r2 r3 q s) :
    Corresponds r1 r3 p s := by
  obtain ⟨h1, f, h2, h3⟩ := h
  obtain ⟨g1, f', g2, g3⟩ := g
  rw [h3] at g2
  cases g2
  exact ⟨h1.trans g1, f, h2, g3⟩

theorem SameOption.trans {r1 r2 r3 : Reg} {p q s : Option Ptr} (h : SameOption r1 r2 p q) (g : SameOption r2 r3 q s) :
    SameOption r1 r3 p s := by
  cases p <;> cases q <;> cases s <;> simp only [SameOption] at h g ⊢
  exact h.trans g

theorem SameVal.trans {r1 r2 r3 : Reg} {u v : OptVal} (h : SameVal r1 r2 u v) :
    ∀ {w : OptVal}, SameVal r2 r3 v w → SameVal r1 r3 u w := by
  induction h with
  | bool h => intro w g; cases g with | bool g => exact .bool (h.trans g)
  | int h => intro w g; cases g with | int g => exact .int (h.trans g)
  | uint h => intro w g; cases g with | uint g => exact .uint (h.trans g)
  | float h => intro w g; cases g with | float g => exact .float (h.trans g)
  | string h => intro w g; cases g with | string g => exact .string (h.trans g)
  | bytes h => intro w g; cases g with | bytes g => exact .bytes (h.trans g)
  | enum h h' => intro w g; cases g with | enum g g' => exact .enum (h.trans g) (h'.trans g')
  | @array o o' vs vs' h hl _ ih =>
    intro w g
    cases g with
    | @array _ _ _ vs'' g gl gs =>
      refine .array (h.trans g) (hl.trans gl) fun i v v'' a b => ?_
      have hi : i < vs'.length := by rw [gl]; exact (List.getElem?_eq_some_iff.mp b).1
      have e := List.getElem?_eq_getElem hi
      exact ih i v _ a e (gs i _ v'' e b)
  | @map o o' l vs vs' h hl hk _ ih =>
    intro w g
    cases g with
    | @map _ _ _ _ vs'' g gl gk gs =>
      have mid : ∀ (i : Nat) x, vs''[i]? = some x → ∃ k v, vs'[i]? = some (k, v) := by
        intro i x b
        have hi : i < vs'.length := by rw [gl]; exact (List.getElem?_eq_some_iff.mp b).1
        exact ⟨_, _, List.getElem?_eq_getElem hi⟩
      refine .map (h.trans g) (hl.trans gl) (fun i k v k'' v'' a b => ?_) (fun i k v k'' v'' a b => ?_)
      · obtain ⟨k', v', e⟩ := mid i _ b
        exact (hk i k v k' v' a e).trans (gk i k' v' k'' v'' e b)
      · obtain ⟨k', v', e⟩ := mid i _ b
        exact ih i k v k' v' a e (gs i k' v' k'' v'' e b)

theorem SameNode.trans {r1 r2 r3 : Reg} {u v : Node} (h : SameNode r1 r2 u v) :
    ∀ {w : Node}, SameNode r2 r3 v w → SameNode r1 r3 u w := by
  induction h with
  | wrapped h => intro w g; cases g with | wrapped g => exact .wrapped (h.trans g)
  | option a b c => intro w g; cases g with | option a' b' c' => exact .option (a.trans a') (b.trans b') (c.trans c')
  | oneof h => intro w g; cases g with | oneof g => exact .oneof (h.trans g)
  | map h => intro w g; cases g with | map g => exact .map (h.trans g)
  | repeatedNil => intro w g; cases g with | repeatedNil => exact .repeatedNil
  | «repeated» _ ih => intro w g; cases g with | «repeated» g => exact .repeated (ih g)
  | builtin => intro w g; cases g with | builtin => exact .builtin
  | value h => intro w g; cases g with | value g => exact .value (h.trans g)
  | mapItem h => intro w g; cases g with | mapItem g => exact .mapItem (h.trans g)

theorem mid_handle {c1 c2 : Client} (h : c1.pool.length = c2.pool.length) {i : Nat} {n : Node} (e : c1.pool[i]? = some n) :
    ∃ n', c2.pool[i]? = some n' := by
  have hi : i < c2.pool.length := by rw [← h]; exact (List.getElem?_eq_some_iff.mp e).1
  exact ⟨_, List.getElem?_eq_getElem hi⟩

theorem SameHandles.trans {c1 c2 c3 : Client} (h : SameHandles c1 c2) (g : SameHandles c2 c3) : SameHandles c1 c3 := by
  refine ⟨h.length.trans g.length, ?_, ?_⟩
  · intro i n1 n3 e1 e3
    obtain ⟨n2, e2⟩ := mid_handle h.length e1
    exact (h.same i n1 n2 e1 e2).trans (g.same i n2 n3 e2 e3)
  · intro i j n1 n3 m1 m3 e1 e3 d1 d3
    obtain ⟨n2, e2⟩ := mid_handle h.length e1
    obtain ⟨m2, d2⟩ := mid_handle h.length d1
    exact (h.identical i j n1 n2 m1 m2 e1 e2 d1 d2).trans (g.identical i j n2 n3 m2 m3 e2 e3 d2 d3)

end Protoast

namespace Protoast.Props

theorem Twins.trans {c1 c2 c3 : Client} (h : Twins c1 c2) (g : Twins c2 c3) : Twins c1 c3 where
  handles := h.handles.trans g.handles
  answers op := (h.answers op).trans (g.answers op)
  texts F i v1 v3 e1 e3 := by
    obtain ⟨n2, e2⟩ := mid_handle h.handles.length e1
    have := h.handles.same i _ n2 e1 e2
    cases this with
    | @value _ v2 hv => exact (h.texts F i v1 v2 e1 e2).trans (g.texts F i v2 v3 e2 e3)
  index i n1 n3 e1 e3 := by
    obtain ⟨n2, e2⟩ := mid_handle h.handles.length e1
    exact (h.index i n1 n2 e1 e2).trans (g.index i n2 n3 e2 e3)
  files := ⟨h.files.1.trans g.files.1, h.files.2.trans g.files.2⟩

/-! ### Sharing a registry -/

/-- A registry that several programs use: the one in question, and all others together. -/
structure Shared where
  reg : Reg
  mine : List Node
  others : List Node

/-- One call, of the program in question (`true`) or of another one. -/
abbrev Turn := Bool × Op

def Shared.step (s : Shared) (t : Turn) : Shared :=
  if t.1 then
    let c := Client.step ⟨s.reg, s.mine⟩ t.2
    ⟨c.reg, c.pool, s.others⟩
  else
    let c := Client.step ⟨s.reg, s.others⟩ t.2
    ⟨c.reg, s.mine, c.pool⟩

/-- The calls in the order in which they are made. -/
def Shared.exec (s : Shared) (ts : List Turn) : Shared := ts.foldl Shared.step s

/-- What the program in question has. -/
def Shared.me (s : Shared) : Client := ⟨s.reg, s.mine⟩

/-- The calls of the program in question. -/
def myCalls (ts : List Turn) : List Op := ts.filterMap fun t => if t.1 then some t.2 else none

/-- All calls of the others return or panic for harmless reasons (`Settled`). -/
def OthersSettle : Shared → List Turn → Prop
  | _, [] => True
  | s, t :: ts => (t.1 = false → Settled (t.2.run s.others s.reg).1) ∧ OthersSettle (s.step t) ts

theorem fine_sub {r : Reg} {l l' : List Node} (h : Quiet.Fine ⟨r, l⟩) (hs : ∀ n ∈ l', n ∈ l) : Quiet.Fine ⟨r, l'⟩ := by
  obtain ⟨⟨o, hi, hg⟩, hu⟩ := h
  exact ⟨⟨o, hi, fun n hn => hg n (hs n hn)⟩, hu⟩

theorem step_fine {r : Reg} {l l' : List Node} (h : Quiet.Fine ⟨r, l ++ l'⟩) (op : Op) :
    Quiet.Fine ⟨(Client.step ⟨r, l⟩ op).reg, (Client.step ⟨r, l⟩ op).pool ++ l'⟩ := by
  have h1 : Quiet.Fine ⟨r, l⟩ := fine_sub h fun n hn => List.mem_append_left _ hn
  have h2 := (h1.step op).uniq
  obtain ⟨⟨o, hi, hg⟩, hu⟩ := h
  obtain ⟨o', hx, hi', hg'⟩ := step_inv (c := ⟨r, l⟩) hi (fun n hn => hg n (List.mem_append_left _ hn)) op
  refine ⟨⟨o', hi', fun n hn => ?_⟩, h2⟩
  rcases List.mem_append.mp hn with hn | hn
  · exact hg' n hn
  · exact hx.good n (hg n (List.mem_append_right _ hn))

theorem fine_comm {r : Reg} {l l' : List Node} (h : Quiet.Fine ⟨r, l ++ l'⟩) : Quiet.Fine ⟨r, l' ++ l⟩ :=
  fine_sub h fun n hn => by
    rcases List.mem_append.mp hn with hn | hn
    · exact List.mem_append_right _ hn
    · exact List.mem_append_left _ hn

theorem shared_fine {s : Shared} (h : Quiet.Fine ⟨s.reg, s.mine ++ s.others⟩) (t : Turn) :
    Quiet.Fine ⟨(s.step t).reg, (s.step t).mine ++ (s.step t).others⟩ := by
  unfold Shared.step
  split
  · exact step_fine h t.2
  · exact fine_comm (step_fine (fine_comm h) t.2)

theorem shared_protos {s : Shared} (h : Quiet.Fine ⟨s.reg, s.mine ++ s.others⟩) (t : Turn) (path : Str)
    (hp : (s.reg.protos path).isSome = true) : ((s.step t).reg.protos path).isSome = true := by
  unfold Shared.step
  split
  · exact Quiet.step_protos ⟨s.reg, s.mine⟩ t.2 path hp (fine_sub h fun n hn => List.mem_append_left _ hn).good
  · exact Quiet.step_protos ⟨s.reg, s.others⟩ t.2 path hp (fine_sub h fun n hn => List.mem_append_right _ hn).good

theorem shared_loads {s : Shared} (h : Quiet.Fine ⟨s.reg, s.mine ++ s.others⟩) (t : Turn) {op : Op}
    (hp : LoadsNothing s.reg op) : LoadsNothing (s.step t).reg op := by
  cases op with
  | proto W fuel path => exact shared_protos h t path hp
  | _ => trivial

/-- One call of another program. -/
theorem other_rel {s : Shared} (hf : Quiet.Fine ⟨s.reg, s.mine ++ s.others⟩) {op : Op} (hl : LoadsNothing s.reg op)
    (hok : Settled (op.run s.others s.reg).1) (fl : Bool) (hfl : fl = true → ¬ IsTypeCall op) :
    Quiet.Rel fl (Quiet.Self s.reg) ⟨s.reg, s.mine⟩ ⟨(s.step (false, op)).reg, s.mine⟩ := by
  have hfo : Quiet.Fine ⟨s.reg, s.others⟩ := fine_sub hf fun n hn => List.mem_append_right _ hn
  have hg := hfo.grow op (quiet_loaded hl) hok.tidy
  have hf' := shared_fine hf (false, op)
  have hm : Quiet.Fine ⟨(s.step (false, op)).reg, s.mine⟩ := fine_sub hf' fun n hn => List.mem_append_left _ hn
  have hm0 : Quiet.Fine ⟨s.reg, s.mine⟩ := fine_sub hf fun n hn => List.mem_append_left _ hn
  obtain ⟨o, hi, hgd⟩ := hm0.good
  exact ⟨hg.sim hm0.healthy hm.healthy fl fun e => step_ftcache (c := ⟨s.reg, s.others⟩) (hfl e),
    Quiet.pool_refl hi _ hgd, hm0.good, hm.good⟩

theorem myCalls_mem {ts : List Turn} {op : Op} (h : op ∈ myCalls ts) : (true, op) ∈ ts := by
  unfold myCalls at h
  obtain ⟨⟨b, x⟩, h1, h2⟩ := List.mem_filterMap.mp h
  cases b with
  | true => cases h2; exact h1
  | false => cases h2

theorem shared_twins (fl : Bool) : ∀ (ts : List Turn) {s : Shared}, Quiet.Fine ⟨s.reg, s.mine ++ s.others⟩ →
    (∀ t ∈ ts, LoadsNothing s.reg t.2 ∨ (fl = true ∧ t.1 = true)) →
    (∀ t ∈ ts, fl = true → t.1 = false → ¬ IsTypeCall t.2) → OthersSettle s ts →
    Twins (Client.exec s.me (myCalls ts)) (s.exec ts).me := by
  intro ts
  induction ts with
  | nil =>
    intro s hf _ _ _
    exact rel_twins ((fine_sub (l' := s.mine) hf fun n hn => List.mem_append_left _ hn).rel false)
  | cons t ts ih =>
    rintro s hf hl ht ⟨hok, hs⟩
    have hl' : ∀ t' ∈ ts, LoadsNothing (s.step t).reg t'.2 ∨ (fl = true ∧ t'.1 = true) := fun t' h' =>
      (hl t' (List.mem_cons_of_mem _ h')).imp (shared_loads hf t) id
    have h1 := ih (shared_fine hf t) hl' (fun t' h' => ht t' (List.mem_cons_of_mem _ h')) hs
    rcases t with ⟨b, op⟩
    cases b with
    | true => exact h1
    | false =>
      have hlo : LoadsNothing s.reg op := by
        rcases hl (false, op) List.mem_cons_self with h | ⟨-, h⟩
        · exact h
        · cases h
      have hr := other_rel hf hlo (hok rfl) fl fun e => ht (false, op) List.mem_cons_self e rfl
      obtain ⟨m, -, hr⟩ := hr.exec (myCalls ts) (by
        intro op' ho
        rcases hl _ (List.mem_cons_of_mem _ (myCalls_mem ho)) with h | ⟨h, -⟩
        · exact .inr (quiet_loaded h)
        · exact .inl h)
      exact (rel_twins hr).trans h1

/-- C87: a program that shares a registry with others cannot tell that it does: if nobody loads further files and the
    calls of the others return or panic for harmless reasons, then, however the calls are interleaved, it receives the
    same handles as if it were alone, two of them are identical in the one case exactly if they are in the other, and every call answers the
    same. -/
theorem C87_shared {P c mine others ts} (h : Reachable P c) (hm : ∀ n ∈ mine, n ∈ c.pool) (ho : ∀ n ∈ others, n ∈ c.pool)
    (hl : ∀ t ∈ ts, LoadsNothing c.reg t.2) (hok : OthersSettle ⟨c.reg, mine, others⟩ ts) :
    Twins (Client.exec ⟨c.reg, mine⟩ (myCalls ts)) (Shared.exec ⟨c.reg, mine, others⟩ ts).me := by
  refine shared_twins false ts (s := ⟨c.reg, mine, others⟩) (fine_sub (Quiet.reachable_fine h) ?_) (fun t ht => .inl (hl t ht))
    (fun t _ e => by cases e) hok
  intro n hn
  exact (List.mem_append.mp hn).elim (hm n) (ho n)

/-- C87 for a program that loads files: then the others must load nothing and not use `Type`. -/
theorem C87_shared_loading {P c mine others ts} (h : Reachable P c) (hm : ∀ n ∈ mine, n ∈ c.pool)
    (ho : ∀ n ∈ others, n ∈ c.pool) (hl : ∀ t ∈ ts, t.1 = false → LoadsNothing c.reg t.2 ∧ ¬ IsTypeCall t.2)
    (hok : OthersSettle ⟨c.reg, mine, others⟩ ts) :
    Twins (Client.exec ⟨c.reg, mine⟩ (myCalls ts)) (Shared.exec ⟨c.reg, mine, others⟩ ts).me := by
  refine shared_twins true ts (s := ⟨c.reg, mine, others⟩) (fine_sub (Quiet.reachable_fine h) ?_) ?_
    (fun t ht _ e => (hl t ht e).2) hok
  · intro n hn
    exact (List.mem_append.mp hn).elim (hm n) (ho n)
  · intro t ht
    cases e : t.1 with
    | false => exact .inl (hl t ht e).1
    | true => exact .inr ⟨rfl, rfl⟩

/-! ### An example -/

def othersB : Shared → List Turn → Bool
  | _, [] => true
  | s, t :: ts => (t.1 || settledB (t.2.run s.others s.reg).1) && othersB (s.step t) ts

theorem othersB_spec : ∀ {ts : List Turn} {s : Shared}, othersB s ts = true → OthersSettle s ts := by
  intro ts
  induction ts with
  | nil => intro s _; trivial
  | cons t ts ih =>
    intro s h
    simp only [othersB, Bool.and_eq_true, Bool.or_eq_true] at h
    refine ⟨fun e => ?_, ih h.2⟩
    rcases h.1 with h1 | h1
    · rw [e] at h1; cases h1
    · exact settledB_spec h1

/-- Two programs that ask for the types of the same field, in turns; a call of the other one panics. -/
def turns : List Turn :=
  [(false, .byName b!".p.q.M"), (true, .query 0 (.named .fileMessage b!"M")), (false, .query 1 (.iter .messageFields 4)),
   (true, .query 1 (.iter .messageFields 4)), (false, .query 2 (.plain .fieldType)), (true, .query 2 (.plain .fieldType)),
   (false, .query 1 (.iter .messageFields 3)), (false, .query 4 (.plain .number)), (true, .byName b!".p.q.M")]

/-- In the example the program receives four handles; the field type it gets was made for the other program. -/
example : Reachable AnyTree Ex.c1 ∧ (∀ t ∈ turns, LoadsNothing Ex.c1.reg t.2) ∧
    OthersSettle ⟨Ex.c1.reg, Ex.c1.pool, Ex.c1.pool⟩ turns ∧
    (Shared.exec ⟨Ex.c1.reg, Ex.c1.pool, Ex.c1.pool⟩ turns).mine.length = 5 ∧
    Twins (Client.exec Ex.c1 (myCalls turns)) (Shared.exec ⟨Ex.c1.reg, Ex.c1.pool, Ex.c1.pool⟩ turns).me := by
  have h1 : ∀ t ∈ turns, LoadsNothing Ex.c1.reg t.2 := by
    intro op ho
    simp only [turns, List.mem_cons, List.not_mem_nil, or_false] at ho
    rcases ho with rfl | rfl | rfl | rfl | rfl | rfl | rfl | rfl | rfl <;> trivial
  have h2 : OthersSettle ⟨Ex.c1.reg, Ex.c1.pool, Ex.c1.pool⟩ turns := othersB_spec (by decide +kernel)
  exact ⟨Ex.c1_reach, h1, h2, by decide +kernel, C87_shared Ex.c1_reach (fun _ h => h) (fun _ h => h) h1 h2⟩

end Protoast.Props
