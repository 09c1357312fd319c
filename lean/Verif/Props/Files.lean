import Verif.Proof.Induct
import Verif.Props.Identity
/-
  C84: which file handles are identical (the exact form of C26).
-/
namespace Protoast.Props
open Protoast

/-- No cached node has the address `a`, which is in use. -/
def Loose (a : Nat) (r : Reg) : Prop := a < r.next ∧ ∀ v k p, r.cache v ≠ some (some (.wrapped a k p))

theorem keep_loose (a : Nat) : KeepInv AnyTree (Loose a) where
  query r r' h hq := ⟨Nat.lt_of_lt_of_le hq.1 h.next, fun v k p e => by
    rcases h.nodes v a k p e with e | e
    · exact hq.2 v k p e
    · have := hq.1; omega⟩
  add r path elems _ _ hq := hq
  name r i f key s p _ _ _ hq := hq
  scope r i f key v s _ _ _ hq := hq

theorem op_any (op : Op) : Op.Sat AnyTree op := by cases op <;> simp [Op.Sat, World.Sat, AnyTree]

/-- `Proto` returns a handle with a new address that no cache knows. -/
theorem proto_address {W fuel path f r r'} (h : proto W fuel path r = (.ok (.ok f), r')) :
    ∃ p, f = .wrapped r.next .file p ∧ r'.cache = r.cache ∧ r'.next = r.next + 1 := by
  rcases proto_cases W path r with ⟨i, hi, e⟩ | ⟨_, er, e⟩ | ⟨hn, nm, elems, _, hload, e⟩
  · rw [e] at h; cases h; exact ⟨_, rfl, rfl, rfl⟩
  · rw [e] at h; cases h
  · rw [e] at h
    unfold protoNew at h
    have hl := runActs_lext (fileActs (.at ⟨r.heap.length, []⟩) r.heap.length elems)
      (fun g _ => visitImport_lext W fuel g) (addFile r path elems)
    rcases hr : runActs (visitImport W fuel) (fileActs (.at ⟨r.heap.length, []⟩) r.heap.length elems)
      (addFile r path elems) with ⟨res, r1⟩
    rw [hr] at h hl
    have h1 : r1.next = r.next := hl.next
    have h2 : r1.cache = r.cache := hl.cache
    cases res with
    | panic p => cases h
    | timeout => cases h
    | ok u =>
      simp only [Prod.mk.injEq, Res.ok.injEq, Except.ok.injEq] at h
      obtain ⟨rfl, rfl⟩ := h
      exact ⟨_, by rw [h1], h2, by simp only [h1]⟩

/-- The state after a call of `Proto` that returned a file. -/
theorem step_proto {c : Client} {W fuel path f r'} (h : proto W fuel path c.reg = (.ok (.ok f), r')) :
    c.step (.proto W fuel path) = ⟨r', c.pool ++ [f]⟩ := by
  simp only [Client.step, Op.run, M.bind_apply, h, M.pure_apply]

theorem reach_any_op {P c op} (h : Reachable P c) : Reachable AnyTree (c.step op) := by
  obtain ⟨W, fuel, r, ops, _, hn, _, rfl⟩ := h
  exact ⟨W, fuel, r, ops ++ [op], fun _ _ _ _ => trivial, hn, fun op _ => op_any op, (exec_append _ _ [op]).symm⟩

/-- The address of a handle of a client is in use. -/
theorem pool_used {P c a k p} (hr : Reachable P c) (h : Node.wrapped a k p ∈ c.pool) : a < c.reg.next := by
  obtain ⟨o, hi, hg⟩ := reachable_inv hr
  exact hi.fresh _ _ (hg _ h).owner

/-- C84, first half: the handle `Proto` returns is not identical to any handle the client has ever received before,
    nor to any file handle that `NodeFile`, `NodeParent` or `NodeHierarchy` give at any time later. -/
theorem C84_proto_is_new {P c W fuel path f r'} (hr : Reachable P c)
    (h : proto W fuel path c.reg = (.ok (.ok f), r')) :
    (∀ n ∈ c.pool, ¬ GoEq f n) ∧
    ∀ ops n g r2, n ∈ ((c.step (.proto W fuel path)).exec ops).pool →
      FileRoute n ((c.step (.proto W fuel path)).exec ops).reg g r2 → ¬ GoEq f g := by
  obtain ⟨p, rfl, h1, h2⟩ := proto_address h
  constructor
  · intro n hn he
    cases n with
    | wrapped b k q =>
      have := pool_used hr hn
      have := he.2
      omega
    | _ => exact he
  · intro ops n g r2 hn hg he
    have hreach : Reachable AnyTree ((c.step (.proto W fuel path)).exec ops) :=
      reachable_exec (reach_any_op hr) ops fun op _ => op_any op
    cases g with
    | wrapped b k q =>
      obtain ⟨rfl, hb⟩ := he
      have hloose : Loose c.reg.next ((c.step (.proto W fuel path)).exec ops).reg := by
        apply exec_keeps (keep_loose _) ops _ fun op _ => op_any op
        rw [step_proto h]
        refine ⟨by simp only [h2]; omega, fun v k q e => ?_⟩
        simp only [h1] at e
        obtain ⟨o, hi, _⟩ := reachable_inv hr
        obtain ⟨a', k', q', _, e2, _, e4⟩ := hi.cacheSome _ _ e
        cases e2
        have := hi.fresh _ _ e4
        omega
      obtain ⟨o, hi, hgood⟩ := reachable_inv hreach
      have hc := fileRoute_cached hi (hgood _ hn) hg rfl
      subst hb
      have hx : CacheExt ((c.step (.proto W fuel path)).exec ops).reg r2 := by
        cases hg with
        | file h => have := (RO.nodeFile n).ext ((c.step (.proto W fuel path)).exec ops).reg
                    rw [h] at this; exact this
        | parent h => have := (RO.nodeParent n).ext ((c.step (.proto W fuel path)).exec ops).reg
                      rw [h] at this; exact this
        | @hierarchy fu _ _ _ h hm =>
          have := (RO.nodeHierarchy fu (some n)).ext ((c.step (.proto W fuel path)).exec ops).reg
          rw [h] at this; exact this
      exact ((keep_loose _).query _ _ hx hloose).2 _ _ _ hc
    | _ => exact he

/-- C84 for two calls of `Proto`: however many calls are in between, and also for the same path, the two handles are
    different nodes. -/
theorem C84_two_protos {P c W fuel path f r' W' fuel' path' g r2} (ops : List Op) (hr : Reachable P c)
    (h : proto W fuel path c.reg = (.ok (.ok f), r'))
    (h' : proto W' fuel' path' ((c.step (.proto W fuel path)).exec ops).reg = (.ok (.ok g), r2)) : ¬ GoEq f g := by
  have hreach : Reachable AnyTree ((c.step (.proto W fuel path)).exec ops) :=
    reachable_exec (reach_any_op hr) ops fun op _ => op_any op
  have hf : f ∈ ((c.step (.proto W fuel path)).exec ops).pool := by
    obtain ⟨l, hl⟩ := exec_pool ops (c.step (.proto W fuel path))
    rw [hl, step_proto h]
    simp
  intro he
  refine (C84_proto_is_new hreach h').1 f hf ?_
  obtain ⟨p, rfl, _⟩ := proto_address h
  obtain ⟨q, rfl, _⟩ := proto_address h'
  exact ⟨rfl, he.2.symm⟩

/-- The hypotheses are met: `Proto` of a loaded file, then `NodeFile` of a message. -/
example : ∃ f r' g r2, Reachable AnyTree Ex.c2 ∧ proto Ex.W 5 Ex.pa Ex.c2.reg = (.ok (.ok f), r') ∧
    Node.wrapped 1 .message ⟨1, [4]⟩ ∈ ((Ex.c2.step (.proto Ex.W 5 Ex.pa)).exec [.proto Ex.W 5 Ex.pb]).pool ∧
    FileRoute (.wrapped 1 .message ⟨1, [4]⟩) ((Ex.c2.step (.proto Ex.W 5 Ex.pa)).exec [.proto Ex.W 5 Ex.pb]).reg g r2 ∧
    f = .wrapped 14 .file ⟨1, []⟩ ∧ g = .wrapped 16 .file ⟨1, []⟩ :=
  ⟨.wrapped 14 .file ⟨1, []⟩, _, .wrapped 16 .file ⟨1, []⟩, _, Ex.c2_reach, rfl,
    Ex.hasA_spec (i := 1) (by decide +kernel), .file rfl, rfl, rfl⟩

end Protoast.Props
