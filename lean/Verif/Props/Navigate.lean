import Verif.Spec.Navigate
import Verif.Props.Types
import Verif.Props.Iter
/-
  C83: every declaration can be reached by walking down from its file.
-/
namespace Protoast.Props
open Protoast

/-- The `m`-th element of an iterator over declarations. -/
theorem nth_steps {pick : Ptr → Kind → Option (M Node)} {sel : Kind → Option WKind} (hw : Wraps pick sel) :
    ∀ (l : List (Ptr × Elem)) {x k}, x ∈ l → sel x.2.kind = some k →
    ∃ (m : Nat) (s : M Node), (stepsOf pick l)[m]? = some s ∧ StepOK k x.1 s := by
  intro l
  induction l with
  | nil => intro x k hx; simp at hx
  | cons y l ih =>
    intro x k hx hk
    have hs := hw.2 y.1 y.2.kind
    rcases List.mem_cons.mp hx with rfl | hx
    · rw [hk] at hs
      obtain ⟨m, hm, hok⟩ := hs
      exact ⟨0, m, by rw [stepsOf_some hm]; rfl, hok⟩
    · obtain ⟨m, s, h1, h2⟩ := ih hx hk
      cases hy : sel y.2.kind with
      | none =>
        rw [hy] at hs
        exact ⟨m, s, by rw [stepsOf_none hs]; exact h1, h2⟩
      | some k' =>
        rw [hy] at hs
        obtain ⟨t, ht, _⟩ := hs
        exact ⟨m + 1, s, by rw [stepsOf_some ht]; exact h1, h2⟩

theorem mem_kids {r : Reg} {p : Ptr} {j : Nat} {e : Elem} (he : r.elem ⟨p.file, j :: p.path⟩ = some e) :
    (⟨p.file, j :: p.path⟩, e) ∈ r.kids p := by
  have h : ((r.children p).getD [])[j]? = some e := by
    unfold Reg.elem ProtoFile.elemAt at he
    unfold Reg.children
    cases h1 : r.heap[p.file]? with
    | none => rw [h1] at he; cases he
    | some f =>
      rw [h1] at he
      simp only [Option.bind_some] at he ⊢
      cases h2 : f.childrenAt p.path with
      | none => rw [h2] at he; cases he
      | some es => rw [h2] at he; simpa using he
  rw [kids_zipIdx, List.mem_map]
  exact ⟨(e, j), List.mem_zipIdx_iff_getElem?.mpr h, rfl⟩

theorem declSeq_run {q n seq p sel} (h : IterQ.declSeq q n = some (seq, p, sel)) (m : Nat) : q.run n m = seq.nth m := by
  unfold IterQ.declSeq at h
  split at h <;> cases h <;> rfl

/-- One step down with an iterator. -/
theorem walk_step {P c n q seq p sel j kd k} (hr : Reachable P c) (hn : n ∈ c.pool)
    (hq : IterQ.declSeq q n = some (seq, p, sel)) (hk : c.reg.kind ⟨p.file, j :: p.path⟩ = some kd)
    (hs : sel kd = some k) :
    ∃ h m b, Node.wrapped b k ⟨p.file, j :: p.path⟩ ∈ (c.step (.query h (.iter q m))).pool ∧
      (c.step (.query h (.iter q m))).reg.heap = c.reg.heap := by
  obtain ⟨o, hi, hg⟩ := reachable_inv hr
  have hroot : Rooted c.reg p := by
    have hgn := hg n hn
    unfold IterQ.declSeq at hq
    split at hq <;> cases hq
    all_goals first
      | exact GoodW.rooted hgn
      | exact hgn.2.2
  have hrun := declSeq_run hq
  obtain ⟨pick, rfl, hw⟩ := shape_declSeq hq
  obtain ⟨e, he, rfl⟩ : ∃ e, c.reg.elem ⟨p.file, j :: p.path⟩ = some e ∧ e.kind = kd := by
    unfold Reg.kind at hk
    rw [Option.map_eq_some_iff] at hk
    exact hk
  have hmem := mem_kids he
  obtain ⟨m, s, h1, h2⟩ := nth_steps hw _ hmem hs
  obtain ⟨hel, hu⟩ := present_kids hroot _ hmem
  obtain ⟨b, o', r', h3, _⟩ := h2 o c.reg hi (target_of_elem hel (hw.1 _ _ hs)) hu
  obtain ⟨h, hh⟩ := List.getElem?_of_mem hn
  have hx : (q.run n m) c.reg = (.ok (some (.wrapped b k ⟨p.file, j :: p.path⟩)), r') := by
    rw [hrun]
    simp only [Seq.nth, M.bind_apply, overKids_apply]
    rw [show (c.reg.kids p).filterMap (fun x => pick x.1 x.2.kind) = stepsOf pick (c.reg.kids p) from rfl, h1]
    simp only [M.bind_apply, h3, M.pure_apply]
  have hro : r'.heap = c.reg.heap := by
    have := (RO.queryRun (.iter q m) n).ext c.reg
    simp only [Query.run, M.bind_apply, hx, M.pure_apply] at this
    exact this.heap
  refine ⟨h, m, b, ?_⟩
  simp only [Client.step, Op.run, hh, Query.run, M.bind_apply, hx, M.pure_apply, Option.toList]
  exact ⟨by simp, hro⟩

/-- The step from a oneof field to its oneof. -/
theorem walk_oneof {P c a p n} (hr : Reachable P c) (hn : Node.wrapped a .messageField p ∈ c.pool)
    (hk : c.reg.kind p = some (.oneof n)) :
    ∃ h b, Node.oneof b p ∈ (c.step (.query h (.plain .fieldType))).pool ∧
      (c.step (.query h (.plain .fieldType))).reg.heap = c.reg.heap := by
  obtain ⟨t, r', ht⟩ : ∃ t r', MessageField.type a p c.reg = (.ok t, r') := by
    unfold MessageField.type
    split
    · exact ⟨_, _, rfl⟩
    · have : ∃ t r', fieldTypeBody p c.reg = (.ok t, r') := by
        unfold fieldTypeBody
        simp only [M.bind_apply, M.get_apply, hk, M.alloc_apply, M.pure_apply]
        exact ⟨_, _, rfl⟩
      obtain ⟨t, r', h⟩ := this
      rw [h]
      exact ⟨_, _, rfl⟩
  obtain ⟨b, rfl⟩ := (C39_other_fields hr hn ht).1 n hk
  have hro : r'.heap = c.reg.heap := by
    have := ((RO.fieldType a p).ext c.reg).heap
    rw [ht] at this
    exact this
  obtain ⟨h, hh⟩ := List.getElem?_of_mem hn
  refine ⟨h, b, ?_⟩
  simp only [Client.step, Op.run, hh, Query.run, PlainQ.run, M.bind_apply, ht, M.pure_apply, Option.toList]
  exact ⟨by simp, hro⟩

/-- A walk of at most `len` calls ends with the handle `n`. -/
def Walk (c : Client) (len : Nat) (n : Node → Prop) : Prop :=
  ∃ ops, (∀ op ∈ ops, WalkOp op) ∧ ops.length ≤ len ∧ (c.exec ops).reg.heap = c.reg.heap ∧ ∃ x, n x ∧ x ∈ (c.exec ops).pool

theorem Walk.reach {P c ops} (hr : Reachable P c) (h : ∀ op ∈ ops, WalkOp op) : Reachable P (c.exec ops) :=
  reachable_exec hr ops fun op hop => by cases h op hop <;> trivial

theorem exec_snoc (c : Client) (ops : List Op) (op : Op) : c.exec (ops ++ [op]) = (c.exec ops).step op := by
  rw [exec_append]; rfl

theorem walk_all {ops : List Op} {op : Op} (h : ∀ op ∈ ops, WalkOp op) (h' : WalkOp op) : ∀ o ∈ ops ++ [op], WalkOp o := by
  intro o ho
  rcases List.mem_append.mp ho with ho | ho
  · exact h o ho
  · rw [List.mem_singleton] at ho; rw [ho]; exact h'

theorem kind_of_heap {r r' : Reg} (h : r'.heap = r.heap) (p : Ptr) : r'.kind p = r.kind p := by
  simp only [Reg.kind, Reg.elem, h]

/-- Walk on with an iterator. -/
theorem Walk.down {P c len N p j kd k} (q : IterQ) {sel : Kind → Option WKind} (hr : Reachable P c) (hw : Walk c len N)
    (hq : ∀ n, N n → ∃ seq, IterQ.declSeq q n = some (seq, p, sel))
    (hmem : q ∈ [IterQ.fileImports, .fileMessages, .fileTypes, .fileServices, .messageFields, .messageMessages,
      .messageTypes, .enumValues, .oneofBranches, .serviceMethods])
    (hk : c.reg.kind ⟨p.file, j :: p.path⟩ = some kd) (hs : sel kd = some k) :
    Walk c (len + 1) fun n => ∃ b, n = .wrapped b k ⟨p.file, j :: p.path⟩ := by
  obtain ⟨ops, h1, h2, h3, x, hx, hm⟩ := hw
  obtain ⟨seq, hq⟩ := hq x hx
  obtain ⟨h, m, b, g1, g2⟩ := walk_step (Walk.reach hr h1) hm hq (by rw [kind_of_heap h3]; exact hk) hs
  refine ⟨ops ++ [.query h (.iter q m)], walk_all h1 (.iter hmem), by simp; omega, ?_, _, ⟨b, rfl⟩, ?_⟩
  · rw [exec_snoc, g2, h3]
  · rw [exec_snoc]; exact g1

/-- Walk on from a oneof field to the oneof. -/
theorem Walk.toOneof {P c len p n} (hr : Reachable P c) (hw : Walk c len fun n => ∃ b, n = .wrapped b .messageField p)
    (hk : c.reg.kind p = some (.oneof n)) : Walk c (len + 1) fun n => ∃ b, n = .oneof b p := by
  obtain ⟨ops, h1, h2, h3, x, ⟨b, rfl⟩, hm⟩ := hw
  obtain ⟨h, b, g1, g2⟩ := walk_oneof (Walk.reach hr h1) hm (by rw [kind_of_heap h3]; exact hk)
  refine ⟨ops ++ [.query h (.plain .fieldType)], walk_all h1 .type, by simp; omega, ?_, _, ⟨b, rfl⟩, ?_⟩
  · rw [exec_snoc, g2, h3]
  · rw [exec_snoc]; exact g1

theorem Walk.weaken {c l l' N} (h : Walk c l N) (hl : l ≤ l') : Walk c l' N := by
  obtain ⟨ops, h1, h2, h3⟩ := h
  exact ⟨ops, h1, Nat.le_trans h2 hl, h3⟩

theorem walk_visible {P c a i p} (hr : Reachable P c) (hn : Node.wrapped a .file ⟨i, []⟩ ∈ c.pool)
    (hv : Visible c.reg p) (hp : p.file = i) :
    ∃ kd k, c.reg.kind p = some kd ∧ kd.handleKind = some k ∧
      Walk c (2 * p.path.length) fun n => ∃ b, n = .wrapped b k p := by
  induction hv with
  | @top i' j k hk ho =>
    simp only at hp
    subst hp
    have start : Walk c 0 fun n => n = .wrapped a .file ⟨i', []⟩ := ⟨[], by simp, by simp, rfl, _, rfl, hn⟩
    unfold Offered at ho
    split at ho <;> try cases ho
    all_goals try (rename_i hx; cases hx)
    · exact ⟨_, _, hk, rfl, (start.down (p := ⟨i', []⟩) .fileImports hr (sel := importSel)
        (by rintro n rfl; exact ⟨_, rfl⟩) (by simp) hk rfl).weaken (by simp)⟩
    · exact ⟨_, _, hk, rfl, (start.down (p := ⟨i', []⟩) .fileMessages hr (sel := messageSel)
        (by rintro n rfl; exact ⟨_, rfl⟩) (by simp) hk rfl).weaken (by simp)⟩
    · exact ⟨_, _, hk, rfl, (start.down (p := ⟨i', []⟩) .fileTypes hr (sel := typeSel)
        (by rintro n rfl; exact ⟨_, rfl⟩) (by simp) hk rfl).weaken (by simp)⟩
    · exact ⟨_, _, hk, rfl, (start.down (p := ⟨i', []⟩) .fileServices hr (sel := serviceSel)
        (by rintro n rfl; exact ⟨_, rfl⟩) (by simp) hk rfl).weaken (by simp)⟩
  | @inside i' j path k k' hv hk hk' ho ih =>
    simp only at hp
    subst hp
    obtain ⟨kd, w, e1, e2, e3⟩ := ih rfl
    rw [hk] at e1
    cases e1
    have hlen : 2 * path.length + 2 = 2 * (j :: path).length := by simp; omega
    unfold Offered at ho
    split at ho <;> try cases ho
    all_goals rename_i hx
    all_goals cases hx
    all_goals cases e2
    · exact ⟨_, _, hk', rfl, (e3.down (p := ⟨i', path⟩) .messageMessages hr (sel := messageSel)
        (by rintro n ⟨b, rfl⟩; exact ⟨_, rfl⟩) (by simp) hk' rfl).weaken (by simp; omega)⟩
    · exact ⟨_, _, hk', rfl, (e3.down (p := ⟨i', path⟩) .messageTypes hr (sel := typeSel)
        (by rintro n ⟨b, rfl⟩; exact ⟨_, rfl⟩) (by simp) hk' rfl).weaken (by simp; omega)⟩
    · exact ⟨_, _, hk', rfl, (e3.down (p := ⟨i', path⟩) .messageFields hr (sel := fieldSel)
        (by rintro n ⟨b, rfl⟩; exact ⟨_, rfl⟩) (by simp) hk' rfl).weaken (by simp; omega)⟩
    · exact ⟨_, _, hk', rfl, (e3.down (p := ⟨i', path⟩) .messageFields hr (sel := fieldSel)
        (by rintro n ⟨b, rfl⟩; exact ⟨_, rfl⟩) (by simp) hk' rfl).weaken (by simp; omega)⟩
    · exact ⟨_, _, hk', rfl, (e3.down (p := ⟨i', path⟩) .messageFields hr (sel := fieldSel)
        (by rintro n ⟨b, rfl⟩; exact ⟨_, rfl⟩) (by simp) hk' rfl).weaken (by simp; omega)⟩
    · exact ⟨_, _, hk', rfl, ((e3.toOneof hr hk).down (p := ⟨i', path⟩) .oneofBranches hr (sel := branchSel)
        (by rintro n ⟨b, rfl⟩; exact ⟨_, rfl⟩) (by simp) hk' rfl).weaken (by simp; omega)⟩
    · exact ⟨_, _, hk', rfl, (e3.down (p := ⟨i', path⟩) .enumValues hr (sel := valueSel)
        (by rintro n ⟨b, rfl⟩; exact ⟨_, rfl⟩) (by simp) hk' rfl).weaken (by simp; omega)⟩
    · exact ⟨_, _, hk', rfl, (e3.down (p := ⟨i', path⟩) .serviceMethods hr (sel := methodSel)
        (by rintro n ⟨b, rfl⟩; exact ⟨_, rfl⟩) (by simp) hk' rfl).weaken (by simp; omega)⟩

/-- C83: every declaration can be reached by walking down from its file. In any reachable state with a handle for a
    file, for every declaration of the file that the iterators offer, at any depth, there is a sequence of at most two
    calls per level, all of them iterator steps and `Type` calls, after which the client holds a handle of the right
    kind for that very declaration. None of the calls changes a parsed tree. -/
theorem C83_reach {P c a i p} (hr : Reachable P c) (hn : Node.wrapped a .file ⟨i, []⟩ ∈ c.pool)
    (hp : p.file = i) (hv : Visible c.reg p) :
    ∃ ops, (∀ op ∈ ops, WalkOp op) ∧ ops.length ≤ 2 * p.path.length ∧ (c.exec ops).reg.heap = c.reg.heap ∧
      ∃ b kd k, Node.wrapped b k p ∈ (c.exec ops).pool ∧ c.reg.kind p = some kd ∧ kd.handleKind = some k := by
  obtain ⟨kd, k, h1, h2, ops, g1, g2, g3, x, ⟨b, rfl⟩, g4⟩ := walk_visible hr hn hv hp
  exact ⟨ops, g1, g2, g3, b, kd, k, g4, h1, h2⟩

/-- The hypotheses are met: a client with nothing but a file handle, and a branch of a oneof of a message. -/
example : Reachable AnyTree Ex.c1 ∧ (∃ a, Node.wrapped a .file ⟨1, []⟩ ∈ Ex.c1.pool) ∧ Ex.c1.pool.length = 1 ∧
    Visible Ex.c1.reg ⟨1, [0, 3, 4]⟩ := by
  refine ⟨Ex.c1_reach, Ex.hasW_spec (i := 0) (by decide +kernel), by decide +kernel, ?_⟩
  exact .inside (.inside (.top (by rfl) (by rfl)) (by rfl) (by rfl) (by rfl)) (by rfl) (by rfl) (by rfl)

/-- Extend blocks, groups and what is inside an extend block are not offered. -/
example (r : Reg) : ¬ Visible r ⟨2, [0, 1]⟩ ∨ r.kind ⟨2, [1]⟩ ≠ some (.message b!"google.protobuf.FieldOptions" true) := by
  by_cases h : r.kind ⟨2, [1]⟩ = some (.message b!"google.protobuf.FieldOptions" true)
  · left
    intro hv
    cases hv with
    | inside hv hk _ _ =>
      cases hv with
      | top hk ho => rw [h] at hk; cases hk; cases ho
      | inside hv => cases hv
  · exact .inr h

end Protoast.Props
