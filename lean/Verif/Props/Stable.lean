import Verif.Proof.Stable
import Verif.Props.Identity
/-
  C19: handles stay valid.
-/
namespace Protoast.Props
open Protoast

/-- C19, attributes: everything that can be read off a handle (index, description, comment, type name, name,
    package, number, ...) stays what it is, whatever is loaded or queried afterwards; also whether reading
    it panics. -/
theorem C19_attributes {P c n} (hr : Reachable P c) (hn : n ∈ c.pool) (a : Attr) (ops : List Op) :
    (a.read n (c.exec ops).reg).1 = (a.read n c.reg).1 := by
  obtain ⟨o, hi, hg⟩ := reachable_inv hr
  exact (Fixed.attr a (hg n hn)).1 _ (exec_later ops c)

/-- C19, iteration: the i-th element of an iteration, once seen, is the identical node in every later
    iteration; a seen end of the iteration stays the end. -/
theorem C19_iteration {P c n x r1} (hr : Reachable P c) (hn : n ∈ c.pool) (q : IterQ)
    (hq : q.structural = true) (i : Nat) (h : q.run n i c.reg = (.ok x, r1)) (pool : List Node)
    (ops : List Op) : (q.run n i (Client.exec ⟨r1, pool⟩ ops).reg).1 = .ok x := by
  obtain ⟨o, hi, hg⟩ := reachable_inv hr
  exact Repeats.iterRun q hq (hg n hn) i x r1 h _ (exec_later ops ⟨r1, pool⟩)

/-- C19, lookup by name inside a file, message, enum, oneof or service. -/
theorem C19_lookup {P c n x r1} (hr : Reachable P c) (hn : n ∈ c.pool) (q : NamedQ)
    (hq : q.structural = true) (s : Str) (h : q.run n s c.reg = (.ok x, r1)) (pool : List Node)
    (ops : List Op) : (q.run n s (Client.exec ⟨r1, pool⟩ ops).reg).1 = .ok x := by
  obtain ⟨o, hi, hg⟩ := reachable_inv hr
  exact Repeats.namedRun q hq (hg n hn) s x r1 h _ (exec_later ops ⟨r1, pool⟩)

/-- C19, parents. -/
theorem C19_parent {P c n x r1} (hr : Reachable P c) (hn : n ∈ c.pool)
    (h : nodeParent n c.reg = (.ok x, r1)) (pool : List Node) (ops : List Op) :
    (nodeParent n (Client.exec ⟨r1, pool⟩ ops).reg).1 = .ok x := by
  obtain ⟨o, hi, hg⟩ := reachable_inv hr
  exact Repeats.nodeParent n (hg n hn) x r1 h _ (exec_later ops ⟨r1, pool⟩)

/-- C19, hierarchies. -/
theorem C19_hierarchy {P c n fuel x r1} (hr : Reachable P c) (hn : n ∈ c.pool)
    (h : nodeHierarchy fuel (some n) c.reg = (.ok x, r1)) (pool : List Node) (ops : List Op) :
    (nodeHierarchy fuel (some n) (Client.exec ⟨r1, pool⟩ ops).reg).1 = .ok x := by
  obtain ⟨o, hi, hg⟩ := reachable_inv hr
  exact Repeats.nodeHierarchy fuel hi n (hg n hn) x r1 h _ (exec_later ops ⟨r1, pool⟩)

/-- C19, files. -/
theorem C19_file {P c n f r1} (hr : Reachable P c) (hn : n ∈ c.pool)
    (h : nodeFile n c.reg = (.ok (some f), r1)) (pool : List Node) (ops : List Op) :
    (nodeFile n (Client.exec ⟨r1, pool⟩ ops).reg).1 = .ok (some f) := by
  obtain ⟨o, hi, hg⟩ := reachable_inv hr
  exact nodeFile_repeats (hg n hn) h (exec_later ops ⟨r1, pool⟩)

/-- C19, positions. -/
theorem C19_position {P c n fuel x r1} (hr : Reachable P c) (hn : n ∈ c.pool)
    (h : pos fuel n c.reg = (.ok x, r1)) (pool : List Node) (ops : List Op) :
    (pos fuel n (Client.exec ⟨r1, pool⟩ ops).reg).1 = .ok x := by
  obtain ⟨o, hi, hg⟩ := reachable_inv hr
  exact Repeats.pos hi (hg n hn) x r1 h _ (exec_later ops ⟨r1, pool⟩)

/-- C19, names: as long as fully qualified names stay unique, a name that denotes a declaration keeps denoting
    it. -/
theorem C19_names {c ops name p} (hr : Reachable WFFile c) (hs : ∀ op ∈ ops, Op.Sat WFFile op)
    (hu : UniqueNames (c.exec ops).reg) (h : c.reg.registry name = some p) :
    (c.exec ops).reg.registry name = some p := registry_stable hr hs hu h

/-- C19 and C12 together: the node `NodeByFullName` returned for a name is the identical node it returns for
    that name after any further loads and queries. -/
theorem C19_byName {c ops name a k p r1} (hr : Reachable WFFile c) (hs : ∀ op ∈ ops, Op.Sat WFFile op)
    (h : nodeByFullName name c.reg = (.ok (some (.wrapped a k p)), r1)) (pool : List Node)
    (hw : ⟨r1, pool⟩ = c.exec [.byName name])
    (hu : UniqueNames (Client.exec ⟨r1, pool⟩ ops).reg) :
    (nodeByFullName name (Client.exec ⟨r1, pool⟩ ops).reg).1 = .ok (some (.wrapped a k p)) := by
  obtain ⟨o, hi, -⟩ := reachable_inv hr
  have hp : c.reg.registry name = some p ∧ r1.cache (.at p) = some (some (.wrapped a k p)) := by
    unfold nodeByFullName at h
    simp only [M.bind_apply, M.get_apply] at h
    cases hreg : c.reg.registry name with
    | none =>
      rw [hreg] at h
      simp only at h
      have hc := wrap_ok_cache h
      obtain ⟨o', _, hi', _⟩ := wrap_tri hi (v := .nil) (by intro p hp; cases hp)
      rw [h] at hi'
      obtain ⟨a', k', p', e, _⟩ := hi'.cacheSome _ _ hc
      cases e
    | some q =>
      rw [hreg] at h
      simp only at h
      have hc := wrap_ok_cache h
      obtain ⟨e, _, he, _⟩ := hi.regPtr _ _ hreg
      obtain ⟨o', _, hi', _⟩ := wrap_tri hi (v := .at q) (by intro p hp; cases hp; exact (hi.regRooted _ _ hreg).under)
      rw [h] at hi'
      obtain ⟨a', k', p', e1, e2, _⟩ := hi'.cacheSome _ _ hc
      cases e1; cases e2
      exact ⟨rfl, hc⟩
  have hr1 : Reachable WFFile ⟨r1, pool⟩ := by
    rw [hw]
    exact reachable_exec hr _ (by intro op hop; simp only [List.mem_singleton] at hop; subst hop; trivial)
  have hreg1 : r1.registry name = some p := by
    have := ((RO.nodeByFullName name).ext c.reg).registry
    rw [h] at this
    simp only at this
    rw [this]; exact hp.1
  have hreg2 := registry_stable hr1 hs hu hreg1
  have hc2 := (exec_later ops ⟨r1, pool⟩).cache _ _ hp.2
  unfold nodeByFullName
  simp only [M.bind_apply, M.get_apply, hreg2]
  unfold wrap
  rw [hc2]

/-- The example: the handles of the client `Ex.c2` before and after loading `b.proto`. -/
example : Reachable WFFile Ex.c2 ∧ (∃ a, Node.wrapped a .message ⟨1, [4]⟩ ∈ Ex.c2.pool) ∧
    UniqueNames (Ex.c2.exec [.proto Ex.W 5 Ex.pb]).reg ∧
    (∃ x r1, IterQ.run .messageFields (.wrapped 1 .message ⟨1, [4]⟩) 2 Ex.c2.reg = (.ok (some x), r1)) ∧
    (∃ x r1, nodeHierarchy 5 (some (.wrapped 12 .oneofBranch ⟨1, [0, 3, 4]⟩)) Ex.c2.reg = (.ok x, r1) ∧
      x.length = 4) ∧
    (∃ x r1, pos 5 (.wrapped 12 .oneofBranch ⟨1, [0, 3, 4]⟩) Ex.c2.reg = (.ok x, r1) ∧ x.line = 10) ∧
    (∃ n r1, nodeByFullName b!".p.q.M.left" Ex.c2.reg = (.ok (some n), r1)) :=
  ⟨Ex.c2_wf, Ex.hasW_spec (i := 1) (by decide +kernel), Ex.uniqueB_spec (by decide +kernel), ⟨_, _, rfl⟩,
    ⟨_, _, rfl, rfl⟩, ⟨_, _, rfl, rfl⟩, ⟨_, _, rfl⟩⟩

end Protoast.Props
