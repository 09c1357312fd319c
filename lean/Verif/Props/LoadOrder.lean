import Verif.Proof.Rename5
import Verif.Props.Names
/-
  C85: the order in which the files were loaded, and the entry points they were loaded through, cannot be
  observed.
-/
namespace Protoast.Props

/-- The conclusion of C85 for two clients: they hold the same handles, every call answers the same, and
    option values print the same. -/
structure Indistinguishable (c1 c2 : Client) : Prop where
  handles : SameHandles c1 c2
  answers : ∀ op : Op, (op.answer c1.pool c1.reg).1 = (op.answer c2.pool c2.reg).1
  texts : ∀ (F : FloatOps) (i : Nat) (v1 v2 : OptVal), c1.pool[i]? = some (.value v1) → c2.pool[i]? = some (.value v2) →
    v1.toStr F c1.reg = v2.toStr F c2.reg

theorem Indistinguishable.symm {c1 c2} (h : Indistinguishable c1 c2) : Indistinguishable c2 c1 :=
  ⟨h.handles.symm, fun op => (h.answers op).symm, fun F i v1 v2 a b => (h.texts F i v2 v1 b a).symm⟩

theorem simC_indist {s : Ren} {o : Ghost} {c1 c2} (h : SimC s c1 c2) (hg : GoodL o c1.reg c1.pool) :
    Indistinguishable c1 c2 := by
  refine ⟨h.same hg, ?_, ?_⟩
  · intro op
    have h0 := (opAnswer_eqv h.pool op _ _ h.reg).1
    revert h0
    cases (op.answer c1.pool c1.reg).1 <;> cases (op.answer c2.pool c2.reg).1 <;> simp only [ResRel]
      <;> first | exact False.elim | (rintro rfl; rfl) | exact fun _ => rfl | simp
  · intro F i v1 v2 h1 h2
    rw [h.pool.1, List.getElem?_map, h1] at h2
    have h2 := Option.some.inj h2
    simp only [Ren.node, Node.value.injEq] at h2
    rw [← h2]
    exact (toStr_eqv F h.reg v1).symm

theorem loadOrder_le {r1 r2} (h1 : OnlyLoads WFFile r1) (h2 : OnlyLoads WFFile r2) (hs : SameFiles r1 r2)
    (hu : UniqueNames r1) (hn : r1.next ≤ r2.next) (ops : List Op) :
    Indistinguishable (Client.exec ⟨r1, []⟩ ops) (Client.exec ⟨r2, []⟩ ops) := by
  have hsim := place_sim h1.loaded h2.loaded hs hu hn
  have hc : SimC (placeRen h1.loaded h2.loaded hs) ⟨r1, []⟩ ⟨r2, []⟩ :=
    ⟨hsim, rfl, fun n hn => by cases hn⟩
  obtain ⟨o, hi⟩ := h1.loaded.inv
  obtain ⟨o', -, -, hg⟩ := exec_inv ops (c := ⟨r1, []⟩) hi (by intro n hn; cases hn)
  exact simC_indist (hc.exec ops) hg

/-- C85: two registries in which the same files were loaded, in whatever order and through whatever entry
    points, are indistinguishable for every program of calls run on them afterwards. -/
theorem C85_load_order_unobservable {r1 r2} (h1 : OnlyLoads WFFile r1) (h2 : OnlyLoads WFFile r2)
    (hs : SameFiles r1 r2) (hu : UniqueNames r1) (ops : List Op) :
    Indistinguishable (Client.exec ⟨r1, []⟩ ops) (Client.exec ⟨r2, []⟩ ops) := by
  by_cases hn : r1.next ≤ r2.next
  · exact loadOrder_le h1 h2 hs hu hn ops
  · exact (loadOrder_le h2 h1 hs.symm (same_declared h1.loaded h2.loaded hs hu) (by omega) ops).symm

/-! ### An example -/

theorem firstWay_loads : OnlyLoads WFFile Ex.c1.reg :=
  ⟨Ex.W, 5, Ex.r0, [.proto Ex.W 5 Ex.pa], Ex.W_wf, Ex.W_ok, (by
    intro op hop
    simp only [List.mem_cons, List.not_mem_nil, or_false] at hop
    subst hop
    exact ⟨Ex.W_wf, _, _, _, rfl⟩), Ex.loadsB_spec (by decide +kernel), rfl⟩

theorem otherWay_loads : OnlyLoads WFFile otherClient.reg :=
  ⟨Ex.W, 5, Ex.r0, otherOps, Ex.W_wf, Ex.W_ok, (by
    intro op hop
    simp only [otherOps, List.mem_cons, List.not_mem_nil, or_false] at hop
    rcases hop with rfl | rfl <;> exact ⟨Ex.W_wf, _, _, _, rfl⟩), Ex.loadsB_spec (by decide +kernel), rfl⟩

theorem sameFiles_ways : SameFiles Ex.c1.reg otherClient.reg := by
  intro path elems
  have := sameFiles_ex path elems
  have h1 : Ex.c1.reg.heap = Ex.c2.reg.heap := by rfl
  obtain ⟨o1, hi1⟩ := firstWay_loads.loaded.inv
  obtain ⟨o2, hi2, -⟩ := reachable_inv Ex.c2_reach
  rw [← this]
  constructor
  · rintro ⟨i, f, hp, hf, he⟩
    obtain ⟨g, hg, rfl⟩ := hi1.protosHeap _ _ hp
    rw [hg] at hf; cases hf
    rw [h1] at hg
    exact ⟨i, _, hi2.heapProtos _ _ hg, hg, he⟩
  · rintro ⟨i, f, hp, hf, he⟩
    obtain ⟨g, hg, rfl⟩ := hi2.protosHeap _ _ hp
    rw [hg] at hf; cases hf
    rw [← h1] at hg
    exact ⟨i, _, hi1.heapProtos _ _ hg, hg, he⟩

/-- A program to tell the two registries apart, in vain: it gets a message, its file and the message
    again. -/
def probe : List Op := [.byName b!".p.q.M", .query 0 (.plain .file), .byName b!".p.q.M"]

/-- The message of the example has different places in the two registries, and the addresses of the two
    handles differ, but these differences are all. -/
example : OnlyLoads WFFile Ex.c1.reg ∧ OnlyLoads WFFile otherClient.reg ∧ SameFiles Ex.c1.reg otherClient.reg ∧
    UniqueNames Ex.c1.reg ∧
    ((Client.exec ⟨Ex.c1.reg, []⟩ probe).pool.map Node.decl =
      [some ⟨1, [4]⟩, some ⟨1, []⟩, some ⟨1, [4]⟩]) ∧
    ((Client.exec ⟨otherClient.reg, []⟩ probe).pool.map Node.decl =
      [some ⟨2, [4]⟩, some ⟨2, []⟩, some ⟨2, [4]⟩]) ∧
    Indistinguishable (Client.exec ⟨Ex.c1.reg, []⟩ probe) (Client.exec ⟨otherClient.reg, []⟩ probe) :=
  have hu : UniqueNames Ex.c1.reg := Ex.uniqueB_spec (by decide +kernel)
  ⟨firstWay_loads, otherWay_loads, sameFiles_ways, hu, by decide +kernel, by decide +kernel,
    C85_load_order_unobservable firstWay_loads otherWay_loads sameFiles_ways hu probe⟩

end Protoast.Props
