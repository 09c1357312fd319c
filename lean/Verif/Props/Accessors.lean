import Verif.Small.Accessor
import Verif.Props.Locked
/-
  C99: accessors may be called at any time, whatever other goroutines do.
-/
namespace Protoast.Props
open Protoast.Small

variable {α β : Type}

/-- The registry has the given parsed files, and perhaps more. -/
def Holds (H : List ProtoFile) (r : Reg) : Prop := ∃ l, r.heap = H ++ l

/-- The program only reads, and comes to `res` in whatever registry that holds the files. -/
def EndsWith (H : List ProtoFile) (res : Res α) : P α → Prop
  | .ret x => res = .ok x
  | .panic e => res = .panic e
  | .timeout => res = .timeout
  | .read k => ∀ r, Holds H r → EndsWith H res (k r)
  | .alloc _ => False
  | .parse _ _ => False
  | .write _ _ => False

/-- The program only reads, and its result depends on the files alone. -/
def Fixed (H : List ProtoFile) (p : P α) : Prop := ∃ res, EndsWith H res p

theorem settles_alone {H : List ProtoFile} {res : Res α} {p : P α} : EndsWith H res p → ∀ {r}, Holds H r →
    p.alone r = (res, r) := by
  induction p with
  | ret x => intro h r _; cases h; rfl
  | panic e => intro h r _; cases h; rfl
  | timeout => intro h r _; cases h; rfl
  | read k ih => intro h r hr; exact ih r (h r hr) hr
  | alloc k => intro h; exact h.elim
  | parse f k => intro h; exact h.elim
  | write w k => intro h; exact h.elim

theorem fixed_pure {H : List ProtoFile} (x : α) : Fixed H (pure x : P α) := ⟨.ok x, rfl⟩

theorem fixed_panic {H : List ProtoFile} (e : Panic) : Fixed H (P.panic e : P α) := ⟨.panic e, rfl⟩

theorem fixed_bind_of {H : List ProtoFile} {p : P α} {f : α → P β} {res : Res α} (h : EndsWith H res p)
    (g : ∀ x, res = .ok x → Fixed H (f x)) : Fixed H (p >>= f) := by
  have key : ∀ (res' : Res β), (∀ x, res = .ok x → EndsWith H res' (f x)) → (∀ e, res = .panic e → res' = .panic e) →
      (res = .timeout → res' = .timeout) → EndsWith H res' (p >>= f) := by
    intro res' h1 h2 h3
    show EndsWith H res' (p.handle f .panic)
    induction p with
    | ret x => exact h1 x h
    | panic e => exact h2 e h
    | timeout => exact h3 h
    | read k ih => intro r hr; exact ih r (h r hr)
    | alloc k => exact h.elim
    | parse f k => exact h.elim
    | write w k => exact h.elim
  cases res with
  | ok x =>
    obtain ⟨res', hx⟩ := g x rfl
    exact ⟨res', key res' (fun y e => by cases e; exact hx) (fun e h => by cases h) (fun h => by cases h)⟩
  | panic e => exact ⟨.panic e, key _ (fun y e => by cases e) (fun e h => by cases h; rfl) (fun h => by cases h)⟩
  | timeout => exact ⟨.timeout, key _ (fun y e => by cases e) (fun e h => by cases h) (fun _ => rfl)⟩

theorem fixed_bind {H : List ProtoFile} {p : P α} {f : α → P β} (h : Fixed H p) (g : ∀ x, Fixed H (f x)) :
    Fixed H (p >>= f) := by
  obtain ⟨res, h⟩ := h
  exact fixed_bind_of h fun x _ => g x

theorem fixed_get {r0 : Reg} {f : Reg → P β} (h : ∀ r, Holds r0.heap r → f r = f r0) (g : Fixed r0.heap (f r0)) :
    Fixed r0.heap (P.get >>= f) := by
  obtain ⟨res, g⟩ := g
  refine ⟨res, fun r hr => ?_⟩
  show EndsWith r0.heap res (f r)
  rw [h r hr]
  exact g

theorem holds_file {r0 r : Reg} (h : Holds r0.heap r) {i : Nat} (hi : i < r0.heap.length) : r.heap[i]? = r0.heap[i]? := by
  obtain ⟨l, hl⟩ := h
  rw [hl, List.getElem?_append_left hi]

theorem holds_elem {r0 r : Reg} (h : Holds r0.heap r) {p : Ptr} (hp : p.file < r0.heap.length) : r.elem p = r0.elem p := by
  simp only [Reg.elem, holds_file h hp]

theorem holds_kind {r0 r : Reg} (h : Holds r0.heap r) {p : Ptr} (hp : p.file < r0.heap.length) : r.kind p = r0.kind p := by
  simp only [Reg.kind, holds_elem h hp]

theorem holds_children {r0 r : Reg} (h : Holds r0.heap r) {p : Ptr} (hp : p.file < r0.heap.length) :
    r.children p = r0.children p := by
  simp only [Reg.children, holds_file h hp]

theorem kind_file {r : Reg} {p : Ptr} {k : Kind} (h : r.kind p = some k) : p.file < r.heap.length := by
  simp only [Reg.kind, Reg.elem, Option.map_eq_some_iff, Option.bind_eq_some_iff] at h
  obtain ⟨_, ⟨f, hf, _⟩, _⟩ := h
  exact (List.getElem?_eq_some_iff.mp hf).1

theorem fixed_collect {H : List ProtoFile} : ∀ {l : List (P α)}, (∀ p ∈ l, Fixed H p) → Fixed H (Small.collectSteps l) := by
  intro l
  induction l with
  | nil => intro _; exact fixed_pure _
  | cons p l ih =>
    intro h
    exact fixed_bind (h p (by simp)) fun x => fixed_bind (ih fun q hq => h q (by simp [hq])) fun y => fixed_pure _

/-- For programs that read the registry once. -/
macro "fixed_once" hp:term : tactic => `(tactic| (
  refine fixed_get (fun r hr => by
    first
    | simp only [holds_kind hr $hp, holds_elem hr $hp]
    | simp only [holds_kind hr $hp]
    | simp only [holds_elem hr $hp]
    | simp only [holds_file hr $hp]
    | simp only [holds_children hr $hp]) ?_
  repeat' split
  all_goals first
    | exact fixed_pure _
    | exact fixed_panic _))

section
variable {r0 : Reg} {p : Ptr} (hp : p.file < r0.heap.length)
include hp

theorem fixed_mapKey : Fixed r0.heap (Small.Map.key p) := by
  unfold Small.Map.key
  fixed_once hp

theorem fixed_comment {a k} : Fixed r0.heap (Small.comment (.wrapped a k p)) := by
  unfold Small.comment
  cases k <;> fixed_once hp

theorem fixed_reserved : Fixed r0.heap (do
    let l ← Small.Reserved.values p
    let vs ← Small.collectSteps l
    pure (AttrVal.reserved vs)) := by
  have : ∃ res, EndsWith r0.heap res (Small.Reserved.values p) ∧ ∀ l, res = .ok l → ∀ x ∈ l, Fixed r0.heap x := by
    by_cases hk : ∃ ranges names, r0.kind p = some (.reserved ranges names)
    · obtain ⟨ranges, names, hk⟩ := hk
      refine ⟨.ok ((ranges.map fun g => (pure (reservedRange g) : P ReservedValue)) ++
        names.map fun n => (pure (.name n) : P ReservedValue)), fun r hr => ?_, fun l hl => ?_⟩
      · show EndsWith r0.heap _ (match r.kind p with
          | some (.reserved ranges names) => pure ((ranges.map fun g => (pure (reservedRange g) : P ReservedValue)) ++
              names.map fun n => (pure (.name n) : P ReservedValue))
          | _ => P.panic .illTyped)
        rw [holds_kind hr hp, hk]
        exact rfl
      · cases hl
        intro x hx
        rcases List.mem_append.mp hx with hx | hx
        · obtain ⟨_, _, rfl⟩ := List.mem_map.mp hx; exact fixed_pure _
        · obtain ⟨_, _, rfl⟩ := List.mem_map.mp hx; exact fixed_pure _
    · refine ⟨.panic .illTyped, fun r hr => ?_, fun l hl => by cases hl⟩
      show EndsWith r0.heap _ (match r.kind p with
          | some (.reserved ranges names) => pure ((ranges.map fun g => (pure (reservedRange g) : P ReservedValue)) ++
              names.map fun n => (pure (.name n) : P ReservedValue))
          | _ => P.panic .illTyped)
      rw [holds_kind hr hp]
      split
      · next h => exact absurd ⟨_, _, h⟩ hk
      · exact rfl
  obtain ⟨res, h1, h2⟩ := this
  exact fixed_bind_of h1 fun l hl => fixed_bind (fixed_collect (h2 l hl)) fun _ => fixed_pure _

end

theorem fixed_description {o : Ghost} {r0 : Reg} : ∀ {n : Node}, Protoast.Good o r0 n → Fixed r0.heap (Small.nodeDescription n)
  | .wrapped _ k _, _ => by unfold Small.nodeDescription; cases k <;> exact fixed_pure _
  | .option _ _ _ _, _ => fixed_pure _
  | .oneof _ _, _ => fixed_pure _
  | .map _ p, h => by
    obtain ⟨_, _, _, _, _, hk⟩ := h
    unfold Small.nodeDescription
    refine fixed_bind (fixed_mapKey (kind_file hk)) fun k => ?_
    split <;> exact fixed_panic _
  | .repeated _ (some t), h => by
    unfold Small.nodeDescription
    exact fixed_bind (fixed_description h.2.2) fun _ => fixed_pure _
  | .repeated _ none, _ => fixed_panic _
  | .builtin _, _ => fixed_panic _
  | .value _, _ => fixed_panic _
  | .mapItem _ _, _ => fixed_panic _

theorem fixed_attr {o : Ghost} {r0 : Reg} {n : Node} (h : Protoast.Good o r0 n) {q : Attr} (hi : q ≠ .index) (ht : q ≠ .typeName) :
    Fixed r0.heap (Small.Attr.read q n) := by
  have hw : ∀ {a k p}, n = .wrapped a k p → p.file < r0.heap.length := by
    rintro a k p rfl
    exact h.rooted.file
  unfold Small.Attr.read
  split
  · exact absurd rfl hi
  · exact fixed_bind (fixed_description h) fun _ => fixed_pure _
  · refine fixed_bind ?_ fun _ => fixed_pure _
    cases n with
    | wrapped a k p => exact fixed_comment (hw rfl)
    | oneof a p => exact fixed_get (fun r hr => by rw [holds_elem hr h.2.2.file]) (fixed_pure _)
    | map a p =>
      obtain ⟨_, _, _, _, _, hk⟩ := h
      exact fixed_get (fun r hr => by rw [holds_elem hr (kind_file hk)]) (fixed_pure _)
    | option => exact fixed_pure _
    | repeated => exact fixed_pure _
    | builtin => exact fixed_pure _
    | value => exact fixed_pure _
    | mapItem => exact fixed_pure _
  · exact absurd rfl ht
  all_goals try exact fixed_pure _
  all_goals first
    | exact fixed_reserved (hw rfl)
    | (refine fixed_bind ?_ fun _ => fixed_pure _
       simp only [Small.File.name, Small.Message.name, Small.Enum.name, Small.EnumValue.name, Small.MessageField.name,
         Small.OneOfBranch.name, Small.Service.name, Small.Method.name, Small.File.package, Small.Package.package,
         Small.Message.isExtension, Small.MessageField.value, Small.EnumValue.value, Small.OneOfBranch.value,
         Small.MessageField.optional, Small.Import.path, Small.Syntax.value]
       fixed_once (hw rfl))

theorem fixed_plain {o : Ghost} {r0 : Reg} {n : Node} (h : Protoast.Good o r0 n) {q : PlainQ} (hq : AccessorQ q) :
    Fixed r0.heap (plainCall q n) := by
  unfold plainCall
  split
  all_goals try exact hq.elim
  all_goals try exact fixed_pure _
  · obtain ⟨_, _, _, _, _, hk⟩ := h
    exact fixed_bind (fixed_mapKey (kind_file hk)) fun _ => fixed_pure _
  all_goals exact fixed_bind (fixed_attr h (by simp) (by simp)) fun _ => fixed_pure _

theorem fixed_call {o : Ghost} {r0 : Reg} {pool : List Node} (h : GoodL o r0 pool) {op : Op} (hop : Accessor op) :
    Fixed r0.heap (call pool op) := by
  cases op with
  | proto => exact hop.elim
  | byName => exact hop.elim
  | query i q =>
    cases q with
    | iter => exact hop.elim
    | named => exact hop.elim
    | plain q =>
      unfold call
      cases hi : pool[i]? with
      | none => simp only [hi]; exact fixed_pure _
      | some n => simp only [hi]; exact fixed_plain (h n (List.mem_of_getElem? hi)) hop

/-! ### Files stay loaded -/

theorem holds_pstep {H : List ProtoFile} {r : Reg} (h : Holds H r) (p : P Reply) : Holds H (p.step r).2 := by
  obtain ⟨l, hl⟩ := h
  cases p with
  | parse f k => exact ⟨l ++ [f], by simp [P.step, hl]⟩
  | write w k => exact ⟨l, by cases w <;> exact hl⟩
  | _ => exact ⟨l, hl⟩

theorem holds_gstep {H : List ProtoFile} {r : Reg} (h : Holds H r) (g : Goroutine) : Holds H (g.step r).2 := by
  unfold Goroutine.step
  split
  · split <;> exact h
  · next p _ =>
    split
    · exact h
    · exact h
    · exact holds_pstep h p

theorem holds_step {H : List ProtoFile} {s : System} (h : Holds H s.reg) (i : Nat) : Holds H (s.step i).reg := by
  unfold System.step
  split
  · exact h
  · exact holds_gstep h _

/-! ### A lone caller -/

theorem alone_snoc (g : Goroutine) (r : Reg) (ops : List Op) (op : Op) :
    g.alone r (ops ++ [op]) = (g.alone r ops).step (0, op) := by
  simp [Goroutine.alone, Callers.exec, List.foldl_append]

theorem alone_client (g : Goroutine) (r : Reg) (ops : List Op) : ∃ results,
    g.alone r ops = ⟨(Client.exec ⟨r, g.pool⟩ ops).reg, [⟨(Client.exec ⟨r, g.pool⟩ ops).pool, results⟩]⟩ := by
  induction ops using List.reverseRecOn with
  | nil => exact ⟨g.results, rfl⟩
  | append_singleton ops op ih =>
    obtain ⟨results, ih⟩ := ih
    have e : Client.exec ⟨r, g.pool⟩ (ops ++ [op]) = (Client.exec ⟨r, g.pool⟩ ops).step op := by
      simp [Client.exec, List.foldl_append]
    rw [alone_snoc, ih, e]
    exact ⟨_, rfl⟩

/-- What holds of the goroutine at every moment. -/
structure Undisturbed (c : Client) (g g' : Goroutine) : Prop where
  inv : ∃ done, g.alone c.reg done = ⟨c.reg, [⟨g'.pool, g'.results⟩]⟩ ∧
    match g'.running with
    | none => g.todo = done ++ g'.todo
    | some p => ∃ op, g.todo = done ++ op :: g'.todo ∧ EndsWith c.reg.heap (reply g'.pool op c.reg) p

theorem undisturbed_step {P : Str → List Elem → Prop} {c : Client} (hc : Reachable P c) {g g' : Goroutine}
    (hpool : ∀ n ∈ g.pool, n ∈ c.pool) (hops : ∀ op ∈ g.todo, Accessor op) (h : Undisturbed c g g') {r : Reg}
    (hr : Holds c.reg.heap r) : Undisturbed c g (g'.step r).1 ∧ g'.writes = false := by
  obtain ⟨done, h1, h2⟩ := h.inv
  unfold Goroutine.step Goroutine.writes
  cases hrun : g'.running with
  | none =>
    rw [hrun] at h2
    simp only at h2 ⊢
    refine ⟨?_, trivial⟩
    cases ht : g'.todo with
    | nil => exact h
    | cons op ops =>
      refine ⟨done, h1, op, by rw [h2, ht], ?_⟩
      obtain ⟨o, hi, hgood⟩ := reachable_inv hc
      obtain ⟨o', -, h3, h4⟩ := exec_inv done (c := ⟨c.reg, g.pool⟩) hi fun n hn => hgood n (hpool n hn)
      obtain ⟨results, e⟩ := alone_client g c.reg done
      rw [h1] at e
      injection e with e1 e2
      injection e2 with e2 _
      injection e2 with e2 _
      rw [← e1, ← e2] at h4
      obtain ⟨res, hres⟩ := fixed_call h4 (hops op (by rw [h2, ht]; simp))
      have := settles_alone hres (r := c.reg) ⟨[], by simp⟩
      rw [call_alone] at this
      have this : reply g'.pool op c.reg = res := congrArg Prod.fst this
      show EndsWith c.reg.heap (reply g'.pool op c.reg) (call g'.pool op)
      rw [this]
      exact hres
  | some p =>
    rw [hrun] at h2
    obtain ⟨op, ht, hp⟩ := h2
    have hfin : ∀ res pool', reply g'.pool op c.reg = res → pool' = (match res with | .ok x => g'.pool ++ x.1 | _ => g'.pool) →
        Undisturbed c g { g' with pool := pool', running := none, results := g'.results ++ [res] } := by
      intro res pool' hres hpool'
      refine ⟨done ++ [op], ?_, by simp [ht]⟩
      rw [alone_snoc, h1]
      obtain ⟨o, hi, hgood⟩ := reachable_inv hc
      obtain ⟨o', -, h3, h4⟩ := exec_inv done (c := ⟨c.reg, g.pool⟩) hi fun n hn => hgood n (hpool n hn)
      obtain ⟨results, e⟩ := alone_client g c.reg done
      rw [h1] at e
      injection e with e1 e2
      injection e2 with e2 _
      injection e2 with e2 _
      rw [← e1, ← e2] at h4
      obtain ⟨res', hres'⟩ := fixed_call h4 (hops op (by rw [ht]; simp))
      have hal := settles_alone hres' (r := c.reg) ⟨[], by simp⟩
      rw [call_alone] at hal
      have hreg : (op.run g'.pool c.reg).2 = c.reg := congrArg Prod.snd hal
      simp only [Callers.step, List.getElem?_cons_zero, Protoast.Again.step_reg, hreg, List.set_cons_zero, hres, hpool',
        client_pool]
      cases res <;> rfl
    cases p with
    | ret x => exact ⟨hfin (.ok x) _ hp rfl, rfl⟩
    | panic e => exact ⟨hfin (.panic e) _ hp rfl, rfl⟩
    | timeout => exact ⟨hfin .timeout _ hp rfl, rfl⟩
    | read k => exact ⟨⟨done, h1, op, ht, hp r hr⟩, rfl⟩
    | alloc k => exact hp.elim
    | parse f k => exact hp.elim
    | write w k => exact hp.elim

/-- C99: a goroutine that calls nothing but accessors on its handles is not disturbed by the others, whatever they do
    (load files, query, panic, in the middle of a call or not): at every moment it has the handles and the results that
    it has when it makes the same calls alone, and it never writes to the registry. -/
theorem C99_accessors {P : Str → List Elem → Prop} {c : Client} (hc : Reachable P c) {gs : List Goroutine} {i : Nat}
    {g : Goroutine} (hg : gs[i]? = some g) (hpool : ∀ n ∈ g.pool, n ∈ c.pool) (hrun : g.running = none)
    (hops : ∀ op ∈ g.todo, Accessor op) (schedule : List Nat) :
    (System.run ⟨c.reg, gs⟩ schedule).writes i = false ∧
    ∃ g' done, (System.run ⟨c.reg, gs⟩ schedule).gs[i]? = some g' ∧ done <+: g.todo ∧
      g.alone c.reg done = ⟨c.reg, [⟨g'.pool, g'.results⟩]⟩ ∧ (g'.running = none → g.todo = done ++ g'.todo) := by
  have key : ∀ (schedule : List Nat) (s : System), Holds c.reg.heap s.reg → (∃ g', s.gs[i]? = some g' ∧ Undisturbed c g g') →
      Holds c.reg.heap (s.run schedule).reg ∧ ∃ g', (s.run schedule).gs[i]? = some g' ∧ Undisturbed c g g' := by
    intro schedule
    induction schedule with
    | nil => exact fun s h1 h2 => ⟨h1, h2⟩
    | cons j rest ih =>
      intro s h1 ⟨g', h2, h3⟩
      refine ih (s.step j) (holds_step h1 j) ?_
      by_cases hij : j = i
      · subst hij
        exact ⟨_, step_self h2, (undisturbed_step hc hpool hops h3 h1).1⟩
      · exact ⟨g', by rw [step_other hij]; exact h2, h3⟩
  obtain ⟨h1, g', h2, h3⟩ := key schedule ⟨c.reg, gs⟩ ⟨[], by simp⟩
    ⟨g, hg, ⟨[], rfl, by rw [hrun]; simp⟩⟩
  refine ⟨?_, ?_⟩
  · unfold System.writes
    rw [h2]
    exact (undisturbed_step hc hpool hops h3 h1).2
  · obtain ⟨done, h4, h5⟩ := h3.inv
    refine ⟨g', done, h2, ?_, h4, fun hn => ?_⟩
    · cases hr : g'.running with
      | none => rw [hr] at h5; exact ⟨_, h5.symm⟩
      | some p =>
        rw [hr] at h5
        obtain ⟨op, h5, _⟩ := h5
        exact ⟨_, h5.symm⟩
    · rw [hn] at h5
      exact h5

/-- One goroutine reads attributes, the other one loads a file and then makes a call that panics. -/
def accessorSystem : List Goroutine :=
  [⟨Ex.c2.pool, none, [.query 1 (.plain .name), .query 2 (.plain .number), .query 13 (.plain .mapKey),
      .query 12 (.plain .comment), .query 0 (.plain .package)], []⟩,
   ⟨[], none, [.proto (Ex.worldOf [(b!"x.proto", [Ex.el b!"x.proto" 1 (.message b!"X" false)])]) 5 b!"x.proto",
      .byName b!".nothing"], []⟩]

/-- The conditions of `C99_accessors` are met; when the goroutines take turns both make all their calls. -/
example : Reachable AnyTree Ex.c2 ∧ (∃ g, accessorSystem[0]? = some g ∧ (∀ n ∈ g.pool, n ∈ Ex.c2.pool) ∧ g.running = none ∧
      ∀ op ∈ g.todo, Accessor op) ∧
    ((System.run ⟨Ex.c2.reg, accessorSystem⟩ ((List.range 60).map (· % 2))).gs.map fun g =>
      (g.results.length, g.running.isNone, g.todo.length)) = [(5, true, 0), (2, true, 0)] ∧
    ((List.range 60).any fun n => (System.run ⟨Ex.c2.reg, accessorSystem⟩ ((List.range n).map (· % 2))).writes 1) = true := by
  refine ⟨Ex.c2_reach, ⟨_, rfl, fun n hn => hn, rfl, ?_⟩, by decide +kernel, by decide +kernel⟩
  intro op ho
  simp only [List.mem_cons, List.not_mem_nil, or_false] at ho
  rcases ho with rfl | rfl | rfl | rfl | rfl <;> trivial

end Protoast.Props
