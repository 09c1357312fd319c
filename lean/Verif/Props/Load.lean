import Verif.Proof.Later
import Verif.Examples
/-
  C06, C07, C08, C14, C16: loading files.
-/
namespace Protoast.Props
open Protoast

/-! ### C06 -/

/-- C06: whenever the paths reachable through imports lie in a finite list `U`, `Proto` ends (any step
    budget from the length of `U` on is enough) and its result and effect do not depend on the budget.
    No condition on the shape of the import graph or on the registry. -/
theorem C06_proto_terminates (W : World) (U : List Str) (hU : ImportClosed W U) (path : Str)
    (hp : path ∈ U) (r : Reg) (fuel : Nat) (hf : U.length ≤ fuel) :
    (proto W fuel path r).1 ≠ .timeout ∧
      ∀ fuel', U.length ≤ fuel' → proto W fuel path r = proto W fuel' path r := proto_fuel hU hp r hf

/-- C06 for `NewRegistry`. -/
theorem C06_newRegistry_terminates (W : World) (U : List Str) (hU : ImportClosed W U)
    (hp : b!"google/protobuf/descriptor.proto" ∈ U) (fuel : Nat) (hf : U.length ≤ fuel) :
    (newRegistry W fuel).1 ≠ .timeout ∧
      ∀ fuel', U.length ≤ fuel' → newRegistry W fuel = newRegistry W fuel' := newRegistry_fuel hU hp hf

/-- Two files that import each other. -/
theorem ex_closed : ImportClosed Ex.W [Ex.pa, Ex.pb, descriptorPath] := by
  have hd : importsAll Ex.descriptor = [] := by decide +kernel
  have ha : importsAll Ex.fileA = [Ex.pb] := by decide +kernel
  have hb : importsAll Ex.fileB = [Ex.pa, descriptorPath] := by decide +kernel
  intro path hp name elems _ hl f hf
  simp only [List.mem_cons, List.not_mem_nil, or_false] at hp ⊢
  rcases hp with rfl | rfl | rfl
  · have : elems = Ex.fileA := by
      have h : Ex.W.load name Ex.pa = .ok Ex.fileA := by rfl
      rw [h] at hl; cases hl; rfl
    subst this; rw [ha] at hf; simp at hf; simp [hf]
  · have : elems = Ex.fileB := by
      have h : Ex.W.load name Ex.pb = .ok Ex.fileB := by rfl
      rw [h] at hl; cases hl; rfl
    subst this; rw [hb] at hf; simp at hf; rcases hf with h | h <;> simp [h]
  · have : elems = Ex.descriptor := by
      have h : Ex.W.load name descriptorPath = .ok Ex.descriptor := by rfl
      rw [h] at hl; cases hl; rfl
    subst this; rw [hd] at hf; simp at hf

/-- The hypotheses of C06 hold for the cyclic example, and the call succeeds. -/
example : ImportClosed Ex.W [Ex.pa, Ex.pb, descriptorPath] ∧
    Ex.okOk (proto Ex.W 3 Ex.pa Ex.r0).1 = true := ⟨ex_closed, by decide +kernel⟩

/-! ### C07 -/

/-- C07, at most once per path: the list of all files parsed so far (every successful read-and-parse adds
    one, nothing removes any) never has two entries for one path. -/
theorem C07_parsed_at_most_once {P c} (hr : Reachable P c) (i j : Nat) (f g : ProtoFile)
    (hi : c.reg.heap[i]? = some f) (hj : c.reg.heap[j]? = some g) (h : f.filename = g.filename) :
    i = j := by
  obtain ⟨o, hinv, -⟩ := reachable_inv hr
  have h1 := hinv.heapProtos _ _ hi
  have h2 := hinv.heapProtos _ _ hj
  rw [h, h2] at h1
  cases h1; rfl

/-- C07, no re-reading: what the resolvers and the file system say about paths that are already loaded has
    no influence on any further `Proto` call, neither on its result nor on its effect. -/
theorem C07_not_reread (r : Reg) (W W' : World) (h : AgreeOutside r W W') (fuel : Nat) (path : Str) :
    proto W fuel path r = proto W' fuel path r := proto_agree h fuel path

/-- C07, stable instance: once a path is bound to a parsed file, it stays bound to that very file with
    that content, after any further calls. -/
theorem C07_stable_instance {P c} (hr : Reachable P c) (path : Str) (i : Nat)
    (hi : c.reg.protos path = some i) (ops : List Op) :
    (c.exec ops).reg.protos path = some i ∧
      ∃ f, c.reg.heap[i]? = some f ∧ (c.exec ops).reg.heap[i]? = some f ∧ f.filename = path := by
  obtain ⟨o, hinv, -⟩ := reachable_inv hr
  have hl := exec_later ops c
  obtain ⟨f, hf, hn⟩ := hinv.protosHeap _ _ hi
  refine ⟨hl.protos _ _ hi, f, hf, ?_, hn⟩
  rw [hl.file (by exact (List.getElem?_eq_some_iff.mp hf).1)]
  exact hf

/-- Three files are loaded in the example; the world may lose them without effect on later calls. -/
example : Ex.c2.reg.heap.map ProtoFile.filename = [descriptorPath, Ex.pa, Ex.pb] ∧
    AgreeOutside Ex.c2.reg Ex.W (Ex.worldOf []) := by
  refine ⟨by decide +kernel, ?_⟩
  intro path hp
  have h1 : path ≠ descriptorPath := by rintro rfl; revert hp; decide +kernel
  have h2 : path ≠ Ex.pa := by rintro rfl; revert hp; decide +kernel
  have h3 : path ≠ Ex.pb := by rintro rfl; revert hp; decide +kernel
  refine ⟨rfl, fun name => ?_⟩
  simp only [Ex.W, Ex.worldOf]
  rw [List.find?_eq_none.mpr, List.find?_eq_none.mpr]
  · simp
  · intro x hx
    simp only [List.mem_cons, List.not_mem_nil, or_false] at hx
    rcases hx with rfl | rfl | rfl <;> simp [Ne.symm h1, Ne.symm h2, Ne.symm h3]

/-! ### C08 -/

/-- C08: once `Proto(path)` returned a file, then after any further calls, `Proto(path)` in any world
    returns a file with the same contents, and the repeated call leaves the registry as it is (it only
    allocates a handle). -/
theorem C08_idempotent {P c W fuel path n r1} (_hr : Reachable P c)
    (h : proto W fuel path c.reg = (.ok (.ok n), r1)) (ops : List Op) (W' : World) (fuel' : Nat) :
    ∃ a i, n = .wrapped a .file ⟨i, []⟩ ∧
      let c2 := Client.exec ⟨r1, c.pool ++ [n]⟩ ops
      (∃ a', proto W' fuel' path c2.reg =
        (.ok (.ok (.wrapped a' .file ⟨i, []⟩)), { c2.reg with next := c2.reg.next + 1 })) ∧
      (∃ f, r1.heap[i]? = some f ∧ f.filename = path ∧ c2.reg.heap[i]? = some f) := by
  obtain ⟨o, hi, -⟩ := reachable_inv _hr
  have hp : ∃ a i, n = .wrapped a .file ⟨i, []⟩ ∧ r1.protos path = some i ∧
      ∃ f, r1.heap[i]? = some f ∧ f.filename = path := by
    rcases proto_cases W path c.reg with ⟨i, hi', e⟩ | ⟨_, er, e⟩ | ⟨hnone, name, elems, _, _, e⟩
    · rw [e] at h
      cases h
      exact ⟨_, i, rfl, hi', hi.protosHeap _ _ hi'⟩
    · rw [e] at h; cases h
    · rw [e] at h
      unfold protoNew at h
      have hl := runActs_lext (imp := visitImport W fuel)
        (fileActs (.at ⟨c.reg.heap.length, []⟩) c.reg.heap.length elems)
        (fun f _ r => visitImport_lext W fuel f r) (addFile c.reg path elems)
      rcases hrun : runActs (visitImport W fuel)
        (fileActs (.at ⟨c.reg.heap.length, []⟩) c.reg.heap.length elems)
        (addFile c.reg path elems) with ⟨res, r'⟩
      rw [hrun] at h hl
      cases res with
      | ok u =>
        cases h
        refine ⟨_, _, rfl, hl.protos _ _ (by simp [addFile, upd]), ⟨path, elems⟩, ?_, rfl⟩
        exact hl.file (by simp [addFile])
      | panic e => cases h
      | timeout => cases h
  obtain ⟨a, i, rfl, hpi, f, hf, hn⟩ := hp
  refine ⟨a, i, rfl, ?_, f, hf, hn, ?_⟩
  · have hl := exec_later ops ⟨r1, c.pool ++ [.wrapped a .file ⟨i, []⟩]⟩
    rcases proto_cases W' path (Client.exec ⟨r1, c.pool ++ [.wrapped a .file ⟨i, []⟩]⟩ ops).reg with
      ⟨i', hi', e⟩ | ⟨hnone, _⟩ | ⟨hnone, _⟩
    · rw [hl.protos _ _ hpi] at hi'
      cases hi'
      exact ⟨_, e _⟩
    · rw [hl.protos _ _ hpi] at hnone; cases hnone
    · rw [hl.protos _ _ hpi] at hnone; cases hnone
  · have hl := exec_later ops ⟨r1, c.pool ++ [.wrapped a .file ⟨i, []⟩]⟩
    exact (hl.file (List.getElem?_eq_some_iff.mp hf).1).trans hf

example : Ex.okOk (proto Ex.W 5 Ex.pb Ex.c2.reg).1 = true := by decide +kernel

/-! ### C14 -/

/-- C14: a `Proto` call that reports an error leaves the registry exactly as it was. -/
theorem C14_failed_load_no_trace (W : World) (fuel : Nat) (path : Str) (r r' : Reg) (e : Err)
    (h : proto W fuel path r = (.ok (.error e), r')) : r' = r := by
  rcases proto_cases W path r with ⟨i, hi, g⟩ | ⟨hnone, er, g⟩ | ⟨hnone, name, elems, _, _, g⟩
  · rw [g] at h; cases h
  · rw [g] at h; cases h; rfl
  · rw [g] at h
    unfold protoNew at h
    split at h <;> cases h

/-- In the world without files every new path fails with an error. -/
example : ∃ e r', proto (Ex.worldOf []) 5 b!"zzz.proto" Ex.r0 = (.ok (.error e), r') := ⟨_, _, by rfl⟩

/-! ### C16 -/

theorem locate_firstHit {path R} : ∀ {rs : List Resolver}, FirstHit rs path R →
    locate path rs = match R.resolve path with
      | .ok name => .ok name
      | .error e => .error (.wrap (b!"resolve proto file path with " ++ R.name) e) := by
  rintro rs ⟨pre, post, rfl, hpre, hR⟩
  induction pre with
  | nil =>
    simp only [List.nil_append, locate]
    cases hx : R.resolve path with
    | ok name => rfl
    | error e => simp [hR e hx]
  | cons R' pre ih =>
    obtain ⟨e, he, hne⟩ := hpre R' (by simp)
    simp only [List.cons_append, locate, he, hne, if_true]
    exact ih fun R'' h => hpre R'' (List.mem_cons_of_mem _ h)

/-- C16, first hit: the path (not loaded yet) is read from the location the first answering resolver gives
    and from nowhere else: loading it succeeds with exactly the content read there (the file becomes part of
    the registry, whatever its imports do), or fails with the read error. -/
theorem C16_first_hit (W : World) (path : Str) (r : Reg) (hn : r.protos path = none) (R : Resolver)
    (hR : FirstHit W.resolvers path R) (loc : Str) (hloc : R.resolve path = .ok loc) (hne : loc ≠ [])
    (fuel : Nat) :
    (∀ elems, W.load loc path = .ok elems →
      (proto W fuel path r).2.heap[r.heap.length]? = some ⟨path, elems⟩ ∧
      (proto W fuel path r).2.protos path = some r.heap.length) ∧
    (∀ e, W.load loc path = .error e → ∃ c1 c2, proto W fuel path r = (.ok (.error (.wrap c1 (.wrap c2 e))), r)) := by
  have hl := locate_firstHit hR
  rw [hloc] at hl
  simp only at hl
  constructor
  · intro elems hw
    rw [proto_new (elems := elems) hn (by simp [protoFile, hn, hl, hne, hw, addFile]) fuel]
    have hx := runActs_lext (imp := visitImport W fuel)
      (fileActs (.at ⟨r.heap.length, []⟩) r.heap.length elems)
      (fun f _ r => visitImport_lext W fuel f r) (addFile r path elems)
    have h1 : (addFile r path elems).heap[r.heap.length]? = some ⟨path, elems⟩ := by simp [addFile]
    have h2 : (addFile r path elems).protos path = some r.heap.length := by simp [addFile, upd]
    unfold protoNew
    rcases hrun : runActs (visitImport W fuel)
      (fileActs (.at ⟨r.heap.length, []⟩) r.heap.length elems) (addFile r path elems) with ⟨res, r'⟩
    rw [hrun] at hx
    cases res <;> exact ⟨hx.file h1, hx.protos _ _ h2⟩
  · intro e hw
    refine ⟨b!"resolve proto file " ++ path, b!"get proto definition from resolved file " ++ loc, ?_⟩
    unfold proto demarkFile
    simp [hn, protoFile, hl, hne, hw]

/-- C16, hard failure: if the first resolver that does not answer "does not exist" fails, loading fails
    with its error, whatever the later resolvers would say. -/
theorem C16_hard_error (W : World) (path : Str) (r : Reg) (hn : r.protos path = none) (R : Resolver)
    (hR : FirstHit W.resolvers path R) (e : Err) (he : R.resolve path = .error e) (fuel : Nat) :
    ∃ c1 c2, proto W fuel path r = (.ok (.error (.wrap c1 (.wrap c2 e))), r) := by
  have hl := locate_firstHit hR
  rw [he] at hl
  simp only at hl
  refine ⟨b!"resolve proto file " ++ path, b!"resolve proto file path with " ++ R.name, ?_⟩
  unfold proto demarkFile
  simp [hn, protoFile, hl]

/-- C16, nobody knows the path: the file is not found. -/
theorem C16_not_found (W : World) (path : Str) (r : Reg) (hn : r.protos path = none)
    (h : ∀ R ∈ W.resolvers, ∃ e, R.resolve path = .error e ∧ e.isNotExist = true) (fuel : Nat) :
    ∃ c1, proto W fuel path r = (.ok (.error (.wrap c1 .notFound)), r) := by
  have hl : ∀ (rs : List Resolver), (∀ R ∈ rs, ∃ e, R.resolve path = .error e ∧ e.isNotExist = true) →
      locate path rs = .ok [] := by
    intro rs
    induction rs with
    | nil => intro _; rfl
    | cons R rs ih =>
      intro h
      obtain ⟨e, he, hne⟩ := h R (by simp)
      simp only [locate, he, hne, if_true]
      exact ih fun R' h' => h R' (List.mem_cons_of_mem _ h')
  refine ⟨b!"resolve proto file " ++ path, ?_⟩
  unfold proto demarkFile
  simp [hn, protoFile, hl _ h]

/-- C16 for imported files: the same first-hit rule decides what every import reads, and resolvers behind
    the first hit have no influence. -/
theorem C16_later_irrelevant (path : Str) (pre post post' : List Resolver) (R : Resolver)
    (hpre : ∀ R' ∈ pre, ∃ e, R'.resolve path = .error e ∧ e.isNotExist = true)
    (hR : ∀ e, R.resolve path = .error e → e.isNotExist = false)
    (load : Str → Str → Except Err (List Elem)) :
    protoFile ⟨pre ++ R :: post, load⟩ path = protoFile ⟨pre ++ R :: post', load⟩ path := by
  have h1 := locate_firstHit (rs := pre ++ R :: post) (path := path) ⟨pre, post, rfl, hpre, hR⟩
  have h2 := locate_firstHit (rs := pre ++ R :: post') (path := path) ⟨pre, post', rfl, hpre, hR⟩
  funext r
  unfold protoFile
  simp only [h1, h2]

/-- A resolver that does not know the path, then one that does. -/
example : FirstHit [⟨b!"none", fun _ => .error (.wrap b!"check" .notExist)⟩, Ex.anyResolver] b!"a.proto"
    Ex.anyResolver := by
  refine ⟨[⟨b!"none", fun _ => .error (.wrap b!"check" .notExist)⟩], [], rfl, ?_, ?_⟩
  · intro R' h
    simp only [List.mem_singleton] at h
    subst h
    exact ⟨_, rfl, rfl⟩
  · intro e h; cases h

end Protoast.Props
