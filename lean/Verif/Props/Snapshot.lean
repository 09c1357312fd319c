import Verif.Proof.Disk
import Verif.Proof.HeapSat
import Verif.Examples
/-
  C108: a registry reads every file once, so a disk that changes behaves like a disk that does not.
-/
namespace Protoast.Props
open Protoast

/-! ### One call -/

theorem locate_view {path : Str} : ∀ {l l' : List Resolver},
    l.map (fun x => (x.name, x.resolve path)) = l'.map (fun x => (x.name, x.resolve path)) → locate path l = locate path l' := by
  intro l
  induction l with
  | nil =>
    intro l' h
    cases l' with
    | nil => rfl
    | cons x l' => cases h
  | cons x l ih =>
    intro l' h
    cases l' with
    | nil => cases h
    | cons y l' =>
      simp only [List.map_cons, List.cons.injEq, Prod.mk.injEq] at h
      unfold locate
      rw [h.1.1, h.1.2, ih h.2]

theorem protoFile_view {W W' : World} {path : Str} (h : W.view path = W'.view path) :
    protoFile W path = protoFile W' path := by
  unfold World.view at h
  rw [Prod.mk.injEq] at h
  funext r
  unfold protoFile
  rw [locate_view h.1]
  have h2 : ∀ loc, W.load loc path = W'.load loc path := fun loc => congrFun h.2 loc
  simp only [h2]

/-- Each path as it was at moment `t path`. -/
def blendWorld (D : Disk) (t : Str → Nat) : World :=
  ⟨D.resolvers.map fun x => ⟨x.1, fun p => x.2 (t p) p⟩, fun loc p => D.load (t p) loc p⟩

theorem blendWorld_view (D : Disk) (t : Str → Nat) (p : Str) : (blendWorld D t).view p = (D.now (t p)).view p := by
  simp [World.view, blendWorld, Disk.now, Function.comp_def]

theorem follows_blend {D : Disk} {b : Nat} {R : Reg} {t : Str → Nat}
    (h1 : ∀ p i, b ≤ i → i ≤ R.heap.length → R.protos p = some i → t p = i)
    (h2 : ∀ p, b ≤ R.heap.length → R.protos p = none → t p = R.heap.length) : Follows D (blendWorld D t) b True R := by
  constructor
  · intro p s elems hb hn _ hB
    have hi : R.protos p = some s.heap.length := hB.2 p _ (by simp [addFile, upd])
    have hlen : s.heap.length ≤ R.heap.length := by
      obtain ⟨l, hl⟩ := hB.1
      rw [hl]; simp [addFile]
    unfold protoFileD
    rw [protoFile_view (blendWorld_view D t p), h1 p _ hb hlen hi]
  · intro p s e hb hn _ _ hE
    unfold protoFileD
    rw [protoFile_view (blendWorld_view D t p), h2 p (by rw [← hE.1]; exact hb) (by rw [← hE.2]; exact hn), hE.1]

theorem proto_follow {D : Disk} {W : World} {E : Prop} {R : Reg} {fuel : Nat} {path : Str} {r : Reg}
    (hF : Follows D W r.heap.length E R)
    (he : ((∃ f, (protoD D fuel path r).1 = .ok (.ok f)) ∧ Below (protoD D fuel path r).2 R) ∨
      (E ∧ FilesEq (protoD D fuel path r).2 R)) :
    proto W fuel path r = protoD D fuel path r := by
  unfold protoD demarkFileD at he ⊢
  unfold proto demarkFile
  simp only [M.bind_apply, M.get_apply] at he ⊢
  cases hp : r.protos path with
  | some i => rfl
  | none =>
    rw [hp] at he
    simp only [M.bind_apply] at he ⊢
    rcases protoFileD_cases D path r with ⟨i, hi, h'⟩ | ⟨_, e, h'⟩ | ⟨hn, elems, h'⟩
    · rw [hi] at hp; cases hp
    · rw [h'] at he
      have hs : E ∧ FilesEq r R := by
        rcases he with ⟨⟨f, hf⟩, _⟩ | hs
        · cases hf
        · exact hs
      rw [hF.miss path r e (Nat.le_refl _) hp h' hs.1 hs.2, h']
      rfl
    · rw [h'] at he
      simp only [M.bind_apply] at he
      have hx := acceptD_lext D fuel (.at ⟨r.heap.length, []⟩) (i := r.heap.length) (r := addFile r path elems)
        (f := ⟨path, elems⟩) (by simp [Protoast.addFile])
      have hends : Ends E R (acceptFile (visitImportD D fuel) (.at ⟨r.heap.length, []⟩) r.heap.length
          (addFile r path elems)) := by
        rcases ha : acceptFile (visitImportD D fuel) (.at ⟨r.heap.length, []⟩) r.heap.length
          (addFile r path elems) with ⟨res, r'⟩
        rw [ha] at he hx
        have hp' : r'.protos path = some r.heap.length := hx.protos _ _ (by simp [addFile, upd])
        cases res with
        | ok u =>
          simp only [M.bind_apply, M.get_apply, M.pure_apply, hp', newFile, M.alloc_apply] at he
          refine ⟨?_, .inl ⟨u, rfl⟩⟩
          rcases he with ⟨_, hB⟩ | ⟨_, hS⟩
          · exact hB
          · exact ⟨⟨[], by simpa using hS.1.symm⟩, fun p i hi => by rw [← hS.2]; exact hi⟩
        | panic q =>
          rcases he with ⟨⟨f, hf⟩, _⟩ | hs
          · cases hf
          · exact ⟨⟨⟨[], by simpa using hs.2.1.symm⟩, fun p i hi => by rw [← hs.2.2]; exact hi⟩, .inr hs⟩
        | timeout =>
          rcases he with ⟨⟨f, hf⟩, _⟩ | hs
          · cases hf
          · exact ⟨⟨⟨[], by simpa using hs.2.1.symm⟩, fun p i hi => by rw [← hs.2.2]; exact hi⟩, .inr hs⟩
      have hB0 : Below (addFile r path elems) R := Below.of_lext hx hends.1
      rw [hF.hit path r elems (Nat.le_refl _) hn h' hB0, h']
      simp only [M.bind_apply]
      rw [accept_follow hF fuel _ path elems r (Nat.le_refl _) hends]
      rfl

/-- C108, one call: whatever happens on the disk while `Proto(path)` reads `path` and its imports, the call does and
    answers the same as on a disk that does not change and where every file looks as it did at some moment during the
    call. -/
theorem C108_one_call (D : Disk) (fuel : Nat) (path : Str) (r : Reg) :
    ∃ W, proto W fuel path r = protoD D fuel path r ∧
      D.Blend r.heap.length (max r.heap.length (protoD D fuel path r).2.heap.length) W := by
  let R := (protoD D fuel path r).2
  let t : Str → Nat := fun p => max r.heap.length (min ((R.protos p).getD R.heap.length) R.heap.length)
  refine ⟨blendWorld D t, ?_, ?_⟩
  · refine proto_follow (R := R) (E := True) (follows_blend ?_ ?_) (.inr ⟨trivial, rfl, rfl⟩)
    · intro p i hb hi hp
      show max _ (min ((R.protos p).getD R.heap.length) R.heap.length) = i
      rw [hp]
      simp only [Option.getD_some]
      omega
    · intro p hb hp
      show max _ (min ((R.protos p).getD R.heap.length) R.heap.length) = R.heap.length
      rw [hp]
      simp only [Option.getD_none]
      omega
  · intro p
    refine ⟨t p, Nat.le_max_left _ _, ?_, blendWorld_view D t p⟩
    show max r.heap.length (min _ R.heap.length) ≤ max r.heap.length R.heap.length
    omega

/-! ### A whole history -/

/-- The disk that has exactly the files of `R`. -/
def snapshot (R : Reg) : World where
  resolvers := [⟨b!"snapshot", fun p => if (R.protos p).isSome then .ok (b!"/" ++ p) else .error .notExist⟩]
  load _ p := match (R.protos p).bind fun i => R.heap[i]? with
    | some f => .ok f.elems
    | none => .error .notExist

theorem follows_snapshot (W : World) (R : Reg) (b : Nat) : Follows W.still (snapshot R) b False R := by
  constructor
  · intro p s elems _ hn hh hB
    have hi : R.protos p = some s.heap.length := hB.2 p _ (by simp [addFile, upd])
    obtain ⟨l, hl⟩ := hB.1
    have hf : R.heap[s.heap.length]? = some ⟨p, elems⟩ := by rw [hl]; simp [addFile]
    rw [hh]
    unfold protoFile
    rw [hn]
    simp only [snapshot, locate, hi, Option.isSome_some, if_true, Option.bind_some, hf]
    rfl
  · intro p s e _ _ _ hE
    exact hE.elim

theorem proto_snapshot {W : World} {fuel path r f r' R} (h : proto W fuel path r = (.ok (.ok f), r')) (hB : Below r' R) :
    proto (snapshot R) fuel path r = (.ok (.ok f), r') := by
  rw [← protoD_still] at h
  rw [proto_follow (D := W.still) (E := False) (follows_snapshot W R _) (.inl ⟨⟨f, by rw [h]⟩, by rw [h]; exact hB⟩), h]

theorem newRegistry_snapshot {W : World} {fuel r R} (h : newRegistry W fuel = (.ok (.ok ()), r)) (hB : Below r R) :
    newRegistry (snapshot R) fuel = (.ok (.ok ()), r) := by
  have hF := follows_snapshot W R 0
  unfold newRegistry demarkFile at h ⊢
  rw [← protoFileD_still, ← visitImportD_still] at h
  simp only [M.bind_apply] at h ⊢
  rcases protoFileD_cases W.still descriptorPath Reg.empty with ⟨i, hi, e⟩ | ⟨_, er, e⟩ | ⟨hn, elems, e⟩
  · cases hi
  · rw [e] at h; simp at h
  · rw [e] at h
    simp only [M.bind_apply] at h
    have hx := acceptD_lext W.still fuel (.at ⟨Reg.empty.heap.length, []⟩) (i := Reg.empty.heap.length)
      (r := addFile Reg.empty descriptorPath elems) (f := ⟨descriptorPath, elems⟩) (by simp [Protoast.addFile])
    rcases ha : acceptFile (visitImportD W.still fuel) (.at ⟨Reg.empty.heap.length, []⟩) Reg.empty.heap.length
      (addFile Reg.empty descriptorPath elems) with ⟨res, r'⟩
    have hr : res = .ok () ∧ r' = r := by
      rw [ha] at h
      cases res with
      | ok u => simp at h; exact ⟨rfl, h⟩
      | panic p => simp at h
      | timeout => simp at h
    obtain ⟨rfl, rfl⟩ := hr
    have hends : Ends False R (acceptFile (visitImportD W.still fuel) (.at ⟨Reg.empty.heap.length, []⟩)
        Reg.empty.heap.length (addFile Reg.empty descriptorPath elems)) := by
      rw [ha]; exact ⟨hB, .inl ⟨(), rfl⟩⟩
    rw [hF.hit descriptorPath Reg.empty elems (Nat.zero_le _) hn e (Below.of_lext hx hends.1), e]
    simp only [M.bind_apply]
    rw [accept_follow hF fuel _ descriptorPath elems Reg.empty (Nat.zero_le _) hends, ha]
    simp

theorem firstHit_snapshot {R : Reg} {p : Str} {X : Resolver} (h : FirstHit (snapshot R).resolvers p X) :
    X = ⟨b!"snapshot", fun p => if (R.protos p).isSome then .ok (b!"/" ++ p) else .error .notExist⟩ := by
  obtain ⟨pre, post, h1, _, _⟩ := h
  unfold snapshot at h1
  simp only at h1
  cases pre with
  | nil => simp only [List.nil_append, List.cons.injEq] at h1; exact h1.1.symm
  | cons y pre =>
    simp only [List.cons_append, List.cons.injEq] at h1
    have := h1.2
    simp at this

theorem readable_snapshot {R : Reg} (hR : ∀ p i, R.protos p = some i → ∃ f, R.heap[i]? = some f ∧ f.filename = p)
    (p : Str) (elems : List Elem) : Readable (snapshot R) p elems ↔ LoadedAs R p elems := by
  constructor
  · rintro ⟨X, loc, hX, hloc, _, hl⟩
    unfold snapshot at hl
    simp only at hl
    cases hp : R.protos p with
    | none => rw [hp] at hl; cases hl
    | some i =>
      obtain ⟨f, hf, hfn⟩ := hR p i hp
      rw [hp, Option.bind_some, hf] at hl
      simp only [Except.ok.injEq] at hl
      refine ⟨i, hp, ?_⟩
      rw [hf, ← hl, ← hfn]
  · rintro ⟨i, hp, hf⟩
    refine ⟨⟨b!"snapshot", fun p => if (R.protos p).isSome then .ok (b!"/" ++ p) else .error .notExist⟩, b!"/" ++ p,
      ⟨[], [], rfl, by simp, ?_⟩, ?_, by simp, ?_⟩
    · intro e he
      simp only [hp, Option.isSome_some, if_true] at he
      cases he
    · simp only [hp, Option.isSome_some, if_true]
    · simp only [snapshot, hp, Option.bind_some, hf]

/-- A call that returned without panic while loading either does the same on the disk that has the files of `R`, or it is
    a `Proto` call that reported an error and changed nothing. -/
theorem step_snapshot {c : Client} {op : Op} {R : Reg}
    (hok : match op with | .proto W fuel path => ∃ x, (proto W fuel path c.reg).1 = .ok x | _ => True)
    (hB : Below (c.step op).reg R) :
    (op.on (snapshot R)).run c.pool c.reg = op.run c.pool c.reg ∨
      ∃ W fuel path e, op = .proto W fuel path ∧ proto W fuel path c.reg = (.ok (.error e), c.reg) := by
  cases op with
  | byName n => exact .inl rfl
  | query h q => exact .inl rfl
  | proto W fuel path =>
    obtain ⟨x, hx⟩ := hok
    rcases hq : proto W fuel path c.reg with ⟨res, r'⟩
    rw [hq] at hx
    simp only at hx
    subst hx
    cases x with
    | ok f =>
      left
      have hB' : Below r' R := by
        unfold Client.step Op.run at hB
        simp only [M.bind_apply, hq, M.pure_apply] at hB
        exact hB
      simp only [Op.on, Op.run, M.bind_apply, proto_snapshot hq hB', hq]
    | error e =>
      right
      refine ⟨W, fuel, path, e, rfl, ?_⟩
      rcases proto_cases W path c.reg with ⟨i, _, h⟩ | ⟨_, e', h⟩ | ⟨hn, nm, elems, _, _, h⟩
      · rw [h] at hq; cases hq
      · rw [h] at hq; cases hq; exact h fuel
      · rw [h] at hq
        unfold protoNew at hq
        rcases hr : runActs (visitImport W fuel) (fileActs (.at ⟨c.reg.heap.length, []⟩) c.reg.heap.length elems)
          (addFile c.reg path elems) with ⟨res, r1⟩
        rw [hr] at hq
        cases res <;> simp at hq

theorem loadsOK_split : ∀ (pre : List Op) {c : Client} {op : Op} {post : List Op}, LoadsOK c (pre ++ op :: post) →
    (match op with | .proto W fuel path => ∃ x, (proto W fuel path (c.exec pre).reg).1 = .ok x | _ => True) ∧
      LoadsOK ((c.exec pre).step op) post := by
  intro pre
  induction pre with
  | nil => intro c op post h; exact h
  | cons a pre ih => intro c op post h; exact ih h.2

theorem exec_snapshot {R : Reg} : ∀ (ops : List Op) {c : Client}, LoadsOK c ops → Below (c.exec ops).reg R →
    ∃ ops', ops'.Sublist (ops.map (Op.on (snapshot R))) ∧ LoadsOK c ops' ∧ c.exec ops' = c.exec ops := by
  intro ops
  induction ops with
  | nil => intro c _ _; exact ⟨[], List.Sublist.refl _, trivial, rfl⟩
  | cons op ops ih =>
    intro c h hB
    have hB1 : Below (c.step op).reg R := (Below.of_later (exec_later ops (c.step op))).trans hB
    obtain ⟨ops', h1, h2, h3⟩ := ih h.2 hB
    rcases step_snapshot h.1 hB1 with hs | ⟨W, fuel, path, e, rfl, he⟩
    · have hstep : c.step (op.on (snapshot R)) = c.step op := by unfold Client.step; rw [hs]
      refine ⟨op.on (snapshot R) :: ops', h1.cons_cons _, ⟨?_, by rw [hstep]; exact h2⟩, ?_⟩
      · cases op with
        | byName n => trivial
        | query h q => trivial
        | proto W fuel path =>
          show ∃ x, (proto (snapshot R) fuel path c.reg).1 = .ok x
          obtain ⟨x, hx⟩ := h.1
          rcases hq : proto W fuel path c.reg with ⟨res, r'⟩
          rw [hq] at hx
          simp only at hx
          subst hx
          cases x with
          | ok f =>
            have hB' : Below r' R := by
              unfold Client.step Op.run at hB1
              simp only [M.bind_apply, hq, M.pure_apply] at hB1
              exact hB1
            exact ⟨_, by rw [proto_snapshot hq hB']⟩
          | error e =>
            rcases proto_cases (snapshot R) path c.reg with ⟨i, _, g⟩ | ⟨_, e', g⟩ | ⟨hn, nm, elems, _, _, g⟩
            · exact ⟨_, by rw [g]⟩
            · exact ⟨_, by rw [g]⟩
            · exfalso
              simp only [Op.on, Op.run, M.bind_apply, hq, M.pure_apply] at hs
              rw [g] at hs
              unfold protoNew at hs
              rcases hr : runActs (visitImport (snapshot R) fuel)
                (fileActs (.at ⟨c.reg.heap.length, []⟩) c.reg.heap.length elems)
                (addFile c.reg path elems) with ⟨res, r1⟩
              rw [hr] at hs
              cases res <;> simp at hs
      · show (c.step (op.on (snapshot R))).exec ops' = (c.step op).exec ops
        rw [hstep, h3]
    · have hstep : c.step (.proto W fuel path) = c := by
        unfold Client.step Op.run
        simp only [M.bind_apply, he, M.pure_apply, List.append_nil]
      rw [hstep] at h2 h3
      refine ⟨ops', h1.cons _, h2, ?_⟩
      show c.exec ops' = (c.step (.proto W fuel path)).exec ops
      rw [hstep, h3]

/-- C108, a whole history: the disk changes between the calls in any way, and no `Proto` call panics (they may report
    errors, and queries may panic). Then there is one disk, that has exactly the files loaded at the end, each as it was
    when it was read, and: `NewRegistry` gives the same on that disk; every call of the history does and answers the same
    on that disk, except for the `Proto` calls that reported an error, which had no effect. -/
theorem C108_frozen {P W fuel r ops} (hs : W.Sat P) (h0 : newRegistry W fuel = (.ok (.ok ()), r))
    (hops : ∀ op ∈ ops, Op.Sat P op) (h : LoadsOK ⟨r, []⟩ ops) :
    ∃ W', (∀ path elems, Readable W' path elems ↔ LoadedAs (Client.exec ⟨r, []⟩ ops).reg path elems) ∧
      newRegistry W' fuel = (.ok (.ok ()), r) ∧
      ∀ pre op post, ops = pre ++ op :: post → ∀ c, c = Client.exec ⟨r, []⟩ pre →
        (op.on W').run c.pool c.reg = op.run c.pool c.reg ∨
          ∃ W1 fuel1 path e, op = .proto W1 fuel1 path ∧ proto W1 fuel1 path c.reg = (.ok (.error e), c.reg) := by
  have hreach : Reachable P (Client.exec ⟨r, []⟩ ops) := ⟨W, fuel, r, ops, hs, h0, hops, rfl⟩
  obtain ⟨o, hinv, -⟩ := reachable_inv hreach
  refine ⟨snapshot (Client.exec ⟨r, []⟩ ops).reg, readable_snapshot (fun p i hp => hinv.protosHeap p i hp),
    newRegistry_snapshot h0 (Below.of_later (exec_later ops ⟨r, []⟩)), ?_⟩
  rintro pre op post rfl c rfl
  refine step_snapshot (loadsOK_split pre h).1 (Below.of_later ?_)
  have : (Client.exec ⟨r, []⟩ (pre ++ op :: post)) = ((Client.exec ⟨r, []⟩ pre).step op).exec post := by
    rw [exec_append]; rfl
  rw [this]
  exact exec_later post _

/-- C108, in one sentence: every client state that can be reached without a panic while loading, the disk changing as it
    likes, can be reached on a disk that never changes, by the same calls without the failed ones. -/
theorem C108_one_disk {P W fuel r ops} (hs : W.Sat P) (h0 : newRegistry W fuel = (.ok (.ok ()), r))
    (hops : ∀ op ∈ ops, Op.Sat P op) (h : LoadsOK ⟨r, []⟩ ops) :
    ∃ W' ops', W'.Sat P ∧ newRegistry W' fuel = (.ok (.ok ()), r) ∧ ops'.Sublist (ops.map (Op.on W')) ∧
      (∀ W1 fuel1 path, Op.proto W1 fuel1 path ∈ ops' → W1 = W') ∧
      LoadsOK ⟨r, []⟩ ops' ∧ Client.exec ⟨r, []⟩ ops' = Client.exec ⟨r, []⟩ ops := by
  have hreach : Reachable P (Client.exec ⟨r, []⟩ ops) := ⟨W, fuel, r, ops, hs, h0, hops, rfl⟩
  obtain ⟨o, hinv, -⟩ := reachable_inv hreach
  have hheap := reachable_heapSat hreach
  obtain ⟨ops', h1, h2, h3⟩ := exec_snapshot (R := (Client.exec ⟨r, []⟩ ops).reg) ops h
    ⟨⟨[], by simp⟩, fun _ _ h => h⟩
  refine ⟨snapshot (Client.exec ⟨r, []⟩ ops).reg, ops', ?_,
    newRegistry_snapshot h0 (Below.of_later (exec_later ops ⟨r, []⟩)), h1, ?_, h2, h3⟩
  · intro loc p elems hl
    unfold snapshot at hl
    simp only at hl
    cases hp : (Client.exec ⟨r, []⟩ ops).reg.protos p with
    | none => rw [hp] at hl; cases hl
    | some i =>
      obtain ⟨f, hf, hfn⟩ := hinv.protosHeap p i hp
      rw [hp, Option.bind_some, hf] at hl
      simp only [Except.ok.injEq] at hl
      rw [← hl, ← hfn]
      exact hheap i f hf
  · intro W1 fuel1 path hm
    obtain ⟨op, _, ho⟩ := List.mem_map.mp (h1.subset hm)
    cases op <;> simp [Op.on] at ho
    exact ho.1.symm

/-- A disk that is edited during the call: `a.proto` imports `b.proto`; after `a.proto` was read it is deleted and a
    declaration of `b.proto` is renamed. -/
def editedDisk : Disk where
  resolvers := [(b!"root", fun _ p => .ok (b!"/r/" ++ p))]
  load k _ p :=
    if p = descriptorPath then .ok Ex.descriptor
    else if p = b!"a.proto" then
      if k = 1 then .ok [Ex.el p 1 (.importK b!"b.proto"), Ex.el p 2 (.message b!"A" false)] else .error .notExist
    else if p = b!"b.proto" then .ok [Ex.el p 1 (.message (if k = 1 then b!"Old" else b!"New") false)]
    else .error .notExist

/-- C108, one call: the call succeeds and finds the new declaration, which no single moment of the disk explains (at moment
    1 `b.proto` is old, later there is no `a.proto`). -/
example : (∃ f, (protoD editedDisk 5 b!"a.proto" Ex.r0).1 = .ok (.ok f)) ∧
    ((protoD editedDisk 5 b!"a.proto" Ex.r0).2.registry b!".New").isSome = true ∧
    ((protoD editedDisk 5 b!"a.proto" Ex.r0).2.registry b!".Old").isSome = false ∧
    ((proto (editedDisk.now 1) 5 b!"a.proto" Ex.r0).2.registry b!".New").isSome = false ∧
    ((proto (editedDisk.now 2) 5 b!"a.proto" Ex.r0).2.registry b!".New").isSome = false := by
  refine ⟨?_, by decide +kernel, by decide +kernel, by decide +kernel, by decide +kernel⟩
  have h : Ex.okOk (protoD editedDisk 5 b!"a.proto" Ex.r0).1 = true := by decide +kernel
  revert h
  generalize (protoD editedDisk 5 b!"a.proto" Ex.r0).1 = x
  rcases x with (e | f) | _ | _
  · intro h; cases h
  · intro _; exact ⟨f, rfl⟩
  · intro h; cases h
  · intro h; cases h

/-- A history on a disk that changes between the calls: `a.proto` is loaded, `c.proto` is missing, all files are replaced,
    `a.proto` and `c.proto` are loaded, and a name of the old `a.proto` is looked up. -/
def editedOps : List Op :=
  [.proto Ex.W 5 Ex.pa, .proto Ex.W 5 b!"c.proto",
   .proto (Ex.worldOf [(Ex.pa, []), (b!"c.proto", [Ex.el b!"c.proto" 1 (.message b!"C" false)])]) 5 Ex.pa,
   .proto (Ex.worldOf [(Ex.pa, []), (b!"c.proto", [Ex.el b!"c.proto" 1 (.message b!"C" false)])]) 5 b!"c.proto",
   .byName b!".p.q.M", .byName b!".C"]

/-- The hypotheses of C108, and what they are about: five handles are received, `c.proto` could not be loaded first and
    could later, and `a.proto` is the old one. -/
example : Ex.W.Sat AnyTree ∧ newRegistry Ex.W 5 = (.ok (.ok ()), Ex.r0) ∧ (∀ op ∈ editedOps, Op.Sat AnyTree op) ∧
    LoadsOK ⟨Ex.r0, []⟩ editedOps ∧ (Client.exec ⟨Ex.r0, []⟩ editedOps).pool.length = 5 ∧
    LoadedAs (Client.exec ⟨Ex.r0, []⟩ editedOps).reg Ex.pa Ex.fileA ∧
    LoadedAs (Client.exec ⟨Ex.r0, []⟩ editedOps).reg b!"c.proto" [Ex.el b!"c.proto" 1 (.message b!"C" false)] :=
  ⟨fun _ _ _ _ => trivial, Ex.W_ok, fun op _ => by cases op <;> simp [Op.Sat, World.Sat, AnyTree],
    Ex.loadsB_spec (by decide +kernel), by decide +kernel, ⟨1, by decide +kernel, rfl⟩, ⟨3, by decide +kernel, rfl⟩⟩

end Protoast.Props
