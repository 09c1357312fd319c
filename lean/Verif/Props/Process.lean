import Verif.Proof.Process3
import Verif.Proof.Types2
import Verif.Props.LoadOrder
/-
  C118, C119: several registries in one process.
-/
namespace Protoast.Props

theorem apart_alike {c : Client} {p : Process} {i : Nat} (h : Apart c p i) : Alike c (p.client i) := by
  obtain ⟨s, o, ⟨hf, hi, hg, hc⟩⟩ := h
  obtain ⟨h1, h2, h3⟩ := simC_indist hc hg
  refine ⟨h1, h2, h3, ?_⟩
  intro k n1 n2 e1 e2
  rw [hc.pool.1, List.getElem?_map, e1] at e2
  have e2 := Option.some.inj e2
  have hd : Deep n1 := hc.pool.2 n1 (List.mem_of_getElem? e1)
  have h0 := (nodeIndexFull_eqv hf hd _ _ hc.reg).1
  rw [e2] at h0
  revert h0
  cases (nodeIndex n1 c.reg).1 <;> cases (nodeIndex n2 (p.client i).reg).1 <;> simp only [ResRel]
    <;> first | exact False.elim | (rintro rfl; rfl) | exact fun _ => rfl | simp

/-- C118: a registry works as if it were alone in the process, whatever the program does with other registries before,
    between and after the calls made with it, and even if other registries are given its handles. -/
theorem C118_isolated (pre post : List Action) (i : Nat) (W : World) (fuel : Nat) {r0 : Reg}
    (h0 : newRegistry W fuel = (.ok (.ok ()), r0)) (hown : ∀ a ∈ post, a.OwnHandles i) :
    Alike (Client.exec ⟨r0, []⟩ (callsOn i post)) ((Process.start.exec (pre ++ .create i W fuel :: post)).client i) := by
  have : Process.start.exec (pre ++ .create i W fuel :: post) =
      ((Process.start.exec pre).step (.create i W fuel)).exec post := by
    simp only [Process.exec, List.foldl_append, List.foldl_cons]
  rw [this]
  exact apart_alike ((Apart.create h0).exec post hown)

/-- C118: `NewRegistry` succeeds or fails, with the same error, whatever else is in the process. -/
theorem C118_created (pre : List Action) (W : World) (fuel : Nat) :
    (setUp W fuel ((Process.start.exec pre).seen Tables.empty)).1 = (newRegistry W fuel).1 := by
  have h := (setUp_eqv W fuel _ _ (Sim.start (Process.start.exec pre))).1
  have e : newRegistry W fuel = setUp W fuel Reg.empty := rfl
  rw [e]
  revert h
  cases (setUp W fuel Reg.empty).1 <;> cases (setUp W fuel ((Process.start.exec pre).seen Tables.empty)).1 <;>
    simp only [ResRel] <;> first | exact False.elim | (rintro rfl; rfl) | exact fun _ => rfl | simp

/-- C118: every handle that the registry gave out represents something in a file that this registry has loaded. -/
theorem C118_own (pre post : List Action) (i : Nat) (W : World) (fuel : Nat) {r0 : Reg}
    (h0 : newRegistry W fuel = (.ok (.ok ()), r0)) (hown : ∀ a ∈ post, a.OwnHandles i) :
    ∀ n ∈ (Process.start.exec (pre ++ .create i W fuel :: post)).pools i,
      BelongsTo (Process.start.exec (pre ++ .create i W fuel :: post)) i n := by
  have e : Process.start.exec (pre ++ .create i W fuel :: post) =
      ((Process.start.exec pre).step (.create i W fuel)).exec post := by
    simp only [Process.exec, List.foldl_append, List.foldl_cons]
  rw [e]
  obtain ⟨s, o, h⟩ := (Apart.create (p := Process.start.exec pre) (i := i) h0).exec post hown
  intro n hn
  have hp := h.sim.pool.1
  rw [show (Process.client _ i).pool = Process.pools _ i from rfl] at hp
  rw [hp] at hn
  obtain ⟨m, hm, rfl⟩ := List.mem_map.mp hn
  exact h.belongs m (h.good m hm)

/-- C118: two registries never give out the same node, not even for the same file: the only nodes both can give out are
    the builtin types. -/
theorem C118_distinct (pre mid post : List Action) {i j : Nat} (hij : i ≠ j) (W1 W2 : World) (fuel1 fuel2 : Nat) {r1 r2 : Reg}
    (h1 : newRegistry W1 fuel1 = (.ok (.ok ()), r1)) (h2 : newRegistry W2 fuel2 = (.ok (.ok ()), r2))
    (hmid : ∀ a ∈ mid, a.OwnHandles i) (hpost : ∀ a ∈ post, a.OwnHandles i ∧ a.OwnHandles j) {n m : Node}
    (hn : n ∈ (Process.start.exec (pre ++ .create i W1 fuel1 :: (mid ++ .create j W2 fuel2 :: post))).pools i)
    (hm : m ∈ (Process.start.exec (pre ++ .create i W1 fuel1 :: (mid ++ .create j W2 fuel2 :: post))).pools j)
    (he : GoEq n m) : ∃ b, n = .builtin b ∧ m = .builtin b := by
  have e : Process.start.exec (pre ++ .create i W1 fuel1 :: (mid ++ .create j W2 fuel2 :: post)) =
      ((((Process.start.exec pre).step (.create i W1 fuel1)).exec mid).step (.create j W2 fuel2)).exec post := by
    simp only [Process.exec, List.foldl_append, List.foldl_cons]
  rw [e] at hn hm
  have ha := (Apart.create (p := Process.start.exec pre) (i := i) h1).exec mid hmid
  obtain ⟨s1, s2, o1, o2, h⟩ := Two.create hij ha h2
  obtain ⟨t1, t2, u1, u2, h⟩ := h.exec hij post hpost
  have key : ∀ x, n.address = some x → m.address = some x → False := by
    intro x hx hy
    obtain ⟨a, ha, rfl⟩ := h.first.address hn hx
    obtain ⟨b, hb, hab⟩ := h.second.address hm hy
    exact h.differ a b ha hb hab
  cases n <;> cases m <;> simp only [GoEq] at he <;> try exact he.elim
  · exact (key _ rfl (by rw [he.2]; rfl)).elim
  · exact (key _ rfl (by rw [he]; rfl)).elim
  · exact (key _ rfl (by rw [he]; rfl)).elim
  · exact (key _ rfl (by rw [he]; rfl)).elim
  · exact (key _ rfl (by rw [he]; rfl)).elim
  · exact ⟨_, rfl, by rw [he]⟩

/-! ### C119: handles of another registry -/

theorem reached_owns (as : List Action) : Owns (Process.start.exec as) := owns_exec as owns_start

/-- C119: a parsed file belongs to one registry only, even if another registry has loaded the same path. -/
theorem C119_files (as : List Action) {i j x : Nat} (hi : LoadedBy (Process.start.exec as) i x)
    (hj : LoadedBy (Process.start.exec as) j x) : i = j := apart_files (reached_owns as) hi hj

/-- C119: asked about a handle of another registry, `NodeIndex` answers the empty string, even if this registry has
    loaded the same file. -/
theorem C119_index (as : List Action) {i j : Nat} (hij : i ≠ j) {n : Node} (hn : BelongsTo (Process.start.exec as) i n) :
    (nodeIndex n ((Process.start.exec as).view j)).1 = .ok [] := by
  have key : ∀ q : Ptr, LoadedBy (Process.start.exec as) i q.file → ((Process.start.exec as).view j).scope (.at q) = [] :=
    fun q hq => foreign_scope (reached_owns as) hij hq
  cases n with
  | wrapped a k q =>
    have := key q hn
    simp only [nodeIndex, M.bind_apply, M.get_apply]
    cases k <;> simp only [this, M.pure_apply]
    cases ((Process.start.exec as).view j).kind q with
    | none => rfl
    | some k => cases k <;> rfl
  | oneof a q => simp only [nodeIndex, M.bind_apply, M.get_apply, key q hn, M.pure_apply]
  | map a q => simp only [nodeIndex, M.bind_apply, M.get_apply, key q hn, M.pure_apply]
  | option a q c f => rfl
  | repeated a t => rfl
  | builtin b => rfl
  | value v => rfl
  | mapItem k v => rfl

/-- C119: asked about a handle of another registry, no type is the one of the given name: `TypeIsGoogleProtobufAny`,
    `Timestamp` and so on are all false, even if this registry has loaded the same file. -/
theorem C119_type_is (as : List Action) {i j : Nat} (hij : i ≠ j) {n : Node} (hn : BelongsTo (Process.start.exec as) i n)
    (ref : Str) : (typeIsDefined n ref ((Process.start.exec as).view j)).1 = .ok false := by
  have key : ∀ q : Ptr, LoadedBy (Process.start.exec as) i q.file → ((Process.start.exec as).view j).registry ref ≠ some q :=
    fun q hq => foreign_name (reached_owns as) hij hq ref
  cases n with
  | wrapped a k q =>
    have := key q hn
    simp only [typeIsDefined, M.bind_apply, M.get_apply]
    cases k <;> simp [this]
  | _ => rfl

theorem foreign_resolve {p : Process} (h : Owns p) {i j : Nat} (hij : i ≠ j) {q : Ptr} (hq : LoadedBy p i q.file) (ref : Str) :
    resolveNameRaw (p.view j).defined ((p.view j).scope (.at q)) ref =
      (outermost ref, (p.view j).defined (outermost ref)) := by
  rw [foreign_scope h hij hq]
  by_cases hd : hasDotPrefix ref = true
  · have : outermost ref = ref := by
      cases ref with
      | nil => cases hd
      | cons b t =>
        have hb : b = 46 := by simpa [hasDotPrefix, dot] using hd
        subst hb
        rfl
    rw [this]
    simp only [resolveNameRaw, hd, if_true]
  · have : outermost ref = dot :: ref := by
      cases ref with
      | nil => rfl
      | cons b t =>
        unfold outermost
        split
        · next heq => cases heq; exact absurd rfl hd
        · rfl
    rw [this]
    have hd : hasDotPrefix ref = false := by simpa using hd
    rw [resolveNameRaw_rel _ _ _ hd]
    simp only [dotted, List.length_nil, resolveLoop, List.nil_append]
    by_cases hx : (p.view j).defined (dot :: ref) = true
    · simp [hx]
    · simp [hx]

/-- C119: asked for the type of a oneof branch of another registry, the reference is looked up as a fully qualified name,
    whatever package the branch is in: nil if this registry knows nothing of that name … -/
theorem C119_branch_nil (as : List Action) {i j : Nat} (hij : i ≠ j) {q : Ptr} (hq : LoadedBy (Process.start.exec as) i q.file)
    {nm ref : Str} {num : Int} (hk : ((Process.start.exec as).view j).kind q = some (.oneofField nm ref num))
    (hb : ∀ b : Builtin, ref ≠ b.keyword) (hn : ((Process.start.exec as).regs j).registry (outermost ref) = none) :
    (OneOfBranch.type q ((Process.start.exec as).view j)).1 = .ok none := by
  have hr := foreign_resolve (reached_owns as) hij hq ref
  have hn' : ((Process.start.exec as).view j).registry (outermost ref) = none := hn
  have hkw : builtinType ref = none := (not_keyword_iff ref).mp fun ⟨b, e⟩ => hb b (by rw [e]; cases b <;> rfl)
  have hf : ((Process.start.exec as).view j).defined (outermost ref) = false := by simp [Reg.defined, hn']
  rw [hf] at hr
  have hrep : ((Process.start.exec as).view j).isRepeatedField q = false := by simp only [Reg.isRepeatedField, hk]
  simp only [OneOfBranch.type, M.bind_apply, M.get_apply, hk, getTypeByName, lookupType, hkw, hr, M.pure_apply, hrep]
  rfl

/-- … and otherwise what `NodeByFullName` of this registry answers to that name. -/
theorem C119_branch_found (as : List Action) {i j : Nat} (hij : i ≠ j) {q : Ptr} (hq : LoadedBy (Process.start.exec as) i q.file)
    {nm ref : Str} {num : Int} (hk : ((Process.start.exec as).view j).kind q = some (.oneofField nm ref num))
    (hb : ∀ b : Builtin, ref ≠ b.keyword) {d : Ptr} (hn : ((Process.start.exec as).regs j).registry (outermost ref) = some d)
    {n : Node} {r' : Reg} (hf : nodeByFullName (outermost ref) ((Process.start.exec as).view j) = (.ok (some n), r'))
    (ht : n.isType = true) : (OneOfBranch.type q ((Process.start.exec as).view j)).1 = .ok (some n) := by
  have hr := foreign_resolve (reached_owns as) hij hq ref
  have hn' : ((Process.start.exec as).view j).registry (outermost ref) = some d := hn
  have hkw : builtinType ref = none := (not_keyword_iff ref).mp fun ⟨b, e⟩ => hb b (by rw [e]; cases b <;> rfl)
  have hd : ((Process.start.exec as).view j).defined (outermost ref) = true := by simp [Reg.defined, hn']
  rw [hd] at hr
  simp only [nodeByFullName, M.bind_apply, M.get_apply, hn'] at hf
  have hext : CacheExt ((Process.start.exec as).view j) r' := by
    have := (RO.wrap (.at d)).ext ((Process.start.exec as).view j)
    rw [hf] at this
    exact this
  have hk' : r'.kind q = some (.oneofField nm ref num) := by
    have : r'.kind q = ((Process.start.exec as).view j).kind q := by unfold Reg.kind Reg.elem; rw [hext.heap]
    rw [this, hk]
  have hrep : r'.isRepeatedField q = false := by simp only [Reg.isRepeatedField, hk']
  simp only [OneOfBranch.type, M.bind_apply, M.get_apply, hk, getTypeByName, lookupType, hkw, hr, hn', hf, ht, if_true,
    M.pure_apply, hrep]
  rfl

/-! ### An example -/

/-- A program with two registries that load the same file: registry 0 before registry 1 is created, and then in turns;
    registry 1 is also given a handle of registry 0. -/
def twoBefore : List Action := [.create 0 Ex.W 5, .call 0 0 (.proto Ex.W 5 Ex.pa)]
def twoAfter : List Action :=
  [.call 1 1 (.proto Ex.W 5 Ex.pa), .call 0 0 (.byName b!".p.q.M"), .call 1 1 (.byName b!".p.q.M"),
   .call 0 0 (.byName b!".p.q.M.left"), .call 0 0 (.query 1 (.plain .file)), .call 1 1 (.query 1 (.plain .file))]
def two : Process := Process.start.exec (twoBefore ++ .create 1 Ex.W 5 :: twoAfter)

/-- Both registries have the message, at different places and addresses; registry 1 answers as a lone registry does. -/
example : newRegistry Ex.W 5 = (.ok (.ok ()), Ex.r0) ∧ (∀ a ∈ twoAfter, a.OwnHandles 1) ∧
    two.pools 0 = [.wrapped 0 .file ⟨1, []⟩, .wrapped 2 .message ⟨1, [4]⟩, .wrapped 4 .oneofBranch ⟨1, [0, 3, 4]⟩,
      .wrapped 5 .file ⟨1, []⟩] ∧
    two.pools 1 = [.wrapped 1 .file ⟨4, []⟩, .wrapped 3 .message ⟨4, [4]⟩, .wrapped 6 .file ⟨4, []⟩] ∧
    Alike (Client.exec ⟨Ex.r0, []⟩ (callsOn 1 twoAfter)) (two.client 1) ∧ (callsOn 1 twoAfter).length = 3 := by
  have hown : ∀ a ∈ twoAfter, a.OwnHandles 1 := by
    intro a ha
    simp only [twoAfter, List.mem_cons, List.not_mem_nil, or_false] at ha
    rcases ha with rfl | rfl | rfl | rfl | rfl | rfl <;> simp [Action.OwnHandles]
  exact ⟨Ex.W_ok, hown, by rfl, by rfl, C118_isolated twoBefore twoAfter 1 Ex.W 5 Ex.W_ok hown, by rfl⟩

theorem two_left : two.pools 0 = [.wrapped 0 .file ⟨1, []⟩, .wrapped 2 .message ⟨1, [4]⟩,
    .wrapped 4 .oneofBranch ⟨1, [0, 3, 4]⟩, .wrapped 5 .file ⟨1, []⟩] := by rfl

theorem two_loaded : LoadedBy two 0 1 := ⟨Ex.pa, by rfl⟩

/-- Both registries have a handle for `M`, and they are different nodes. -/
example : (∀ a ∈ twoAfter, a.OwnHandles 0 ∧ a.OwnHandles 1) ∧ Node.wrapped 2 .message ⟨1, [4]⟩ ∈ two.pools 0 ∧
    Node.wrapped 3 .message ⟨4, [4]⟩ ∈ two.pools 1 ∧ ¬ GoEq (.wrapped 2 .message ⟨1, [4]⟩) (.wrapped 3 .message ⟨4, [4]⟩) := by
  have hown : ∀ a ∈ twoAfter, a.OwnHandles 0 ∧ a.OwnHandles 1 := by
    intro a ha
    simp only [twoAfter, List.mem_cons, List.not_mem_nil, or_false] at ha
    rcases ha with rfl | rfl | rfl | rfl | rfl | rfl <;> simp [Action.OwnHandles]
  have h1 : Node.wrapped 2 .message ⟨1, [4]⟩ ∈ two.pools 0 := List.mem_of_getElem? (i := 1) (by rfl)
  have h2 : Node.wrapped 3 .message ⟨4, [4]⟩ ∈ two.pools 1 := List.mem_of_getElem? (i := 1) (by rfl)
  refine ⟨hown, h1, h2, fun he => ?_⟩
  obtain ⟨b, h, -⟩ := C118_distinct [] [.call 0 0 (.proto Ex.W 5 Ex.pa)] twoAfter (i := 0) (j := 1) (by decide) Ex.W Ex.W 5 5
    Ex.W_ok Ex.W_ok (by intro a ha; simp only [List.mem_cons, List.not_mem_nil, or_false] at ha; subst ha; exact fun _ => rfl)
    hown h1 h2 he
  cases h

/-- Registry 0 knows its message as `.p.q.M`; registry 1, which has loaded the same file, answers that it has no index and
    is not `.p.q.M`. -/
example : BelongsTo two 0 (.wrapped 2 .message ⟨1, [4]⟩) ∧
    (nodeIndex (.wrapped 2 .message ⟨1, [4]⟩) (two.view 0)).1 = .ok b!".p.q.M" ∧
    (nodeIndex (.wrapped 2 .message ⟨1, [4]⟩) (two.view 1)).1 = .ok [] ∧
    (typeIsDefined (.wrapped 2 .message ⟨1, [4]⟩) b!".p.q.M" (two.view 0)).1 = .ok true ∧
    (typeIsDefined (.wrapped 2 .message ⟨1, [4]⟩) b!".p.q.M" (two.view 1)).1 = .ok false ∧
    (nodeIndex (.wrapped 3 .message ⟨4, [4]⟩) (two.view 1)).1 = .ok b!".p.q.M" :=
  ⟨two_loaded, by rfl, C119_index (twoBefore ++ .create 1 Ex.W 5 :: twoAfter) (i := 0) (by decide) two_loaded, by rfl,
    C119_type_is (twoBefore ++ .create 1 Ex.W 5 :: twoAfter) (i := 0) (by decide)
      (n := .wrapped 2 .message ⟨1, [4]⟩) two_loaded _, by rfl⟩

/-- The type of the branch `left` is `N`; registry 1 answers nil. -/
example : (two.view 1).kind ⟨1, [0, 3, 4]⟩ = some (.oneofField b!"left" b!"N" 4) ∧
    (∀ b : Builtin, (b!"N" : Str) ≠ b.keyword) ∧ (two.regs 1).registry (outermost b!"N") = none ∧
    (OneOfBranch.type ⟨1, [0, 3, 4]⟩ (two.view 1)).1 = .ok none ∧
    (OneOfBranch.type ⟨1, [0, 3, 4]⟩ (two.view 0)).1 = .ok (some (.wrapped 7 .message ⟨1, [5, 4]⟩)) := by
  have hb : ∀ b : Builtin, (b!"N" : Str) ≠ b.keyword := by intro b; cases b <;> decide
  exact ⟨by rfl, hb, by rfl, C119_branch_nil _ (i := 0) (j := 1) (by decide) two_loaded (by rfl) hb (by rfl), by rfl⟩

/-- A world with another message `N`, outside of any package. -/
def otherN : World := Ex.worldOf [(descriptorPath, Ex.descriptor), (b!"n.proto", [Ex.el b!"n.proto" 1 (.message b!"N" false)])]

/-- Registry 0 loads the example file, registry 1 the file with the other `N`. -/
def mixedUse : List Action :=
  [.create 0 Ex.W 5, .call 0 0 (.proto Ex.W 5 Ex.pa), .create 1 otherN 5, .call 1 1 (.proto otherN 5 b!"n.proto")]
def mixed : Process := Process.start.exec mixedUse

/-- Asked for the type of `left`, registry 1 answers the other `N`. -/
example : LoadedBy mixed 0 1 ∧ (mixed.regs 1).registry (outermost b!"N") = some ⟨4, [0]⟩ ∧
    (mixed.view 1).kind ⟨1, [0, 3, 4]⟩ = some (.oneofField b!"left" b!"N" 4) ∧
    (OneOfBranch.type ⟨1, [0, 3, 4]⟩ (mixed.view 1)).1 = .ok (some (.wrapped 2 .message ⟨4, [0]⟩)) ∧
    (OneOfBranch.type ⟨1, [0, 3, 4]⟩ (mixed.view 0)).1 = .ok (some (.wrapped 2 .message ⟨1, [5, 4]⟩)) := by
  have hb : ∀ b : Builtin, (b!"N" : Str) ≠ b.keyword := by intro b; cases b <;> decide
  have hl : LoadedBy mixed 0 1 := ⟨Ex.pa, by rfl⟩
  have hd : (mixed.regs 1).registry (outermost b!"N") = some ⟨4, [0]⟩ := by rfl
  exact ⟨hl, hd, by rfl, C119_branch_found mixedUse (i := 0) (j := 1) (by decide) (q := ⟨1, [0, 3, 4]⟩) hl (nm := b!"left") (num := 4) (by rfl) hb hd
    (r' := (nodeByFullName b!".N" (mixed.view 1)).2) (by rfl) (by rfl), by rfl⟩

end Protoast.Props
