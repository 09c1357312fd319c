import Verif.Proof.NamesInv
import Verif.Proof.Later
/-
  Where the contents of newly loaded files come from, and one more step of a clean history.
-/
namespace Protoast

theorem locate_readable {path loc} : ∀ {rs : List Resolver}, locate path rs = .ok loc → loc ≠ [] →
    ∃ R, FirstHit rs path R ∧ R.resolve path = .ok loc := by
  intro rs
  induction rs with
  | nil => intro h hne; cases h; exact absurd rfl hne
  | cons R rs ih =>
    intro h hne
    unfold locate at h
    split at h
    · next e he =>
      split at h
      · next hn =>
        obtain ⟨R', ⟨pre, post, e1, e2, e3⟩, h2⟩ := ih h hne
        refine ⟨R', ⟨R :: pre, post, by simp [e1], ?_, e3⟩, h2⟩
        intro R'' hm
        rcases List.mem_cons.mp hm with rfl | hm
        · exact ⟨e, he, hn⟩
        · exact e2 R'' hm
      · cases h
    · next nm he =>
      cases h
      refine ⟨R, ⟨[], rs, rfl, ?_, ?_⟩, he⟩
      · intro R' h'; cases h'
      · intro e h'; rw [he] at h'; cases h'

theorem readable_locate {W : World} {path elems} (h : Readable W path elems) :
    ∃ loc, locate path W.resolvers = .ok loc ∧ loc ≠ [] ∧ W.load loc path = .ok elems := by
  obtain ⟨R, loc, ⟨pre, post, e1, e2, e3⟩, h2, h3, h4⟩ := h
  refine ⟨loc, ?_, h3, h4⟩
  rw [e1]
  clear e1
  induction pre with
  | nil => simp [locate, h2]
  | cons R' pre ih =>
    obtain ⟨e, he, hne⟩ := e2 R' (by simp)
    simp only [List.cons_append, locate, he, hne, if_true]
    exact ih fun R'' h => e2 R'' (List.mem_cons_of_mem _ h)

theorem readable_unique {W : World} {path a b} (h : Readable W path a) (g : Readable W path b) : a = b := by
  obtain ⟨l, h1, _, h3⟩ := readable_locate h
  obtain ⟨l', g1, _, g3⟩ := readable_locate g
  rw [h1] at g1; cases g1
  rw [h3] at g3; cases g3; rfl

theorem protoFile_readable {W : World} {path elems} {r : Reg} (hn : r.protos path = none)
    (h : protoFile W path r = (.ok (.ok r.heap.length), addFile r path elems)) : Readable W path elems := by
  unfold protoFile at h
  rw [hn] at h
  simp only at h
  cases hl : locate path W.resolvers with
  | error e => rw [hl] at h; cases h
  | ok loc =>
    rw [hl] at h
    simp only at h
    split at h
    · cases h
    · next hne =>
      cases hw : W.load loc path with
      | error e => rw [hw] at h; cases h
      | ok es =>
        rw [hw] at h
        simp only [Prod.mk.injEq] at h
        have h2 : (r.heap ++ [⟨path, es⟩]) = (addFile r path elems).heap := by rw [← h.2]
        simp only [addFile, List.append_cancel_left_eq, List.cons.injEq, ProtoFile.mk.injEq,
          true_and, and_true] at h2
        subst h2
        obtain ⟨R, h1, h2⟩ := locate_readable hl hne
        exact ⟨R, loc, h1, h2, hne, hw⟩

/-- Every file from index `b` on has the contents the world gives. -/
def NewFrom (W : World) (b : Nat) (r : Reg) : Prop :=
  ∀ (i : Nat) (f : ProtoFile), b ≤ i → r.heap[i]? = some f → Readable W f.filename f.elems

theorem newFrom_self (W : World) (r : Reg) : NewFrom W r.heap.length r := by
  intro i f hi hf
  rw [List.getElem?_eq_none hi] at hf; cases hf

theorem NewFrom.trans {W : World} {b : Nat} {r r' : Reg} (h : NewFrom W b r)
    (hx : LExt r r') (g : NewFrom W r.heap.length r') : NewFrom W b r' := by
  intro i f hi hf
  by_cases hlt : i < r.heap.length
  · rw [hx.file_eq hlt] at hf; exact h i f hi hf
  · exact g i f (by omega) hf

theorem runActs_newFrom {W : World} {imp : Str → M Unit} (hl : ∀ g r, LExt r (imp g r).2)
    (himp : ∀ g r, NewFrom W r.heap.length (imp g r).2) : ∀ (as : List Act) (b : Nat) (r : Reg),
    NewFrom W b r → NewFrom W b (runActs imp as r).2 := by
  intro as
  induction as with
  | nil => intro b r h; exact h
  | cons a as ih =>
    intro b r h
    have ha : NewFrom W b (a.run imp r).2 := by
      cases a with
      | name s p => exact h
      | scope v s => exact h
      | imp f => exact h.trans (hl f r) (himp f r)
    simp only [runActs, M.bind_apply]
    rcases hr : a.run imp r with ⟨res, r'⟩
    rw [hr] at ha
    cases res with
    | ok u => exact ih b r' ha
    | panic p => exact ha
    | timeout => exact ha

theorem addFile_newFrom {W : World} {r : Reg} {path elems} (h : Readable W path elems) :
    NewFrom W r.heap.length (addFile r path elems) := by
  intro i f hi hf
  simp only [addFile] at hf
  have h1 := (List.getElem?_eq_some_iff.mp hf).1
  simp only [List.length_append, List.length_cons, List.length_nil] at h1
  have : i = r.heap.length := by omega
  subst this
  simp at hf
  subst hf
  exact h

theorem visitImport_newFrom (W : World) : ∀ n path r,
    NewFrom W r.heap.length (visitImport W n path r).2 := by
  intro n
  induction n with
  | zero => intro path r; exact newFrom_self W r
  | succ n ih =>
    intro path r
    unfold visitImport
    simp only [M.bind_apply, M.get_apply]
    cases hp : r.protos path with
    | some i => exact newFrom_self W r
    | none =>
      simp only [M.bind_apply]
      rcases protoFile_cases W path r with ⟨i, hi, h⟩ | ⟨_, e, h⟩ | ⟨hn, nm, elems, _, _, h⟩
      · rw [hi] at hp; cases hp
      · rw [h]; exact newFrom_self W r
      · have hrd := protoFile_readable hn h
        rw [h]
        simp only
        rw [acceptFile_eq (f := ⟨path, elems⟩) (by simp [Protoast.addFile])]
        exact runActs_newFrom (visitImport_lext W n) ih _ _ _ (addFile_newFrom hrd)

theorem proto_newFrom (W : World) (fuel : Nat) (path : Str) (r : Reg) :
    NewFrom W r.heap.length (proto W fuel path r).2 := by
  rcases protoFile_cases W path r with ⟨i, hi, h⟩ | ⟨hn, e, h⟩ | ⟨hn, nm, elems, _, _, h⟩
  · rcases proto_cases W path r with ⟨i, _, h⟩ | ⟨hnone, _⟩ | ⟨hnone, _⟩
    · rw [h]; exact newFrom_self W r
    · rw [hi] at hnone; cases hnone
    · rw [hi] at hnone; cases hnone
  · unfold proto demarkFile
    simp only [M.bind_apply, M.get_apply, hn, h, M.pure_apply]
    exact newFrom_self W r
  · have hrd := protoFile_readable hn h
    rw [proto_new hn h]
    have := runActs_newFrom (visitImport_lext W fuel) (visitImport_newFrom W fuel)
      (fileActs (.at ⟨r.heap.length, []⟩) r.heap.length elems) _ _ (addFile_newFrom (r := r) hrd)
    unfold protoNew
    rcases hr : runActs (visitImport W fuel) (fileActs (.at ⟨r.heap.length, []⟩) r.heap.length elems)
      (addFile r path elems) with ⟨res, r'⟩
    rw [hr] at this
    cases res <;> exact this

/-! ### One more step -/

theorem loadsOK_append : ∀ {as : List Op} {c : Client} {bs : List Op}, LoadsOK c as →
    LoadsOK (c.exec as) bs → LoadsOK c (as ++ bs) := by
  intro as
  induction as with
  | nil => intro c bs _ h; exact h
  | cons a as ih =>
    intro c bs h g
    exact ⟨h.1, ih h.2 g⟩

theorem clean_exec {P c} (h : CleanReachable P c) (ops : List Op) (hs : ∀ op ∈ ops, Op.Sat P op)
    (hl : LoadsOK c ops) : CleanReachable P (c.exec ops) := by
  obtain ⟨W, fuel, r, ops', h1, h2, h3, h4, rfl⟩ := h
  refine ⟨W, fuel, r, ops' ++ ops, h1, h2, ?_, loadsOK_append h4 hl, by rw [exec_append]⟩
  intro op hop
  rcases List.mem_append.mp hop with h | h
  · exact h3 op h
  · exact hs op h

/-- After a `Proto` call that returned a file. -/
theorem clean_proto {P c W fuel path n r'} (h : CleanReachable P c) (hW : W.Sat P)
    (e : proto W fuel path c.reg = (.ok (.ok n), r')) : CleanReachable P ⟨r', c.pool ++ [n]⟩ := by
  have := clean_exec h [.proto W fuel path] (by simpa [Op.Sat] using hW) ⟨⟨.ok n, by rw [e]⟩, trivial⟩
  have he : c.exec [.proto W fuel path] = ⟨r', c.pool ++ [n]⟩ := by
    simp [Client.exec, Client.step, Op.run, e]
  rw [he] at this
  exact this

theorem reach_proto {P c W fuel path n r'} (h : Reachable P c) (hW : W.Sat P)
    (e : proto W fuel path c.reg = (.ok (.ok n), r')) : Reachable P ⟨r', c.pool ++ [n]⟩ := by
  have := reachable_exec h [.proto W fuel path] (by simpa [Op.Sat] using hW)
  have he : c.exec [.proto W fuel path] = ⟨r', c.pool ++ [n]⟩ := by
    simp [Client.exec, Client.step, Op.run, e]
  rw [he] at this
  exact this

/-- The path a successful `Proto` call was asked for is loaded. -/
theorem proto_ok_protos {W fuel path r n r'} (h : proto W fuel path r = (.ok (.ok n), r')) :
    (r'.protos path).isSome = true := by
  rcases proto_cases W path r with ⟨i, hi', e⟩ | ⟨_, er, e⟩ | ⟨hnone, name, elems, _, _, e⟩
  · rw [e] at h; cases h; simp [hi']
  · rw [e] at h; cases h
  · rw [e] at h
    unfold protoNew at h
    have hl := runActs_lext (imp := visitImport W fuel)
      (fileActs (.at ⟨r.heap.length, []⟩) r.heap.length elems)
      (fun f _ r => visitImport_lext W fuel f r) (addFile r path elems)
    rcases hrun : runActs (visitImport W fuel)
      (fileActs (.at ⟨r.heap.length, []⟩) r.heap.length elems) (addFile r path elems) with ⟨res, r1⟩
    rw [hrun] at h hl
    cases res with
    | ok u =>
      cases h
      have : r1.protos path = some r.heap.length := hl.protos _ _ (by simp [addFile, upd])
      simp [this]
    | panic e => cases h
    | timeout => cases h

/-- In a complete registry everything reachable through imports is loaded. -/
theorem complete_reach {r} (hc : Complete r) {path q} (hp : (r.protos path).isSome = true)
    (h : ImportReach r path q) : (r.protos q).isSome = true := by
  induction h with
  | refl => exact hp
  | step _ hi' _ =>
    obtain ⟨i, f, h1, h2, h3⟩ := hi'
    exact (hc i f (Nat.zero_le _) h2).imports _ h3

end Protoast
