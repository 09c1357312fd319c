import Verif.Spec.Disk
import Verif.Proof.Later
import Verif.Proof.NamesInv
/-
  Two loaders that read the same end in the same state.
-/
namespace Protoast

/-- The files of `s` are files of `R`. -/
def Below (s R : Reg) : Prop := (∃ l, R.heap = s.heap ++ l) ∧ ∀ p i, s.protos p = some i → R.protos p = some i

theorem Below.of_lext {a b R} (h : LExt a b) (g : Below b R) : Below a R := by
  obtain ⟨l, hl⟩ := h.heap
  obtain ⟨⟨l', hl'⟩, gp⟩ := g
  exact ⟨⟨l ++ l', by rw [hl', hl, List.append_assoc]⟩, fun p i e => gp p i (h.protos p i e)⟩

theorem Below.of_later {a b} (h : Later a b) : Below a b := ⟨h.heap, h.protos⟩

theorem Below.trans {a b c} (h : Below a b) (g : Below b c) : Below a c := by
  obtain ⟨⟨l, hl⟩, hp⟩ := h
  obtain ⟨⟨l', hl'⟩, gp⟩ := g
  exact ⟨⟨l ++ l', by rw [hl', hl, List.append_assoc]⟩, fun p i e => gp p i (hp p i e)⟩

/-- The same files are loaded. -/
def FilesEq (s R : Reg) : Prop := s.heap = R.heap ∧ s.protos = R.protos

theorem protoFileD_cases (D : Disk) (path : Str) (r : Reg) :
    (∃ i, r.protos path = some i ∧ protoFileD D path r = (.ok (.ok i), r)) ∨
    (r.protos path = none ∧ ∃ e, protoFileD D path r = (.ok (.error e), r)) ∨
    (r.protos path = none ∧ ∃ elems, protoFileD D path r = (.ok (.ok r.heap.length), addFile r path elems)) := by
  rcases protoFile_cases (D.now r.heap.length) path r with h | h | ⟨hn, _, elems, _, _, h⟩
  · exact .inl h
  · exact .inr (.inl h)
  · exact .inr (.inr ⟨hn, elems, h⟩)

theorem visitImportD_lext (D : Disk) : ∀ n path r, LExt r (visitImportD D n path r).2 := by
  intro n
  induction n with
  | zero => intro path r; exact LExt.refl r
  | succ n ih =>
    intro path r
    unfold visitImportD
    simp only [M.bind_apply, M.get_apply]
    cases hp : r.protos path with
    | some i => exact LExt.refl r
    | none =>
      simp only [M.bind_apply]
      rcases protoFileD_cases D path r with ⟨i, hi, h⟩ | ⟨_, e, h⟩ | ⟨hn, elems, h⟩
      · rw [hi] at hp; cases hp
      · rw [h]; exact LExt.refl r
      · rw [h]
        simp only
        rw [acceptFile_eq (f := ⟨path, elems⟩) (by simp [Protoast.addFile])]
        exact (LExt.addFile hn).trans (runActs_lext _ (fun f _ r => ih f r) _)

/-- A run ended well, or ended in `R`. -/
def Ends (E : Prop) (R : Reg) {α : Type} (out : Res α × Reg) : Prop :=
  Below out.2 R ∧ ((∃ u, out.1 = .ok u) ∨ (E ∧ FilesEq out.2 R))

theorem runActs_follow {imp imp' : Str → M Unit} {E : Prop} {R : Reg} {b : Nat} (hl : ∀ f s, LExt s (imp f s).2)
    (h : ∀ f s, b ≤ s.heap.length → Ends E R (imp f s) → imp' f s = imp f s) :
    ∀ as s, b ≤ s.heap.length → Ends E R (runActs imp as s) → runActs imp' as s = runActs imp as s := by
  intro as
  induction as with
  | nil => intro s _ _; rfl
  | cons a as ih =>
    intro s hb he
    have hla : LExt s (a.run imp s).2 := by
      cases a with
      | name t p => exact LExt.setName t p s
      | scope v t => exact LExt.setScope v t s
      | imp f => exact hl f s
    have key : Ends E R (a.run imp s) → a.run imp' s = a.run imp s := by
      cases a with
      | name t p => intro _; rfl
      | scope v t => intro _; rfl
      | imp f => exact h f s hb
    simp only [runActs, M.bind_apply] at he ⊢
    rcases hr : a.run imp s with ⟨res, s1⟩
    rw [hr] at he hla key
    cases res with
    | ok u =>
      simp only at he
      have hx := runActs_lext as (fun f _ r => hl f r) s1
      rw [key ⟨Below.of_lext hx he.1, .inl ⟨u, rfl⟩⟩]
      exact ih s1 (by have := hla.length; simp only at this; omega) he
    | panic p => rw [key he]
    | timeout => rw [key he]

/-- The worlds `D` and `W` give the same for the files that are read on the way to `R`. -/
structure Follows (D : Disk) (W : World) (b : Nat) (E : Prop) (R : Reg) : Prop where
  hit : ∀ p s elems, b ≤ s.heap.length → s.protos p = none →
    protoFileD D p s = (.ok (.ok s.heap.length), addFile s p elems) → Below (addFile s p elems) R →
    protoFile W p s = protoFileD D p s
  miss : ∀ p s e, b ≤ s.heap.length → s.protos p = none → protoFileD D p s = (.ok (.error e), s) → E → FilesEq s R →
    protoFile W p s = protoFileD D p s

theorem visitImport_follow {D W b E R} (hF : Follows D W b E R) : ∀ n path s, b ≤ s.heap.length →
    Ends E R (visitImportD D n path s) → visitImport W n path s = visitImportD D n path s := by
  intro n
  induction n with
  | zero => intro path s _ _; rfl
  | succ n ih =>
    intro path s hb he
    unfold visitImportD at he ⊢
    unfold visitImport
    simp only [M.bind_apply, M.get_apply] at he ⊢
    cases hp : s.protos path with
    | some i => rfl
    | none =>
      rw [hp] at he
      simp only [M.bind_apply] at he ⊢
      rcases protoFileD_cases D path s with ⟨i, hi, h'⟩ | ⟨_, e, h'⟩ | ⟨hn, elems, h'⟩
      · rw [hi] at hp; cases hp
      · rw [h'] at he
        have hs : E ∧ FilesEq s R := by
          rcases he.2 with ⟨u, hu⟩ | hs
          · cases hu
          · exact hs
        rw [hF.miss path s e hb hp h' hs.1 hs.2, h']
      · rw [h'] at he
        simp only at he
        rw [acceptFile_eq (f := ⟨path, elems⟩) (by simp [Protoast.addFile])] at he
        have hx := runActs_lext (imp := visitImportD D n) (fileActs .nilProto s.heap.length elems)
          (fun f _ r => visitImportD_lext D n f r) (addFile s path elems)
        rw [hF.hit path s elems hb hn h' (Below.of_lext hx he.1), h']
        simp only
        rw [acceptFile_eq (f := ⟨path, elems⟩) (by simp [Protoast.addFile]),
          acceptFile_eq (f := ⟨path, elems⟩) (by simp [Protoast.addFile])]
        exact runActs_follow (visitImportD_lext D n) ih _ _ (by simp [Protoast.addFile]; omega) he

/-- `file.Accept(v)` for a file that was just read. -/
theorem accept_follow {D W b E R} (hF : Follows D W b E R) (n : Nat) (key : Vis) (path : Str) (elems : List Elem) (s : Reg)
    (hb : b ≤ s.heap.length) (he : Ends E R (acceptFile (visitImportD D n) key s.heap.length (addFile s path elems))) :
    acceptFile (visitImport W n) key s.heap.length (addFile s path elems) =
      acceptFile (visitImportD D n) key s.heap.length (addFile s path elems) := by
  rw [acceptFile_eq (f := ⟨path, elems⟩) (by simp [Protoast.addFile])] at he
  rw [acceptFile_eq (f := ⟨path, elems⟩) (by simp [Protoast.addFile]),
    acceptFile_eq (f := ⟨path, elems⟩) (by simp [Protoast.addFile])]
  exact runActs_follow (visitImportD_lext D n) (visitImport_follow hF n) _ _ (by simp [Protoast.addFile]; omega) he

theorem acceptD_lext (D : Disk) (n : Nat) (key : Vis) {i : Nat} {r : Reg} {f : ProtoFile}
    (hf : r.heap[i]? = some f) : LExt r (acceptFile (visitImportD D n) key i r).2 := by
  rw [acceptFile_eq hf]
  exact runActs_lext _ (fun f _ r => visitImportD_lext D n f r) _

/-! ### A world that does not change is a disk that does not change -/

/-- The disk that always looks like `W`. -/
def World.still (W : World) : Disk := ⟨W.resolvers.map fun x => (x.name, fun _ => x.resolve), fun _ => W.load⟩

theorem still_now (W : World) (k : Nat) : W.still.now k = W := by
  unfold World.still Disk.now
  simp [Function.comp_def]

theorem protoFileD_still (W : World) : protoFileD W.still = protoFile W := by
  funext path r
  simp [protoFileD, still_now]

theorem visitImportD_still (W : World) : ∀ n, visitImportD W.still n = visitImport W n := by
  intro n
  induction n with
  | zero => rfl
  | succ n ih =>
    funext path
    unfold visitImportD visitImport
    rw [ih, protoFileD_still]
    rfl

theorem protoD_still (W : World) (fuel : Nat) (path : Str) : protoD W.still fuel path = proto W fuel path := by
  unfold protoD proto demarkFileD demarkFile
  rw [protoFileD_still, visitImportD_still]
  rfl

end Protoast
