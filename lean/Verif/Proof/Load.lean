import Verif.Proof.Acts
/-
  Termination of loading, independence of the step budget and of files that are already loaded, and
  failed loads.
-/
namespace Protoast

/-- Number of paths of `U` that are not loaded. -/
def pending (r : Reg) (U : List Str) : Nat := (U.filter fun s => (r.protos s).isNone).length

theorem filter_length_le {α} (p q : α → Bool) : ∀ (l : List α), (∀ a ∈ l, q a = true → p a = true) →
    (l.filter q).length ≤ (l.filter p).length := by
  intro l
  induction l with
  | nil => intro _; simp
  | cons a l ih =>
    intro h
    have := ih (fun b hb => h b (List.mem_cons_of_mem _ hb))
    have ha := h a (by simp)
    simp only [List.filter_cons]
    cases hq : q a <;> cases hp : p a <;> simp <;> simp_all <;> omega

theorem filter_length_lt {α} (p q : α → Bool) : ∀ (l : List α), (∀ a ∈ l, q a = true → p a = true) →
    ∀ x ∈ l, p x = true → q x = false → (l.filter q).length < (l.filter p).length := by
  intro l
  induction l with
  | nil => intro _ x hx; cases hx
  | cons a l ih =>
    intro h x hx hpx hqx
    have hle := filter_length_le p q l (fun b hb => h b (List.mem_cons_of_mem _ hb))
    have ha := h a (by simp)
    simp only [List.filter_cons]
    rcases List.mem_cons.mp hx with rfl | hx'
    · simp [hpx, hqx]; omega
    · have := ih (fun b hb => h b (List.mem_cons_of_mem _ hb)) x hx' hpx hqx
      cases hq : q a <;> cases hp : p a <;> simp <;> simp_all <;> omega

theorem pending_mono {r r' : Reg} {U : List Str} (h : LExt r r') : pending r' U ≤ pending r U := by
  refine filter_length_le _ _ U ?_
  intro s _ hs
  cases hp : r.protos s with
  | none => rfl
  | some i => rw [h.protos _ _ hp] at hs; exact hs

theorem pending_add {r : Reg} {U : List Str} {path elems} (hU : path ∈ U) (h : r.protos path = none) :
    pending (addFile r path elems) U < pending r U := by
  refine filter_length_lt _ _ U ?_ path hU (by simp [h]) (by simp [addFile, upd])
  intro s _ hs
  cases hp : r.protos s with
  | none => rfl
  | some i => rw [(LExt.addFile h).protos _ _ hp] at hs; exact hs

theorem pending_le (r : Reg) (U : List Str) : pending r U ≤ U.length := List.length_filter_le _ _

/-- Running a list of actions whose imports never time out does not time out. -/
theorem runActs_no_timeout {imp : Str → M Unit} {Q : Reg → Prop}
    (hQ : ∀ r r', Q r → LExt r r' → Q r') : ∀ (as : List Act),
    (∀ f, Act.imp f ∈ as → ∀ r, Q r → (imp f r).1 ≠ .timeout ∧ LExt r (imp f r).2) →
    ∀ r, Q r → (runActs imp as r).1 ≠ .timeout := by
  intro as
  induction as with
  | nil => intro _ r _ h; cases h
  | cons a as ih =>
    intro h r hr
    have ha : (a.run imp r).1 ≠ .timeout ∧ LExt r (a.run imp r).2 := by
      cases a with
      | name s p => exact ⟨(by intro h; cases h), LExt.setName s p r⟩
      | scope v s => exact ⟨(by intro h; cases h), LExt.setScope v s r⟩
      | imp f => exact h f (by simp) r hr
    simp only [runActs, M.bind_apply]
    rcases hr' : a.run imp r with ⟨res, r'⟩
    rw [hr'] at ha
    cases res with
    | ok u => exact ih (fun f hf => h f (List.mem_cons_of_mem _ hf)) r' (hQ _ _ hr ha.2)
    | panic p => intro h; cases h
    | timeout => exact absurd rfl ha.1

theorem visitImport_fuel {W : World} {U : List Str} (hU : ImportClosed W U) : ∀ n path r, path ∈ U →
    pending r U < n → (visitImport W n path r).1 ≠ .timeout ∧
      ∀ m, pending r U < m → visitImport W n path r = visitImport W m path r := by
  intro n
  induction n with
  | zero => intro path r _ h; omega
  | succ n ih =>
    intro path r hp hn
    rcases protoFile_cases W path r with ⟨i, hi, h⟩ | ⟨hnone, e, h⟩ | ⟨hnone, nm, elems, hloc, hload, h⟩
    · have hrun : ∀ m, 0 < m → visitImport W m path r = (.ok (), r) := by
        intro m hm
        cases m with
        | zero => omega
        | succ m => unfold visitImport; simp [hi]
      refine ⟨?_, fun m hm => ?_⟩
      · rw [hrun _ (by omega)]; intro h; cases h
      · rw [hrun _ (by omega), hrun _ (by omega)]
    · have hrun : ∀ m, 0 < m → visitImport W m path r = (.panic (.importFailed path e), r) := by
        intro m hm
        cases m with
        | zero => omega
        | succ m => unfold visitImport; simp [hnone, h]
      refine ⟨?_, fun m hm => ?_⟩
      · rw [hrun _ (by omega)]; intro h; cases h
      · rw [hrun _ (by omega), hrun _ (by omega)]
    · have hlt := pending_add (elems := elems) hp hnone
      have hrun : ∀ m, visitImport W (m + 1) path r =
          runActs (visitImport W m) (fileActs .nilProto r.heap.length elems) (addFile r path elems) := by
        intro m
        unfold visitImport
        simp only [M.bind_apply, M.get_apply, hnone, h]
        rw [acceptFile_eq (f := ⟨path, elems⟩) (by simp [Protoast.addFile])]
      have himp : ∀ f, Act.imp f ∈ fileActs .nilProto r.heap.length elems → f ∈ U := fun f hf =>
        hU path hp nm elems hloc hload f (actsAll_imports _ _ _ _ _ hf)
      have hQ : ∀ r1 r2, pending r1 U ≤ pending (addFile r path elems) U → LExt r1 r2 →
          pending r2 U ≤ pending (addFile r path elems) U := fun r1 r2 h1 h2 =>
        Nat.le_trans (pending_mono h2) h1
      refine ⟨?_, fun m hm => ?_⟩
      · rw [hrun]
        refine runActs_no_timeout hQ _ ?_ _ (Nat.le_refl _)
        intro f hf r1 hr1
        exact ⟨(ih f r1 (himp f hf) (by omega)).1, visitImport_lext W n f r1⟩
      · cases m with
        | zero => omega
        | succ m =>
          rw [hrun, hrun]
          refine runActs_congr hQ _ ?_ _ (Nat.le_refl _)
          intro f hf r1 hr1
          exact ⟨(ih f r1 (himp f hf) (by omega)).2 m (by omega), visitImport_lext W n f r1⟩

/-- What `Proto` does with a file that has just been read. -/
def protoNew (W : World) (fuel : Nat) (path : Str) (elems : List Elem) (r : Reg) :
    Res (Except Err Node) × Reg :=
  match runActs (visitImport W fuel) (fileActs (.at ⟨r.heap.length, []⟩) r.heap.length elems)
      (addFile r path elems) with
  | (.ok _, r') => (.ok (.ok (.wrapped r'.next .file ⟨r.heap.length, []⟩)),
      { r' with next := r'.next + 1 })
  | (.panic e, r') => (.panic e, r')
  | (.timeout, r') => (.timeout, r')

theorem proto_new {W : World} {path : Str} {r : Reg} {elems : List Elem} (hnone : r.protos path = none)
    (h : protoFile W path r = (.ok (.ok r.heap.length), addFile r path elems)) (fuel : Nat) :
    proto W fuel path r = protoNew W fuel path elems r := by
  unfold proto demarkFile protoNew
  simp only [M.bind_apply, M.get_apply, hnone, h]
  rw [acceptFile_eq (f := ⟨path, elems⟩) (by simp [Protoast.addFile])]
  have hl := runActs_lext (imp := visitImport W fuel)
    (fileActs (.at ⟨r.heap.length, []⟩) r.heap.length elems)
    (fun f _ r => visitImport_lext W fuel f r) (addFile r path elems)
  rcases hr : runActs (visitImport W fuel) (fileActs (.at ⟨r.heap.length, []⟩) r.heap.length elems)
      (addFile r path elems) with ⟨res, r'⟩
  rw [hr] at hl
  have hp' : r'.protos path = some r.heap.length := hl.protos _ _ (by simp [addFile, upd])
  cases res with
  | ok u => simp [hp', newFile]
  | panic e => rfl
  | timeout => rfl

/-- The outcomes of `Proto`. -/
theorem proto_cases (W : World) (path : Str) (r : Reg) :
    (∃ i, r.protos path = some i ∧ ∀ fuel, proto W fuel path r =
        (.ok (.ok (.wrapped r.next .file ⟨i, []⟩)), { r with next := r.next + 1 })) ∨
    (r.protos path = none ∧ ∃ e, ∀ fuel, proto W fuel path r = (.ok (.error e), r)) ∨
    (r.protos path = none ∧ ∃ name elems, locate path W.resolvers = .ok name ∧
      W.load name path = .ok elems ∧ ∀ fuel, proto W fuel path r = protoNew W fuel path elems r) := by
  rcases protoFile_cases W path r with ⟨i, hi, h⟩ | ⟨hnone, e, h⟩ | ⟨hnone, nm, elems, hloc, hload, h⟩
  · refine .inl ⟨i, hi, fun fuel => ?_⟩
    unfold proto newFile
    simp [hi]
  · refine .inr (.inl ⟨hnone, .wrap (b!"resolve proto file " ++ path) e, fun fuel => ?_⟩)
    unfold proto demarkFile
    simp only [M.bind_apply, M.get_apply, hnone, h, M.pure_apply]
  · exact .inr (.inr ⟨hnone, nm, elems, hloc, hload, fun fuel => proto_new hnone h fuel⟩)

theorem proto_fuel {W : World} {U : List Str} (hU : ImportClosed W U) {path : Str} (hp : path ∈ U)
    (r : Reg) {fuel : Nat} (hf : U.length ≤ fuel) :
    (proto W fuel path r).1 ≠ .timeout ∧
      ∀ fuel', U.length ≤ fuel' → proto W fuel path r = proto W fuel' path r := by
  rcases proto_cases W path r with ⟨i, hi, h⟩ | ⟨hnone, e, h⟩ | ⟨hnone, name, elems, hloc, hload, h⟩
  · exact ⟨(by rw [h]; intro h; cases h), fun fuel' hf' => by rw [h, h]⟩
  · exact ⟨(by rw [h]; intro h; cases h), fun fuel' hf' => by rw [h, h]⟩
  · have hlt := pending_add (elems := elems) hp hnone
    have hle := pending_le r U
    have himp : ∀ key i f, Act.imp f ∈ fileActs key i elems → f ∈ U := fun key i f hf =>
      hU path hp name elems hloc hload f (actsAll_imports _ _ _ _ _ hf)
    have hQ : ∀ r1 r2, pending r1 U < U.length → LExt r1 r2 → pending r2 U < U.length :=
      fun r1 r2 h1 h2 => Nat.lt_of_le_of_lt (pending_mono h2) h1
    refine ⟨?_, fun fuel' hf' => ?_⟩
    · have hnt := runActs_no_timeout (imp := visitImport W fuel) hQ
        (fileActs (.at ⟨r.heap.length, []⟩) r.heap.length elems) (by
          intro f hf r1 hr1
          exact ⟨(visitImport_fuel hU fuel f r1 (himp _ _ f hf) (by omega)).1,
            visitImport_lext W fuel f r1⟩) (addFile r path elems) (by omega)
      rw [h]
      unfold protoNew
      split
      · intro h; cases h
      · intro h; cases h
      · next heq => rw [heq] at hnt; exact absurd rfl hnt
    · rw [h, h]
      unfold protoNew
      rw [runActs_congr (imp := visitImport W fuel) (imp' := visitImport W fuel') hQ _ (by
          intro f hf r1 hr1
          exact ⟨(visitImport_fuel hU fuel f r1 (himp _ _ f hf) (by omega)).2 fuel' (by omega),
            visitImport_lext W fuel f r1⟩) (addFile r path elems) (by omega)]

theorem newRegistry_fuel {W : World} {U : List Str} (hU : ImportClosed W U) (hp : descriptorPath ∈ U)
    {fuel : Nat} (hf : U.length ≤ fuel) :
    (newRegistry W fuel).1 ≠ .timeout ∧
      ∀ fuel', U.length ≤ fuel' → newRegistry W fuel = newRegistry W fuel' := by
  unfold newRegistry demarkFile
  rcases protoFile_cases W descriptorPath Reg.empty with
    ⟨i, hi, h⟩ | ⟨hnone, e, h⟩ | ⟨hnone, name, elems, hloc, hload, h⟩
  · cases hi
  · refine ⟨?_, fun fuel' _ => ?_⟩
    · simp only [M.bind_apply, h, M.pure_apply]
      intro h; cases h
    · simp only [M.bind_apply, h, M.pure_apply]
  · have hlt := pending_add (elems := elems) hp hnone
    have hle := pending_le Reg.empty U
    have himp : ∀ key i f, Act.imp f ∈ fileActs key i elems → f ∈ U := fun key i f hf =>
      hU descriptorPath hp name elems hloc hload f (actsAll_imports _ _ _ _ _ hf)
    have hQ : ∀ r1 r2, pending r1 U < U.length → LExt r1 r2 → pending r2 U < U.length :=
      fun r1 r2 h1 h2 => Nat.lt_of_le_of_lt (pending_mono h2) h1
    have hacc : ∀ fuel, acceptFile (visitImport W fuel) (.at ⟨Reg.empty.heap.length, []⟩)
        Reg.empty.heap.length (addFile Reg.empty descriptorPath elems) =
        runActs (visitImport W fuel) (fileActs (.at ⟨Reg.empty.heap.length, []⟩) Reg.empty.heap.length elems)
          (addFile Reg.empty descriptorPath elems) := fun fuel =>
      acceptFile_eq (f := ⟨descriptorPath, elems⟩) (by simp [Protoast.addFile])
    refine ⟨?_, fun fuel' hf' => ?_⟩
    · have hnt := runActs_no_timeout (imp := visitImport W fuel) hQ
        (fileActs (.at ⟨Reg.empty.heap.length, []⟩) Reg.empty.heap.length elems) (by
          intro f hf r1 hr1
          exact ⟨(visitImport_fuel hU fuel f r1 (himp _ _ f hf) (by omega)).1,
            visitImport_lext W fuel f r1⟩) (addFile Reg.empty descriptorPath elems) (by omega)
      simp only [M.bind_apply, h, hacc]
      rcases hr : runActs (visitImport W fuel)
        (fileActs (.at ⟨Reg.empty.heap.length, []⟩) Reg.empty.heap.length elems)
          (addFile Reg.empty descriptorPath elems) with ⟨res, r'⟩
      rw [hr] at hnt
      cases res with
      | ok u => simp
      | panic p => simp
      | timeout => exact absurd rfl hnt
    · simp only [M.bind_apply, h, hacc]
      rw [runActs_congr (imp := visitImport W fuel) (imp' := visitImport W fuel') hQ _ (by
          intro f hf r1 hr1
          exact ⟨(visitImport_fuel hU fuel f r1 (himp _ _ f hf) (by omega)).2 fuel' (by omega),
            visitImport_lext W fuel f r1⟩) (addFile Reg.empty descriptorPath elems) (by omega)]

/-! ### Files that are already loaded are not read again -/

theorem protoFile_agree {W W' : World} {r : Reg} (h : AgreeOutside r W W') (path : Str) :
    protoFile W path r = protoFile W' path r := by
  unfold protoFile
  cases hp : r.protos path with
  | some i => rfl
  | none => simp only [(h path hp).1, (h path hp).2]

theorem agree_mono {W W' : World} (r r' : Reg) (h : AgreeOutside r W W') (hx : LExt r r') :
    AgreeOutside r' W W' := by
  intro path hp
  refine h path ?_
  cases hq : r.protos path with
  | none => rfl
  | some i => rw [hx.protos _ _ hq] at hp; cases hp

theorem visitImport_agree {W W' : World} : ∀ n path r, AgreeOutside r W W' →
    visitImport W n path r = visitImport W' n path r := by
  intro n
  induction n with
  | zero => intro path r _; rfl
  | succ n ih =>
    intro path r h
    unfold visitImport
    simp only [M.bind_apply, M.get_apply]
    cases hp : r.protos path with
    | some i => rfl
    | none =>
      simp only [M.bind_apply, ← protoFile_agree h]
      rcases protoFile_cases W path r with ⟨i, hi, h'⟩ | ⟨_, e, h'⟩ | ⟨hn, nm, elems, _, _, h'⟩
      · rw [hi] at hp; cases hp
      · rw [h']
      · rw [h']
        simp only
        rw [acceptFile_eq (f := ⟨path, elems⟩) (by simp [Protoast.addFile]),
          acceptFile_eq (f := ⟨path, elems⟩) (by simp [Protoast.addFile])]
        refine runActs_congr agree_mono _ ?_ _ (agree_mono _ _ h (LExt.addFile hn))
        intro f _ r1 hr1
        exact ⟨ih f r1 hr1, visitImport_lext W n f r1⟩

theorem proto_agree {W W' : World} {r : Reg} (h : AgreeOutside r W W') (fuel : Nat) (path : Str) :
    proto W fuel path r = proto W' fuel path r := by
  unfold proto demarkFile
  simp only [M.bind_apply, M.get_apply]
  cases hp : r.protos path with
  | some i => rfl
  | none =>
    simp only [M.bind_apply, ← protoFile_agree h]
    rcases protoFile_cases W path r with ⟨i, hi, h'⟩ | ⟨_, e, h'⟩ | ⟨hn, nm, elems, _, _, h'⟩
    · rw [hi] at hp; cases hp
    · rw [h']
    · rw [h']
      simp only [M.bind_apply]
      rw [acceptFile_eq (f := ⟨path, elems⟩) (by simp [Protoast.addFile]),
        acceptFile_eq (f := ⟨path, elems⟩) (by simp [Protoast.addFile])]
      rw [runActs_congr (imp := visitImport W fuel) (imp' := visitImport W' fuel) agree_mono _ (by
        intro f _ r1 hr1
        exact ⟨visitImport_agree fuel f r1 hr1, visitImport_lext W fuel f r1⟩) _
        (agree_mono _ _ h (LExt.addFile hn))]

end Protoast
