import Verif.Proof.Inv
/-
  Loading preserves the invariant.
-/
namespace Protoast

theorem elem_child {r : Reg} {p : Ptr} {e c : Elem} {i : Nat} (h : r.elem p = some e)
    (hc : e.children[i]? = some c) : r.elem (p.child i) = some c := by
  unfold Reg.elem at *
  rw [Option.bind_eq_some_iff] at h
  obtain ⟨f, hf, he⟩ := h
  rw [Option.bind_eq_some_iff]
  refine ⟨f, hf, ?_⟩
  rcases p with ⟨fi, path⟩
  cases path with
  | nil => simp [ProtoFile.elemAt] at he
  | cons j rest =>
    simp only [ProtoFile.elemAt] at he
    simp only [Ptr.child, ProtoFile.elemAt, ProtoFile.childrenAt, he, Option.map_some,
      Option.bind_some]
    exact hc

theorem elem_top {r : Reg} {fi : Nat} {f : ProtoFile} {c : Elem} {i : Nat}
    (h : r.heap[fi]? = some f) (hc : f.elems[i]? = some c) :
    r.elem (Ptr.child ⟨fi, []⟩ i) = some c := by
  unfold Reg.elem
  rw [Option.bind_eq_some_iff]
  exact ⟨f, h, by simpa [Ptr.child, ProtoFile.elemAt, ProtoFile.childrenAt] using hc⟩

theorem elem_target {r : Reg} {q : Ptr} {e : Elem} {k : WKind} (he : r.elem q = some e)
    (hk : wrapKind e.kind = some k) : r.wrapTarget (.at q) = some (k, q) := by
  unfold Reg.wrapTarget
  have hne : q.path ≠ [] := by
    intro h0
    unfold Reg.elem at he
    rw [Option.bind_eq_some_iff] at he
    obtain ⟨f, _, hf⟩ := he
    rw [h0] at hf
    simp [ProtoFile.elemAt] at hf
  cases hp : q.path with
  | nil => exact absurd hp hne
  | cons i t => simp only [hp]; simp [Reg.kind, he, hk]

theorem setName_tri {o r} (hi : Inv o r) {s : Str} {p : Ptr} {e : Elem} {k : WKind}
    (he : r.elem p = some e) (hk : wrapKind e.kind = some k) (hr : Rooted r p) :
    Tri o r (setName s p) (fun _ _ _ => True) := by
  have hext : Ext o r o { r with registry := upd r.registry s p } := by
    refine Ext.mk' (fun _ _ h => h) ⟨[], by simp⟩ (fun _ _ h => h) ?_ (fun _ _ h => h)
      (fun _ _ h => h) (Nat.le_refl _)
    intro n q h
    by_cases hn : n = s
    · exact ⟨p, by simp [upd, hn]⟩
    · exact ⟨q, by simp [upd, hn, h]⟩
  refine ⟨o, hext, ?_, fun _ _ => trivial⟩
  refine ⟨hi.fresh, hi.cacheSome, hi.cacheNone, ?_, hi.cacheRooted, ?_, hi.protosHeap, hi.heapProtos,
    hi.ftKey, ?_, hi.ftCached, hi.scopeKey⟩
  · intro n q h
    by_cases hn : n = s
    · simp only [M.modify_apply, setName, upd, hn, ite_true, Option.some.injEq] at h
      subst h
      exact ⟨e, k, he, hk⟩
    · simp only [M.modify_apply, setName, upd, hn, ite_false] at h
      exact hi.regPtr n q h
  · intro n q h
    by_cases hn : n = s
    · simp only [M.modify_apply, setName, upd, hn, ite_true, Option.some.injEq] at h
      subst h
      exact hr
    · simp only [M.modify_apply, setName, upd, hn, ite_false] at h
      exact hi.regRooted n q h
  · intro a t h
    exact ⟨(hi.ftGood a t h).1, hext.good t (hi.ftGood a t h).2⟩

theorem setScope_tri {o r} (hi : Inv o r) {v : Vis} {s : Str} (hv : ScopeKey r v) :
    Tri o r (setScope v s) (fun _ _ _ => True) := by
  have hext : Ext o r o { r with scopes := upd r.scopes v s } :=
    Ext.mk' (fun _ _ h => h) ⟨[], by simp⟩ (fun _ _ h => h) (fun _ p h => ⟨p, h⟩) (fun _ _ h => h)
      (fun _ _ h => h) (Nat.le_refl _)
  refine ⟨o, hext, ?_, fun _ _ => trivial⟩
  refine ⟨hi.fresh, hi.cacheSome, hi.cacheNone, hi.regPtr, hi.cacheRooted, hi.regRooted,
    hi.protosHeap, hi.heapProtos, hi.ftKey, ?_, hi.ftCached, ?_⟩
  · intro a t h
    exact ⟨(hi.ftGood a t h).1, hext.good t (hi.ftGood a t h).2⟩
  · intro w t h
    by_cases hw : w = v
    · rw [hw]; exact hext.scopeKey hv
    · simp only [M.modify_apply, setScope, upd, hw, ite_false] at h
      exact hext.scopeKey (hi.scopeKey w t h)

/-- A computation that preserves the invariant from anywhere. -/
def Pres {α : Type} (m : M α) : Prop := ∀ o r, Inv o r → Tri o r m (fun _ _ _ => True)

theorem name_scope_tri {o r} (hi : Inv o r) {s t : Str} {p : Ptr} {e : Elem} {k : WKind}
    (he : r.elem p = some e) (hk : wrapKind e.kind = some k) (hr : Rooted r p) {α : Type} {f : M α}
    {Q : Ghost → Reg → α → Prop}
    (hf : ∀ o' r', Ext o r o' r' → Inv o' r' → Tri o' r' f Q) :
    Tri o r (do setName s p; setScope (.at p) t; f) Q := by
  refine Tri.bind (setName_tri hi he hk hr) fun o1 r1 _ _ h1 i1 _ => ?_
  refine Tri.bind (setScope_tri i1 (h1.scopeKey (.inr ⟨p, rfl, hr.under.live⟩))) fun o2 r2 _ _ h2 i2 _ => ?_
  exact hf o2 r2 (h1.trans h2) i2

mutual
theorem visit_tri {imp : Str → M Unit} (himp : ∀ s, Pres (imp s)) {key : Vis} :
    (e : Elem) → ∀ {o r}, Inv o r → ∀ {p : Ptr} {scope : Str}, r.elem p = some e → Under r p → ScopeKey r key →
      Tri o r (visit imp key e p scope) (fun _ _ _ => True)
  | .mk pos c k cs, o, r, hi, p, scope, he, hu, hkey => by
    have hroot : ∀ w, wrapKind k = some w → Rooted r p := fun w hw =>
      hu.rooted (elem_target he hw)
    have hcs : ∀ w, wrapKind k = some w → ∀ o' r' (s : Str), Ext o r o' r' → Inv o' r' →
        Tri o' r' (visitAll imp key cs p 0 s) (fun _ _ _ => True) := by
      intro w hw o' r' s hx hi'
      refine visitAll_tri himp cs hi' (hx.rooted (hroot w hw)) (hx.scopeKey hkey) ?_
      intro i c' hc
      rw [Nat.zero_add]
      exact elem_child (hx.elem he) hc
    unfold visit
    cases k with
    | message name ext =>
      cases ext with
      | true =>
        exact Tri.bind (hcs .message rfl o r scope (Ext.refl _ _) hi) fun o' r' _ _ _ hi' _ =>
          Tri.pure hi' trivial
      | false =>
        refine name_scope_tri hi he (k := .message) rfl (hroot _ rfl) fun o' r' hx hi' => ?_
        exact Tri.bind (hcs .message rfl o' r' _ hx hi') fun o' r' _ _ _ hi' _ => Tri.pure hi' trivial
    | service name =>
      refine Tri.bind (setName_tri hi he (k := .service) rfl (hroot _ rfl)) fun o1 r1 _ _ h1 i1 _ => ?_
      refine name_scope_tri i1 (h1.elem he) (k := .service) rfl (h1.rooted (hroot _ rfl)) fun o' r' hx hi' => ?_
      exact Tri.bind (hcs .service rfl o' r' _ (h1.trans hx) hi') fun o' r' _ _ _ hi' _ => Tri.pure hi' trivial
    | packageK name =>
      exact Tri.bind (setScope_tri hi hkey) fun o' r' _ _ _ hi' _ => Tri.pure hi' trivial
    | importK filename =>
      exact Tri.bind (himp filename o r hi) fun o' r' _ _ _ hi' _ => Tri.pure hi' trivial
    | normalField a b c d e =>
      exact name_scope_tri hi he (k := .messageField) rfl (hroot _ rfl) fun o' r' hx hi' => Tri.pure hi' trivial
    | enumField a b =>
      exact Tri.bind (setName_tri hi he (k := .enumValue) rfl (hroot _ rfl)) fun o' r' _ _ _ hi' _ =>
        Tri.pure hi' trivial
    | enum a =>
      exact name_scope_tri hi he (k := .enum) rfl (hroot _ rfl) fun o' r' hx hi' => hcs .enum rfl o' r' _ hx hi'
    | oneof a =>
      refine name_scope_tri hi he (k := .messageField) rfl (hroot _ rfl) fun o' r' hx hi' => ?_
      exact Tri.bind (hcs .messageField rfl o' r' _ hx hi') fun o' r' _ _ _ hi' _ => Tri.pure hi' trivial
    | oneofField a b c =>
      exact name_scope_tri hi he (k := .oneofBranch) rfl (hroot _ rfl) fun o' r' hx hi' => Tri.pure hi' trivial
    | rpc a b c d e =>
      exact name_scope_tri hi he (k := .method) rfl (hroot _ rfl) fun o' r' hx hi' => Tri.pure hi' trivial
    | mapField a b c d =>
      exact name_scope_tri hi he (k := .messageField) rfl (hroot _ rfl) fun o' r' hx hi' => Tri.pure hi' trivial
    | _ => exact Tri.pure hi trivial
theorem visitAll_tri {imp : Str → M Unit} (himp : ∀ s, Pres (imp s)) {key : Vis} :
    (es : List Elem) → ∀ {o r}, Inv o r → ∀ {p : Ptr} {n : Nat} {scope : Str}, Rooted r p → ScopeKey r key →
      (∀ i c, es[i]? = some c → r.elem (p.child (n + i)) = some c) →
      Tri o r (visitAll imp key es p n scope) (fun _ _ _ => True)
  | [], o, r, hi, p, n, scope, _, _, _ => by
    unfold visitAll
    exact Tri.pure hi trivial
  | e :: es, o, r, hi, p, n, scope, hp, hkey, he => by
    unfold visitAll
    refine Tri.bind (visit_tri himp e hi (he 0 e (by simp)) ⟨hp, fun _ => ⟨e, he 0 e (by simp)⟩⟩ hkey) fun o' r' s' _ hx hi' _ => ?_
    refine visitAll_tri himp es hi' (hx.rooted hp) (hx.scopeKey hkey) ?_
    intro i c hc
    have := he (i + 1) c (by simpa using hc)
    rw [show n + 1 + i = n + (i + 1) by omega]
    exact hx.elem this
end

theorem acceptFile_tri {imp : Str → M Unit} (himp : ∀ s, Pres (imp s)) {key : Vis} {i : Nat}
    {o r} (hi : Inv o r) (hkey : ScopeKey r key) : Tri o r (acceptFile imp key i) (fun _ _ _ => True) := by
  unfold acceptFile
  refine Tri.get ?_
  cases hf : r.heap[i]? with
  | none =>
    simp only [Reg.children, hf, Option.bind_none, Option.getD_none]
    exact Tri.pure hi trivial
  | some f =>
    refine Tri.bind (visitAll_tri himp _ hi (rooted_file (List.getElem?_eq_some_iff.mp hf).1) hkey ?_)
      fun o' r' _ _ _ hi' _ => Tri.pure hi' trivial
    intro j c hc
    unfold Reg.children at hc
    simp [hf, ProtoFile.childrenAt] at hc
    rw [Nat.zero_add]
    exact elem_top hf hc

/-- The state after a file was added. -/
def addFile (r : Reg) (path : Str) (elems : List Elem) : Reg :=
  { r with heap := r.heap ++ [⟨path, elems⟩], protos := upd r.protos path r.heap.length }

theorem addFile_ext {o : Ghost} {r : Reg} {path elems} (h : r.protos path = none) :
    Ext o r o (addFile r path elems) :=
  Ext.mk' (fun _ _ h => h) ⟨_, rfl⟩ (upd_of_none h) (fun _ p h => ⟨p, h⟩) (fun _ _ h => h)
    (fun _ _ h => h) (Nat.le_refl _)

theorem addFile_inv {o r} (hi : Inv o r) {path elems} (h : r.protos path = none) :
    Inv o (addFile r path elems) := by
  have hx := addFile_ext (o := o) (elems := elems) h
  refine ⟨hi.fresh, ?_, ?_, ?_, fun p n h => hx.rooted (hi.cacheRooted p n h),
    fun n p h => hx.rooted (hi.regRooted n p h), ?_, ?_, ?_, ?_, hi.ftCached,
    fun v s h => hx.scopeKey (hi.scopeKey v s h)⟩
  · intro v n hc
    obtain ⟨a, k, p, h1, h2, h3, h4⟩ := hi.cacheSome v n hc
    exact ⟨a, k, p, h1, h2, hx.target h3, h4⟩
  · intro v hc
    obtain ⟨h1, h2⟩ := hi.cacheNone v hc
    refine ⟨?_, fun p hp => hx.live (h2 p hp)⟩
    cases v
    case «at» p => rw [hx.target_eq (h2 p rfl).1]; exact h1
    all_goals rfl
  · intro n p hr
    obtain ⟨e, k, h1, h2⟩ := hi.regPtr n p hr
    exact ⟨e, k, hx.elem h1, h2⟩
  · intro s i hp
    simp only [addFile, upd] at hp
    split at hp
    · next hs =>
      cases hp
      exact ⟨⟨path, elems⟩, by simp [addFile], hs.symm⟩
    · obtain ⟨f, h1, h2⟩ := hi.protosHeap s i hp
      exact ⟨f, hx.file h1, h2⟩
  · intro i f hf
    simp only [addFile, upd]
    by_cases hlt : i < r.heap.length
    · have hf' : r.heap[i]? = some f := by rw [← hx.file_eq hlt]; exact hf
      have := hi.heapProtos i f hf'
      split
      · next hs => rw [hs, h] at this; cases this
      · exact this
    · have hi' : i = r.heap.length := by
        have := (List.getElem?_eq_some_iff.mp hf).1
        simp [addFile] at this
        omega
      subst hi'
      simp [addFile] at hf
      subst hf
      simp
  · intro a t hft
    obtain ⟨p, h1, h2⟩ := hi.ftKey a t hft
    exact ⟨p, h1, h2.imp (fun h => ⟨h.1, hx.nilType h.2⟩) hx.fieldShape⟩
  · intro a t hft
    exact ⟨(hi.ftGood a t hft).1, hx.good t (hi.ftGood a t hft).2⟩

/-- `protoFile` either leaves the state alone, or adds one file for a path not loaded before. -/
theorem protoFile_cases (W : World) (path : Str) (r : Reg) :
    (∃ i, r.protos path = some i ∧ protoFile W path r = (.ok (.ok i), r)) ∨
    (r.protos path = none ∧ ∃ e, protoFile W path r = (.ok (.error e), r)) ∨
    (r.protos path = none ∧ ∃ name elems, locate path W.resolvers = .ok name ∧
      W.load name path = .ok elems ∧
      protoFile W path r = (.ok (.ok r.heap.length), addFile r path elems)) := by
  unfold protoFile
  cases hp : r.protos path with
  | some i => exact .inl ⟨i, rfl, rfl⟩
  | none =>
    cases hl : locate path W.resolvers with
    | error e => exact .inr (.inl ⟨rfl, e, rfl⟩)
    | ok name =>
      simp only
      split
      · exact .inr (.inl ⟨trivial, _, rfl⟩)
      · cases hw : W.load name path with
        | error e => exact .inr (.inl ⟨trivial, _, rfl⟩)
        | ok elems => exact .inr (.inr ⟨trivial, name, elems, rfl, hw, rfl⟩)

theorem protoFile_tri {W path o r} (hi : Inv o r) :
    Tri o r (protoFile W path) (fun _ r' x => ∀ i, x = .ok i → r'.protos path = some i) := by
  rcases protoFile_cases W path r with ⟨i, h1, h2⟩ | ⟨h1, e, h2⟩ | ⟨h1, name, elems, hl, hw, h2⟩
  · rw [Tri, h2]
    refine ⟨o, Ext.refl _ _, hi, ?_⟩
    intro a ha j hj
    cases ha; cases hj; exact h1
  · rw [Tri, h2]
    refine ⟨o, Ext.refl _ _, hi, ?_⟩
    intro a ha j hj
    cases ha; cases hj
  · rw [Tri, h2]
    refine ⟨o, addFile_ext h1, addFile_inv hi h1, ?_⟩
    intro a ha j hj
    cases ha; cases hj
    simp [addFile, upd]

theorem visitImport_pres (W : World) : ∀ n s, Pres (visitImport W n s) := by
  intro n
  induction n with
  | zero =>
    intro s o r hi
    exact ⟨o, Ext.refl _ _, hi, fun _ _ => trivial⟩
  | succ n ih =>
    intro s o r hi
    unfold visitImport
    refine Tri.get ?_
    split
    · exact Tri.pure hi trivial
    · refine Tri.bind (protoFile_tri hi) fun o' r' x _ _ hi' _ => ?_
      cases x with
      | error e => exact Tri.panic hi'
      | ok i => exact acceptFile_tri ih hi' (.inl rfl)

theorem demarkFile_pres (W : World) (fuel : Nat) (path : Str) : Pres (demarkFile W fuel path) := by
  intro o r hi
  unfold demarkFile
  refine Tri.bind (protoFile_tri hi) fun o' r' x _ _ hi' hq => ?_
  cases x with
  | error e => exact Tri.pure hi' trivial
  | ok i =>
    obtain ⟨f, hf, _⟩ := hi'.protosHeap path i (hq i rfl)
    have hlive : Live r' ⟨i, []⟩ := ⟨(List.getElem?_eq_some_iff.mp hf).1, fun h => absurd rfl h⟩
    exact Tri.bind (acceptFile_tri (visitImport_pres W fuel) hi' (.inr ⟨_, rfl, hlive⟩)) fun o' r' _ _ _ hi' _ =>
      Tri.pure hi' trivial

theorem newFile_tri {o r} (hi : Inv o r) {i : Nat} (h : i < r.heap.length) :
    Tri o r (newFile i) (fun o' r' n => Good o' r' n ∧ ∃ a, n = .wrapped a .file ⟨i, []⟩) := by
  unfold newFile
  refine Tri.bind (Tri.alloc hi (fun a => .wrapped a .file ⟨i, []⟩)) fun o' r' a _ hx hi' hq => ?_
  refine Tri.pure hi' ⟨⟨hq.1, ?_, rooted_file (Nat.lt_of_lt_of_le h hx.length), fun h => absurd rfl h⟩, a, rfl⟩
  have := hx.length
  have hlt : i < r'.heap.length := by omega
  simp [Reg.wrapTarget, hlt]

theorem proto_tri {W fuel path o r} (hi : Inv o r) :
    Tri o r (proto W fuel path) (fun o' r' x => ∀ n, x = .ok n →
      Good o' r' n ∧ ∃ a i, n = .wrapped a .file ⟨i, []⟩ ∧ r'.protos path = some i) := by
  have hnew : ∀ {o r i}, Inv o r → r.protos path = some i →
      Tri o r (do let f ← newFile i; pure (Except.ok (ε := Err) f)) (fun o' r' x => ∀ n, x = .ok n →
      Good o' r' n ∧ ∃ a i, n = .wrapped a .file ⟨i, []⟩ ∧ r'.protos path = some i) := by
    intro o r i hi hp
    obtain ⟨f, hf, _⟩ := hi.protosHeap path i hp
    refine Tri.bind (newFile_tri hi (List.getElem?_eq_some_iff.mp hf).1)
      fun o' r' n _ hx hi' hq => Tri.pure hi' ?_
    intro m hm
    cases hm
    obtain ⟨h1, a, h2⟩ := hq
    exact ⟨h1, a, i, h2, hx.protos _ _ hp⟩
  unfold proto
  refine Tri.get ?_
  cases hp : r.protos path with
  | some i => exact hnew hi hp
  | none =>
    refine Tri.bind (demarkFile_pres W fuel path o r hi) fun o' r' x _ hx hi' _ => ?_
    cases x with
    | error e => exact Tri.pure hi' (by intro n hn; cases hn)
    | ok u =>
      refine Tri.get ?_
      cases hp' : r'.protos path with
      | some i => exact hnew hi' hp'
      | none => exact Tri.pure hi' (by intro n hn; cases hn)

theorem inv_empty : Inv (fun _ => none) Reg.empty := by
  refine ⟨?_, ?_, ?_, ?_, ?_, ?_, ?_, ?_, ?_, ?_, ?_, ?_⟩ <;> intros <;> simp_all [Reg.empty]

theorem newRegistry_inv {W fuel res r} (h : newRegistry W fuel = (res, r)) : ∃ o, Inv o r := by
  have := demarkFile_pres W fuel descriptorPath _ _ inv_empty
  have h2 : Tri (fun _ => none) Reg.empty (do
      match ← demarkFile W fuel descriptorPath with
      | .error e => pure (.error (.wrap b!"set up proto descriptor" e))
      | .ok () => pure (.ok ()) : M (Except Err Unit)) (fun _ _ _ => True) := by
    refine Tri.bind this fun o' r' x _ _ hi' _ => ?_
    cases x with
    | error e => exact Tri.pure hi' trivial
    | ok u => exact Tri.pure hi' trivial
  obtain ⟨o', _, hi, _⟩ := h2
  refine ⟨o', ?_⟩
  have : r = (newRegistry W fuel).2 := by rw [h]
  rw [this]
  exact hi

end Protoast
