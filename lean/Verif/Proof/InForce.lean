import Verif.Spec.InForce
import Verif.Proof.ActsDone
/-
  The visitor and files with package statements at any place.
-/
namespace Protoast

theorem acts_snd_flat {key : Vis} {e : Elem} {p : Ptr} {s : Str} (hf : e.flat = true)
    (hp : ∀ n, e.kind = .packageK n → n ≠ [] ∧ hasDotPrefix n = false) :
    (acts key e p s).2 = lastPackageDot [e] s := by
  by_cases hk : e.kind.notPackage = true
  · rw [acts_snd e p s hf hk]
    simp only [lastPackageDot]
    split
    · next n h => rw [h] at hk; simp [Kind.notPackage] at hk
    · rfl
  · rcases e with ⟨pos, c, k, cs⟩
    cases k <;> simp [Kind.notPackage] at hk
    next n =>
      have := hp n rfl
      simp [acts, packageScope, lastPackageDot, this.1, this.2]

theorem mem_actsAll_flat {key : Vis} {p : Ptr} {a : Act} : ∀ (es : List Elem) (n : Nat) (s : Str),
    (∀ e ∈ es, e.flat = true) → (∀ e ∈ es, ∀ n, e.kind = .packageK n → n ≠ [] ∧ hasDotPrefix n = false) →
    (a ∈ (actsAll key es p n s).1 ↔
      ∃ j e, es[j]? = some e ∧ a ∈ (acts key e (p.child (n + j)) (lastPackageDot (es.take j) s)).1) := by
  intro es
  induction es with
  | nil => intro n s _ _; simp [actsAll]
  | cons e es ih =>
    intro n s hf hp
    simp only [actsAll, List.mem_append]
    rw [acts_snd_flat (hf e (by simp)) (hp e (by simp)),
      ih (n + 1) _ (fun x hx => hf x (List.mem_cons_of_mem _ hx)) (fun x hx => hp x (List.mem_cons_of_mem _ hx))]
    constructor
    · rintro (h | ⟨j, e', h1, h2⟩)
      · exact ⟨0, e, rfl, by simpa [lastPackageDot] using h⟩
      · exact ⟨j + 1, e', by simpa using h1, by rw [show n + (j + 1) = n + 1 + j by omega]; exact h2⟩
    · rintro ⟨j, e', h1, h2⟩
      cases j with
      | zero => simp at h1; subst h1; exact .inl (by simpa [lastPackageDot] using h2)
      | succ j =>
        exact .inr ⟨j, e', by simpa using h1, by rw [show n + 1 + j = n + (j + 1) by omega]; exact h2⟩

theorem mem_fileActs_flat {key : Vis} {i : Nat} {path : Str} {elems : List Elem} (hw : FlatFile path elems)
    {a : Act} : a ∈ fileActs key i elems ↔ ∃ j e, elems[j]? = some e ∧
      a ∈ (acts key e ⟨i, [j]⟩ (lastPackageDot (elems.take j) [])).1 := by
  unfold fileActs
  rw [mem_actsAll_flat elems 0 [] hw.1 hw.2]
  simp [Ptr.child]

/-- What an action of a file says about names and scopes of declarations. -/
def ActInForce (f : ProtoFile) (i : Nat) : Act → Prop
  | .name s q => q.file = i ∧ f.nameInForce q.path = some s
  | .scope v s => ∀ q : Ptr, v = .at q → q.path ≠ [] → q.file = i ∧ f.nameInForce q.path = some s ∧
      ∃ e, f.elemAt q.path = some e ∧ e.kind.isEnumField = false
  | .imp _ => True

theorem placeScope_child {f : ProtoFile} {j m : Nat} {path : List Nat} {e : Elem} {s s' : Str}
    (he : f.elemAt (j :: path) = some e) (hs : f.placeScope (j :: path) = some s)
    (hm : e.kind.memberScope s = some s') : f.placeScope (m :: j :: path) = some s' := by
  simp only [ProtoFile.placeScope, hs, he, hm]

mutual
theorem acts_inForce {f : ProtoFile} {key : Vis} {i : Nat} (hkey : KeyOK key i) : (e : Elem) → (path : List Nat) →
    (j : Nat) → (s : Str) → f.elemAt (j :: path) = some e → f.placeScope (j :: path) = some s → e.flat = true →
    ∀ a ∈ (acts key e ⟨i, j :: path⟩ s).1, ActInForce f i a
  | .mk pos c k cs, path, j, s, he, hs, hf, a, ha => by
    have hfqn : ∀ n, k.declName = some n → f.nameInForce (j :: path) = some (s ++ dot :: n) := by
      intro n hn
      simp [ProtoFile.nameInForce, hs, he, hn]
    have hname : ∀ n, k.declName = some n → ActInForce f i (.name (scopedName s n) ⟨i, j :: path⟩) :=
      fun n hn => ⟨rfl, hfqn n hn⟩
    have hscope : ∀ n, k.declName = some n → k.isEnumField = false →
        ActInForce f i (.scope (.at ⟨i, j :: path⟩) (scopedName s n)) := by
      intro n hn hne q hq hp
      cases hq
      exact ⟨rfl, hfqn n hn, _, he, hne⟩
    have hcs := fun s' h => actsAll_inForce (f := f) hkey cs j path 0 s'
      (fun m c hc => by
        rw [Nat.zero_add]
        exact elemAt_child he (by simpa using hc)) (fun m => placeScope_child (m := m) he hs h)
      (by simpa [Elem.flat] using hf) a
    cases k with
    | message n ext =>
      cases ext with
      | true =>
        simp [acts] at ha
        exact hcs s rfl ha
      | false =>
        simp [acts] at ha
        rcases ha with rfl | rfl | ha
        · exact hname n rfl
        · exact hscope n rfl rfl
        · exact hcs _ rfl ha
    | service n =>
      simp [acts] at ha
      rcases ha with rfl | rfl | ha
      · exact hname n rfl
      · exact hscope n rfl rfl
      · exact hcs _ rfl ha
    | enum n =>
      simp [acts] at ha
      rcases ha with rfl | rfl | ha
      · exact hname n rfl
      · exact hscope n rfl rfl
      · exact hcs _ rfl ha
    | oneof n =>
      simp [acts] at ha
      rcases ha with rfl | rfl | ha
      · exact hname n rfl
      · exact hscope n rfl rfl
      · exact hcs _ rfl ha
    | packageK n =>
      simp [acts] at ha
      subst ha
      intro q hq hp
      rcases hkey with rfl | rfl
      · cases hq
      · cases hq; exact absurd rfl hp
    | importK g =>
      simp [acts] at ha
      subst ha
      trivial
    | enumField n v =>
      simp [acts] at ha
      subst ha
      exact hname n rfl
    | normalField n _ _ _ _ =>
      simp [acts] at ha
      rcases ha with rfl | rfl
      · exact hname n rfl
      · exact hscope n rfl rfl
    | mapField n _ _ _ =>
      simp [acts] at ha
      rcases ha with rfl | rfl
      · exact hname n rfl
      · exact hscope n rfl rfl
    | oneofField n _ _ =>
      simp [acts] at ha
      rcases ha with rfl | rfl
      · exact hname n rfl
      · exact hscope n rfl rfl
    | rpc n _ _ _ _ =>
      simp [acts] at ha
      rcases ha with rfl | rfl
      · exact hname n rfl
      · exact hscope n rfl rfl
    | _ => simp [acts] at ha
theorem actsAll_inForce {f : ProtoFile} {key : Vis} {i : Nat} (hkey : KeyOK key i) : (es : List Elem) → (j0 : Nat) →
    (path : List Nat) → (n : Nat) → (s : Str) →
    (∀ m c, es[m]? = some c → f.elemAt ((n + m) :: j0 :: path) = some c) →
    (∀ m, f.placeScope (m :: j0 :: path) = some s) → flatAll es = true →
    ∀ a ∈ (actsAll key es ⟨i, j0 :: path⟩ n s).1, ActInForce f i a
  | [], j0, path, n, s, _, _, _, a, ha => by simp [actsAll] at ha
  | e :: es, j0, path, n, s, he, hs, hf, a, ha => by
    have h0 := flatAll_mem hf e (by simp)
    simp only [flatAll, Bool.and_eq_true] at hf
    simp only [actsAll, List.mem_append] at ha
    rw [acts_snd e _ _ hf.1.2 h0.2.1] at ha
    rcases ha with ha | ha
    · exact acts_inForce hkey e (j0 :: path) n s (by simpa using he 0 e rfl) (hs n) h0.1 a ha
    · exact actsAll_inForce hkey es j0 path (n + 1) s (fun m c hc => by
        rw [show n + 1 + m = n + (m + 1) by omega]
        exact he (m + 1) c (by simpa using hc)) hs hf.2 a ha
end

theorem fileActs_inForce {f : ProtoFile} {path : Str} {key : Vis} {i : Nat} (hw : FlatFile path f.elems)
    (hkey : KeyOK key i) : ∀ a ∈ fileActs key i f.elems, ActInForce f i a := by
  intro a ha
  obtain ⟨j, e, hj, h⟩ := (mem_fileActs_flat hw).mp ha
  exact acts_inForce hkey e [] j _ (by simp [ProtoFile.elemAt, ProtoFile.childrenAt, hj]) rfl
    (hw.1 e (List.mem_of_getElem? hj)) a h

/-- Every member element is visited. -/
theorem visited_flat {f : ProtoFile} {fp : Str} {key : Vis} {i : Nat} (hw : FlatFile fp f.elems) :
    ∀ (path : List Nat) (j : Nat) (s : Str) (e : Elem), f.placeScope (j :: path) = some s →
      f.elemAt (j :: path) = some e →
      e.flat = true ∧ ∀ a ∈ (acts key e ⟨i, j :: path⟩ s).1, a ∈ fileActs key i f.elems := by
  intro path
  induction path with
  | nil =>
    intro j s e hs he
    simp only [ProtoFile.placeScope, Option.some.injEq] at hs
    subst hs
    simp only [ProtoFile.elemAt, ProtoFile.childrenAt, Option.bind_some] at he
    refine ⟨hw.1 e (List.mem_of_getElem? he), fun a ha => ?_⟩
    rw [mem_fileActs_flat hw]
    exact ⟨j, e, he, ha⟩
  | cons m rest ih =>
    intro j s e hs he
    simp only [ProtoFile.placeScope] at hs
    split at hs
    · next s0 e0 h1 h2 =>
      obtain ⟨hfl, hin⟩ := ih m s0 e0 h1 h2
      obtain ⟨es, hes, hj⟩ := elemAt_split he
      have hes' : es = e0.children := by
        obtain ⟨es0, hes0, hm0⟩ := elemAt_split h2
        simp only [ProtoFile.childrenAt, hes0, Option.bind_some, hm0, Option.map_some,
          Option.some.injEq] at hes
        exact hes.symm
      subst hes'
      rcases e0 with ⟨pos, c, k, cs⟩
      simp only [Elem.children_mk, Elem.kind_mk] at hj hs
      have hcs : flatAll cs = true := by simpa [Elem.flat] using hfl
      have hmem := List.mem_of_getElem? hj
      refine ⟨(flatAll_mem hcs e hmem).1, fun a ha => hin a ?_⟩
      have hall : a ∈ (actsAll key cs ⟨i, m :: rest⟩ 0 s).1 := by
        rw [mem_actsAll cs 0 (fun e he => ⟨(flatAll_mem hcs e he).1, (flatAll_mem hcs e he).2.1⟩)]
        exact ⟨j, e, hj, by simpa [Ptr.child] using ha⟩
      cases k with
      | message n ext =>
        cases ext with
        | true =>
          simp only [Kind.memberScope, Option.some.injEq] at hs
          subst hs
          simpa [acts] using hall
        | false =>
          simp only [Kind.memberScope, Option.some.injEq] at hs
          subst hs
          simp [acts]
          exact .inr (.inr hall)
      | service n =>
        simp only [Kind.memberScope, Option.some.injEq] at hs
        subst hs
        simp [acts]
        exact .inr (.inr hall)
      | enum n =>
        simp only [Kind.memberScope, Option.some.injEq] at hs
        subst hs
        simp [acts]
        exact .inr (.inr hall)
      | oneof n =>
        simp only [Kind.memberScope, Option.some.injEq] at hs
        subst hs
        simp [acts]
        exact .inr (.inr hall)
      | _ => simp [Kind.memberScope] at hs
    · cases hs

theorem fileActs_names {f : ProtoFile} {fp : Str} {key : Vis} {i : Nat} (hw : FlatFile fp f.elems)
    {path : List Nat} {name : Str} (h : f.nameInForce path = some name) :
    Act.name name ⟨i, path⟩ ∈ fileActs key i f.elems ∧
      ((∀ e, f.elemAt path = some e → ∀ n v, e.kind ≠ .enumField n v) →
        Act.scope (.at ⟨i, path⟩) name ∈ fileActs key i f.elems) := by
  cases path with
  | nil => simp [ProtoFile.nameInForce, ProtoFile.placeScope] at h
  | cons j rest =>
    simp only [ProtoFile.nameInForce] at h
    split at h
    · next s n hs hn =>
      cases h
      rw [Option.bind_eq_some_iff] at hn
      obtain ⟨e, he, hn⟩ := hn
      obtain ⟨_, hin⟩ := visited_flat (key := key) (i := i) hw rest j s e hs he
      rcases e with ⟨pos, c, k, cs⟩
      constructor
      · apply hin
        cases k with
        | message n ext =>
          cases ext <;> simp_all [Kind.declName, acts, scopedName]
        | _ => simp_all [Kind.declName, acts, scopedName]
      · intro hne
        apply hin
        have hne' := hne _ he
        cases k with
        | message n ext =>
          cases ext <;> simp_all [Kind.declName, acts, scopedName]
        | enumField n v => exact absurd rfl (hne' n v)
        | _ => simp_all [Kind.declName, acts, scopedName]
    · cases h

/-- What is recorded is right, for files with package statements anywhere. -/
structure SoundInForce (r : Reg) : Prop where
  flat : ∀ (i : Nat) (f : ProtoFile), r.heap[i]? = some f → FlatFile f.filename f.elems
  names : ∀ name p, r.registry name = some p → DeclaredInForce r name p
  scopes : ∀ p s, r.scopes (.at p) = some s → p.path ≠ [] → DeclaredInForce r s p
  holders : ∀ p s, r.scopes (.at p) = some s → p.path ≠ [] →
    ∃ f e, r.heap[p.file]? = some f ∧ f.elemAt p.path = some e ∧ e.kind.isEnumField = false

theorem stepInv_inForce : StepInv FlatFile SoundInForce where
  empty := ⟨(by intro i f h; simp [Reg.empty] at h), (by intro n p h; cases h), (by intro p s h; cases h),
    (by intro p s h; cases h)⟩
  query r r' hx h := by
    refine ⟨?_, ?_, ?_, ?_⟩
    · rw [hx.heap]; exact h.flat
    · unfold DeclaredInForce; rw [hx.registry, hx.heap]; exact h.names
    · unfold DeclaredInForce; rw [hx.scopes, hx.heap]; exact h.scopes
    · rw [hx.scopes, hx.heap]; exact h.holders
  add r path elems hw hn h := by
    have hle : HeapLe r (addFile r path elems) := ⟨_, rfl⟩
    refine ⟨?_, ?_, ?_, ?_⟩
    · intro i f hf
      simp only [addFile] at hf
      by_cases hi : i < r.heap.length
      · rw [List.getElem?_append_left hi] at hf
        exact h.flat i f hf
      · rw [List.getElem?_append_right (by omega)] at hf
        cases hk : i - r.heap.length with
        | zero => rw [hk] at hf; simp at hf; subst hf; exact hw
        | succ k => rw [hk] at hf; simp at hf
    · intro n p e
      obtain ⟨f, hf, hq⟩ := h.names n p e
      exact ⟨f, hle.file hf, hq⟩
    · intro p s e g
      obtain ⟨f, hf, hq⟩ := h.scopes p s e g
      exact ⟨f, hle.file hf, hq⟩
    · intro p s e g
      obtain ⟨f, el, hf, hs⟩ := h.holders p s e g
      exact ⟨f, el, hle.file hf, hs⟩
  name r i f key s p hf hk ha h := by
    have h1 := fileActs_inForce (h.flat i f hf) hk _ ha
    refine ⟨h.flat, ?_, h.scopes, h.holders⟩
    intro n q hq
    simp only [setName, M.modify_apply, upd] at hq
    split at hq
    · next hs =>
      cases hq
      subst hs
      exact ⟨f, by rw [h1.1]; exact hf, h1.2⟩
    · exact h.names n q hq
  scope r i f key v s hf hk ha h := by
    have h1 := fileActs_inForce (h.flat i f hf) hk _ ha
    refine ⟨h.flat, h.names, ?_, ?_⟩
    · intro q t hq hne
      simp only [setScope, M.modify_apply, upd] at hq
      split at hq
      · next hs =>
        cases hq
        obtain ⟨h2, h3, _⟩ := h1 q hs.symm hne
        exact ⟨f, by rw [h2]; exact hf, h3⟩
      · exact h.scopes q t hq hne
    · intro q t hq hne
      simp only [setScope, M.modify_apply, upd] at hq
      split at hq
      · next hs =>
        cases hq
        obtain ⟨h2, _, e, h3, h4⟩ := h1 q hs.symm hne
        exact ⟨f, e, by rw [h2]; exact hf, h3, h4⟩
      · exact h.holders q t hq hne

theorem reachable_inForce {c} (h : Reachable FlatFile c) : SoundInForce c.reg := reachable_induct stepInv_inForce h

theorem clean_names {c} (h : CleanReachable FlatFile c) {f : ProtoFile} {i : Nat} (hf : c.reg.heap[i]? = some f)
    {path : List Nat} {name : Str} (hn : f.nameInForce path = some name) :
    (c.reg.registry name).isSome = true ∧
      ((∀ e, f.elemAt path = some e → ∀ n v, e.kind ≠ .enumField n v) →
        (c.reg.scopes (.at ⟨i, path⟩)).isSome = true) := by
  obtain ⟨key, _, hd⟩ := clean_actsDone h i f hf
  have hw := (reachable_inForce (clean_reachable h)).flat i f hf
  have := fileActs_names (key := key) (i := i) hw hn
  exact ⟨hd _ this.1, fun hne => hd _ (this.2 hne)⟩

end Protoast
