import Verif.Proof.InvLoad
import Verif.Spec.Imports
/-
  The visitor performs a list of actions that does not depend on the registry.
-/
namespace Protoast

/-- One effect of the visitor. -/
inductive Act where
  | name (s : Str) (p : Ptr)
  | scope (v : Vis) (s : Str)
  | imp (f : Str)
deriving DecidableEq

/-- Perform an action. -/
def Act.run (imp : Str → M Unit) : Act → M Unit
  | .name s p => setName s p
  | .scope v s => setScope v s
  | .imp f => imp f

/-- Perform a list of actions. -/
def runActs (imp : Str → M Unit) : List Act → M Unit
  | [] => pure ()
  | a :: as => do a.run imp; runActs imp as

mutual
/-- The actions of `visit` and the scope it returns. -/
def acts (key : Vis) : Elem → Ptr → Str → List Act × Str
  | .mk _ _ k cs, p, scope =>
    match k with
    | .message name isExtend =>
      if isExtend then ((actsAll key cs p 0 scope).1, scope)
      else
        (.name (scopedName scope name) p :: .scope (.at p) (scopedName scope name) ::
          (actsAll key cs p 0 (scopedName scope name)).1, scope)
    | .service name =>
      (.name (scopedName scope name) p :: .name (scopedName scope name) p ::
        .scope (.at p) (scopedName scope name) ::
          (actsAll key cs p 0 (scopedName scope name)).1, scope)
    | .packageK name => ([.scope key (packageScope scope name)], packageScope scope name)
    | .importK f => ([.imp f], scope)
    | .normalField name _ _ _ _ =>
      ([.name (scopedName scope name) p, .scope (.at p) (scopedName scope name)], scope)
    | .enumField name _ => ([.name (scopedName scope name) p], scope)
    | .enum name =>
      (.name (scopedName scope name) p :: .scope (.at p) (scopedName scope name) ::
        (actsAll key cs p 0 scope).1, (actsAll key cs p 0 scope).2)
    | .oneof name =>
      (.name (scopedName scope name) p :: .scope (.at p) (scopedName scope name) ::
        (actsAll key cs p 0 scope).1, scope)
    | .oneofField name _ _ =>
      ([.name (scopedName scope name) p, .scope (.at p) (scopedName scope name)], scope)
    | .rpc name _ _ _ _ =>
      ([.name (scopedName scope name) p, .scope (.at p) (scopedName scope name)], scope)
    | .mapField name _ _ _ =>
      ([.name (scopedName scope name) p, .scope (.at p) (scopedName scope name)], scope)
    | _ => ([], scope)
/-- The actions of `visitAll` and the scope it returns. -/
def actsAll (key : Vis) : List Elem → Ptr → Nat → Str → List Act × Str
  | [], _, _, scope => ([], scope)
  | e :: es, p, n, scope =>
    ((acts key e (p.child n) scope).1 ++ (actsAll key es p (n + 1) (acts key e (p.child n) scope).2).1,
      (actsAll key es p (n + 1) (acts key e (p.child n) scope).2).2)
end

theorem M.pure_bind' {α β} (a : α) (f : α → M β) : ((Pure.pure a : M α) >>= f) = f a := rfl

theorem M.bind_assoc' {α β γ} (m : M α) (f : α → M β) (g : β → M γ) :
    ((m >>= f) >>= g) = (m >>= fun a => f a >>= g) := by
  funext r
  simp only [M.bind_apply]
  rcases m r with ⟨res, r'⟩
  cases res <;> rfl

theorem runActs_append (imp : Str → M Unit) (as bs : List Act) :
    runActs imp (as ++ bs) = (do runActs imp as; runActs imp bs) := by
  induction as with
  | nil => rfl
  | cons a as ih =>
    show (a.run imp >>= fun _ => runActs imp (as ++ bs)) =
      ((a.run imp >>= fun _ => runActs imp as) >>= fun _ => runActs imp bs)
    rw [ih, M.bind_assoc']

theorem M.bind_unit (m : M Unit) : (m >>= fun _ => Pure.pure ()) = m := by
  funext r
  simp only [M.bind_apply]
  rcases m r with ⟨res, r'⟩
  cases res <;> rfl

mutual
theorem visit_eq (imp : Str → M Unit) (key : Vis) : (e : Elem) → (p : Ptr) → (scope : Str) →
    visit imp key e p scope =
      (runActs imp (acts key e p scope).1 >>= fun _ => pure (acts key e p scope).2)
  | .mk pos c k cs, p, scope => by
    have hcs := visitAll_eq imp key cs p 0
    cases k <;> simp only [visit, acts, runActs, Act.run, hcs, M.pure_bind', M.bind_assoc', M.bind_unit]
    case message name ext =>
      cases ext <;> simp [runActs, Act.run, M.bind_assoc']
theorem visitAll_eq (imp : Str → M Unit) (key : Vis) : (es : List Elem) → (p : Ptr) → (n : Nat) →
    (scope : Str) → visitAll imp key es p n scope =
      (runActs imp (actsAll key es p n scope).1 >>= fun _ => pure (actsAll key es p n scope).2)
  | [], p, n, scope => rfl
  | e :: es, p, n, scope => by
    simp only [visitAll, actsAll]
    rw [visit_eq imp key e]
    simp only [M.bind_assoc', M.pure_bind', runActs_append]
    simp only [visitAll_eq imp key es]
end

/-- The actions of visiting a whole file. -/
def fileActs (key : Vis) (i : Nat) (elems : List Elem) : List Act :=
  (actsAll key elems ⟨i, []⟩ 0 []).1

theorem acceptFile_eq {imp : Str → M Unit} {key : Vis} {i : Nat} {r : Reg} {f : ProtoFile}
    (hf : r.heap[i]? = some f) : acceptFile imp key i r = runActs imp (fileActs key i f.elems) r := by
  unfold acceptFile
  simp only [M.bind_apply, M.get_apply, visitAll_eq]
  have : (r.children ⟨i, []⟩).getD [] = f.elems := by simp [Reg.children, hf, ProtoFile.childrenAt]
  rw [this]
  unfold fileActs
  rcases runActs imp (actsAll key f.elems ⟨i, []⟩ 0 []).1 r with ⟨res, r'⟩
  cases res <;> rfl

/-! ### What loading can change -/

/-- Extension by loading. -/
structure LExt (r r' : Reg) : Prop where
  heap : ∃ l, r'.heap = r.heap ++ l
  protos : ∀ s i, r.protos s = some i → r'.protos s = some i
  names : ∀ s, (r.registry s).isSome = true → (r'.registry s).isSome = true
  scopes : ∀ v, (r.scopes v).isSome = true → (r'.scopes v).isSome = true
  cache : r'.cache = r.cache
  ftcache : r'.ftcache = r.ftcache
  next : r'.next = r.next

theorem LExt.refl (r) : LExt r r := ⟨⟨[], by simp⟩, fun _ _ h => h, fun _ h => h, fun _ h => h, rfl, rfl, rfl⟩

theorem LExt.trans {a b c} (h : LExt a b) (g : LExt b c) : LExt a c := by
  obtain ⟨l, hl⟩ := h.heap
  obtain ⟨l', hl'⟩ := g.heap
  exact ⟨⟨l ++ l', by rw [hl', hl, List.append_assoc]⟩, fun s i e => g.protos s i (h.protos s i e),
    fun s e => g.names s (h.names s e), fun s e => g.scopes s (h.scopes s e),
    g.cache.trans h.cache, g.ftcache.trans h.ftcache, g.next.trans h.next⟩

theorem LExt.file {r r'} (h : LExt r r') {i : Nat} {f : ProtoFile} (e : r.heap[i]? = some f) :
    r'.heap[i]? = some f := by
  obtain ⟨l, hl⟩ := h.heap
  rw [hl, List.getElem?_append_left (List.getElem?_eq_some_iff.mp e).1]
  exact e

theorem LExt.length {r r'} (h : LExt r r') : r.heap.length ≤ r'.heap.length := by
  obtain ⟨l, hl⟩ := h.heap
  rw [hl]; simp

theorem LExt.file_eq {r r'} (h : LExt r r') {i : Nat} (hi : i < r.heap.length) :
    r'.heap[i]? = r.heap[i]? := by
  have := List.getElem?_eq_getElem hi
  rw [this]
  exact h.file this

theorem LExt.setName (s : Str) (p : Ptr) (r : Reg) : LExt r (setName s p r).2 := by
  refine ⟨⟨[], by simp [Protoast.setName]⟩, fun _ _ h => h, ?_, fun _ h => h, rfl, rfl, rfl⟩
  intro t ht
  simp only [Protoast.setName, M.modify_apply, upd]
  split
  · rfl
  · exact ht

theorem LExt.setScope (v : Vis) (s : Str) (r : Reg) : LExt r (setScope v s r).2 := by
  refine ⟨⟨[], by simp [Protoast.setScope]⟩, fun _ _ h => h, fun _ h => h, ?_, rfl, rfl, rfl⟩
  intro t ht
  simp only [Protoast.setScope, M.modify_apply, upd]
  split
  · rfl
  · exact ht

theorem LExt.addFile {r : Reg} {path : Str} {elems : List Elem} (h : r.protos path = none) :
    LExt r (addFile r path elems) :=
  ⟨⟨_, rfl⟩, upd_of_none h, fun _ h => h, fun _ h => h, rfl, rfl, rfl⟩

theorem runActs_lext {imp : Str → M Unit} : ∀ (as : List Act),
    (∀ f, Act.imp f ∈ as → ∀ r, LExt r (imp f r).2) → ∀ r, LExt r (runActs imp as r).2 := by
  intro as
  induction as with
  | nil => intro _ r; exact LExt.refl r
  | cons a as ih =>
    intro h r
    have ha : LExt r (a.run imp r).2 := by
      cases a with
      | name s p => exact LExt.setName s p r
      | scope v s => exact LExt.setScope v s r
      | imp f => exact h f (by simp) r
    simp only [runActs, M.bind_apply]
    rcases hr : a.run imp r with ⟨res, r'⟩
    rw [hr] at ha
    cases res with
    | ok u => exact ha.trans (ih (fun f hf => h f (List.mem_cons_of_mem _ hf)) r')
    | panic p => exact ha
    | timeout => exact ha

theorem protoFile_lext (W : World) (path : Str) (r : Reg) : LExt r (protoFile W path r).2 := by
  rcases protoFile_cases W path r with ⟨i, _, h⟩ | ⟨_, e, h⟩ | ⟨hn, _, elems, _, _, h⟩
  · rw [h]; exact LExt.refl r
  · rw [h]; exact LExt.refl r
  · rw [h]; exact LExt.addFile hn

theorem visitImport_lext (W : World) : ∀ n path r, LExt r (visitImport W n path r).2 := by
  intro n
  induction n with
  | zero => intro path r; exact LExt.refl r
  | succ n ih =>
    intro path r
    unfold visitImport
    simp only [M.bind_apply, M.get_apply]
    cases hp : r.protos path with
    | some i => exact LExt.refl r
    | none =>
      simp only [M.bind_apply]
      rcases protoFile_cases W path r with ⟨i, hi, h⟩ | ⟨_, e, h⟩ | ⟨hn, nm, elems, _, _, h⟩
      · rw [hi] at hp; cases hp
      · rw [h]; exact LExt.refl r
      · rw [h]
        simp only
        rw [acceptFile_eq (f := ⟨path, elems⟩) (by simp [Protoast.addFile])]
        exact (LExt.addFile hn).trans (runActs_lext _ (fun f _ r => ih f r) _)

theorem acceptFile_lext (W : World) (n : Nat) (key : Vis) {i : Nat} {r : Reg} {f : ProtoFile}
    (hf : r.heap[i]? = some f) : LExt r (acceptFile (visitImport W n) key i r).2 := by
  rw [acceptFile_eq hf]
  exact runActs_lext _ (fun f _ r => visitImport_lext W n f r) _

/-! ### Imports mentioned in an action list are imports of the elements -/

mutual
theorem acts_imports {key : Vis} : (e : Elem) → (p : Ptr) → (scope f : Str) →
    Act.imp f ∈ (acts key e p scope).1 → f ∈ e.imports
  | .mk pos c k cs, p, scope, f => by
    have hcs := fun s => actsAll_imports (key := key) cs p 0 s f
    intro h
    cases k <;> simp only [acts, Elem.imports, List.mem_cons, List.mem_append, List.not_mem_nil, reduceCtorEq,
      false_or, or_false] at h ⊢
    case message name ext =>
      cases ext <;> simp at h <;> exact hcs _ h
    case service => exact hcs _ h
    case importK g => left; exact Act.imp.inj h
    case enum => exact hcs _ h
    case oneof => exact hcs _ h
theorem actsAll_imports {key : Vis} : (es : List Elem) → (p : Ptr) → (n : Nat) → (scope f : Str) →
    Act.imp f ∈ (actsAll key es p n scope).1 → f ∈ importsAll es
  | [], p, n, scope, f, h => by simp [actsAll] at h
  | e :: es, p, n, scope, f, h => by
    simp only [actsAll, List.mem_append, importsAll] at h ⊢
    rcases h with h | h
    · exact .inl (acts_imports e _ _ _ h)
    · exact .inr (actsAll_imports es _ _ _ _ h)
end

/-! ### Congruence -/

/-- Two import functions that agree on the imports of the list in all states satisfying a stable
    predicate give the same run. -/
theorem runActs_congr {imp imp' : Str → M Unit} {Q : Reg → Prop}
    (hQ : ∀ r r', Q r → LExt r r' → Q r') : ∀ (as : List Act),
    (∀ f, Act.imp f ∈ as → ∀ r, Q r → imp f r = imp' f r ∧ LExt r (imp f r).2) →
    ∀ r, Q r → runActs imp as r = runActs imp' as r := by
  intro as
  induction as with
  | nil => intro _ r _; rfl
  | cons a as ih =>
    intro h r hr
    have ha : a.run imp r = a.run imp' r ∧ LExt r (a.run imp r).2 := by
      cases a with
      | name s p => exact ⟨rfl, LExt.setName s p r⟩
      | scope v s => exact ⟨rfl, LExt.setScope v s r⟩
      | imp f => exact h f (by simp) r hr
    simp only [runActs, M.bind_apply]
    rw [← ha.1]
    rcases hr' : a.run imp r with ⟨res, r'⟩
    rw [hr'] at ha
    cases res with
    | ok u => exact ih (fun f hf => h f (List.mem_cons_of_mem _ hf)) r' (hQ _ _ hr ha.2)
    | panic p => rfl
    | timeout => rfl

end Protoast
