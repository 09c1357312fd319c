import Verif.Spec.Names
import Verif.Proof.Later
/-
  The visitor registers exactly the fully qualified names.
-/
namespace Protoast

/-! ### Scopes passed along -/

mutual
theorem acts_snd {key : Vis} : (e : Elem) → (p : Ptr) → (s : Str) → e.flat = true →
    e.kind.notPackage = true → (acts key e p s).2 = s
  | .mk pos c k cs, p, s, hf, hk => by
    cases k with
    | message n ext => cases ext <;> simp [acts]
    | packageK n => simp [Kind.notPackage] at hk
    | enum n => simpa [acts] using actsAll_snd cs p 0 s (by simpa [Elem.flat] using hf)
    | _ => simp [acts]
theorem actsAll_snd {key : Vis} : (es : List Elem) → (p : Ptr) → (n : Nat) → (s : Str) →
    flatAll es = true → (actsAll key es p n s).2 = s
  | [], p, n, s, _ => by simp [actsAll]
  | e :: es, p, n, s, hf => by
    simp only [flatAll, Bool.and_eq_true] at hf
    have hk : e.kind.notPackage = true := by
      cases hk : e.kind <;> simp_all [Kind.notPackage]
    simp only [actsAll]
    rw [acts_snd e _ _ hf.1.2 hk, actsAll_snd es _ _ _ hf.2]
end

theorem flatAll_mem {es : List Elem} (h : flatAll es = true) : ∀ e ∈ es, e.flat = true ∧
    e.kind.notPackage = true ∧ ∀ f, e.kind ≠ .importK f := by
  induction es with
  | nil => intro e he; cases he
  | cons a es ih =>
    simp only [flatAll, Bool.and_eq_true] at h
    intro e he
    rcases List.mem_cons.mp he with rfl | he
    · refine ⟨h.1.2, ?_, ?_⟩
      · cases hk : e.kind <;> simp_all [Kind.notPackage]
      · intro f hf; simp [hf] at h
    · exact ih h.2 e he

/-- Membership in the actions of a list of elements that do not change the scope. -/
theorem mem_actsAll {key : Vis} {p : Ptr} {s : Str} {a : Act} : ∀ (es : List Elem) (n : Nat),
    (∀ e ∈ es, e.flat = true ∧ e.kind.notPackage = true) →
    (a ∈ (actsAll key es p n s).1 ↔
      ∃ j e, es[j]? = some e ∧ a ∈ (acts key e (p.child (n + j)) s).1) := by
  intro es
  induction es with
  | nil => intro n _; simp [actsAll]
  | cons e es ih =>
    intro n h
    have he := h e (by simp)
    simp only [actsAll, List.mem_append]
    rw [acts_snd e _ _ he.1 he.2, ih (n + 1) (fun x hx => h x (List.mem_cons_of_mem _ hx))]
    constructor
    · rintro (h | ⟨j, e', h1, h2⟩)
      · exact ⟨0, e, rfl, h⟩
      · exact ⟨j + 1, e', by simpa using h1, by rw [show n + (j + 1) = n + 1 + j by omega]; exact h2⟩
    · rintro ⟨j, e', h1, h2⟩
      cases j with
      | zero => simp at h1; subst h1; exact .inl h2
      | succ j =>
        exact .inr ⟨j, e', by simpa using h1, by rw [show n + 1 + j = n + (j + 1) by omega]; exact h2⟩

theorem actsAll_append {key : Vis} {p : Ptr} : ∀ (es fs : List Elem) (n : Nat) (s : Str),
    (actsAll key (es ++ fs) p n s).1 = (actsAll key es p n s).1 ++
      (actsAll key fs p (n + es.length) (actsAll key es p n s).2).1 := by
  intro es
  induction es with
  | nil => intro fs n s; simp [actsAll]
  | cons e es ih =>
    intro fs n s
    simp only [List.cons_append, actsAll, ih, List.append_assoc, List.length_cons]
    rw [show n + 1 + es.length = n + (es.length + 1) by omega]

theorem firstPackage_eq : ∀ es : List Elem, firstPackage es = packageOf es
  | [] => rfl
  | e :: es => by
    have ih := firstPackage_eq es
    unfold packageOf at ih
    unfold firstPackage packageOf
    rw [List.findSome?_cons]
    cases e.kind <;> simp_all [Kind.statedPackage]

theorem firstPackage_none {es : List Elem} (h : ∀ e ∈ es, e.kind.notPackage = true) :
    firstPackage es = [] := by
  induction es with
  | nil => rfl
  | cons e es ih =>
    have he := h e (by simp)
    have := ih fun x hx => h x (List.mem_cons_of_mem _ hx)
    unfold firstPackage
    cases hk : e.kind <;> simp_all [Kind.notPackage]

theorem firstPackage_append {es fs : List Elem} (h : ∀ e ∈ es, e.kind.notPackage = true) :
    firstPackage (es ++ fs) = firstPackage fs := by
  induction es with
  | nil => rfl
  | cons e es ih =>
    have he := h e (by simp)
    have := ih fun x hx => h x (List.mem_cons_of_mem _ hx)
    simp only [List.cons_append]
    rw [firstPackage]
    cases hk : e.kind <;> simp_all [Kind.notPackage]

theorem preamble_notPackage {k : Kind} (h : k.preamble = true) : k.notPackage = true := by
  cases k <;> simp_all [Kind.preamble, Kind.notPackage]

/-- The actions of a preamble element do not depend on the scope. -/
theorem acts_preamble {key : Vis} {e : Elem} {p : Ptr} {s s' : Str} (h : e.kind.preamble = true) :
    (acts key e p s).1 = (acts key e p s').1 := by
  rcases e with ⟨pos, c, k, cs⟩
  cases k <;> simp_all [Kind.preamble, acts]

/-- The actions of a whole file. -/
theorem mem_fileActs {key : Vis} {i : Nat} {path : Str} {elems : List Elem} (hw : WFFile path elems)
    {a : Act} : a ∈ fileActs key i elems ↔ ∃ j e, elems[j]? = some e ∧
      ((e.kind.notPackage = true ∧ a ∈ (acts key e ⟨i, [j]⟩ (packageDot elems)).1) ∨
        (e.kind.notPackage = false ∧ a = .scope key (packageDot elems))) := by
  obtain ⟨hflat, hpk⟩ := hw
  unfold fileActs
  rcases hpk with hnone | ⟨pre, pos, cm, n, cs, post, rfl, hn, hd, hpre, hpost⟩
  · have hp : packageDot elems = [] := by simp [packageDot, ← firstPackage_eq, firstPackage_none hnone]
    rw [mem_actsAll elems 0 (fun e he => ⟨hflat e he, hnone e he⟩), hp]
    constructor
    · rintro ⟨j, e, h1, h2⟩
      refine ⟨j, e, h1, .inl ⟨hnone e (List.mem_of_getElem? h1), ?_⟩⟩
      simpa [Ptr.child] using h2
    · rintro ⟨j, e, h1, h2⟩
      rcases h2 with h2 | h2
      · exact ⟨j, e, h1, by simpa [Ptr.child] using h2.2⟩
      · rw [hnone e (List.mem_of_getElem? h1)] at h2; simp at h2
  · have hpre' : ∀ e ∈ pre, e.flat = true ∧ e.kind.notPackage = true := fun e he =>
      ⟨hflat e (by simp [he]), preamble_notPackage (hpre e he)⟩
    have hpost' : ∀ e ∈ post, e.flat = true ∧ e.kind.notPackage = true := fun e he =>
      ⟨hflat e (by simp [he]), hpost e he⟩
    have hp : packageDot (pre ++ .mk pos cm (.packageK n) cs :: post) = dot :: n := by
      unfold packageDot
      rw [← firstPackage_eq, firstPackage_append (fun e he => (hpre' e he).2)]
      simp only [firstPackage, Elem.kind_mk]
      cases n with
      | nil => exact absurd rfl hn
      | cons c cs => rfl
    have hps : packageScope [] n = dot :: n := by simp [packageScope, hd, hn]
    have hs : (actsAll key pre ⟨i, []⟩ 0 []).2 = [] := by
      clear hp hflat hpost hpost'
      have : ∀ (l : List Elem) m, (∀ e ∈ l, e.flat = true ∧ e.kind.notPackage = true) →
          (actsAll key l ⟨i, []⟩ m []).2 = [] := by
        intro l
        induction l with
        | nil => intro m _; simp [actsAll]
        | cons e l ih =>
          intro m h
          simp only [actsAll]
          have he := h e (by simp)
          rw [acts_snd e _ _ he.1 he.2]
          exact ih _ fun x hx => h x (List.mem_cons_of_mem _ hx)
      exact this pre 0 hpre'
    rw [actsAll_append, hs]
    simp only [actsAll, acts, List.mem_append, List.mem_singleton, hps, Nat.zero_add]
    rw [mem_actsAll pre 0 hpre', mem_actsAll post _ hpost', hp]
    constructor
    · rintro (⟨j, e, h1, h2⟩ | h | ⟨j, e, h1, h2⟩)
      · have hm := List.mem_of_getElem? h1
        refine ⟨j, e, ?_, .inl ⟨(hpre' e hm).2, ?_⟩⟩
        · rw [List.getElem?_append_left (List.getElem?_eq_some_iff.mp h1).1]; exact h1
        · rw [acts_preamble (hpre e hm) (s' := [])]
          simpa [Ptr.child] using h2
      · exact ⟨pre.length, .mk pos cm (.packageK n) cs, by simp, .inr ⟨rfl, h⟩⟩
      · have hm := List.mem_of_getElem? h1
        refine ⟨pre.length + 1 + j, e, ?_, .inl ⟨(hpost' e hm).2, ?_⟩⟩
        · rw [List.getElem?_append_right (by omega)]
          rw [show pre.length + 1 + j - pre.length = j + 1 by omega]
          simpa using h1
        · simpa [Ptr.child] using h2
    · rintro ⟨j, e, h1, h2⟩
      by_cases hj : j < pre.length
      · rw [List.getElem?_append_left hj] at h1
        have hm := List.mem_of_getElem? h1
        left
        refine ⟨j, e, h1, ?_⟩
        rcases h2 with h2 | h2
        · rw [acts_preamble (hpre e hm) (s' := dot :: n)]
          simpa [Ptr.child] using h2.2
        · rw [(hpre' e hm).2] at h2; simp at h2
      · rw [List.getElem?_append_right (by omega)] at h1
        right
        cases hk : j - pre.length with
        | zero =>
          rw [hk] at h1
          simp at h1
          subst h1
          rcases h2 with h2 | h2
          · simp [Kind.notPackage] at h2
          · exact .inl h2.2
        | succ k =>
          rw [hk] at h1
          simp only [List.getElem?_cons_succ] at h1
          have hm := List.mem_of_getElem? h1
          right
          refine ⟨k, e, h1, ?_⟩
          rcases h2 with h2 | h2
          · have : j = pre.length + 1 + k := by omega
            subst this
            simpa [Ptr.child] using h2.2
          · rw [(hpost' e hm).2] at h2; simp at h2

/-! ### Soundness of the actions -/

theorem elemAt_child {f : ProtoFile} {path : List Nat} {e c : Elem} {j : Nat}
    (he : f.elemAt path = some e) (hc : e.children[j]? = some c) : f.elemAt (j :: path) = some c := by
  cases path with
  | nil => simp [ProtoFile.elemAt] at he
  | cons i rest =>
    simp only [ProtoFile.elemAt] at he ⊢
    simp [ProtoFile.childrenAt, he, hc]

/-- The element is an enum value. -/
def Kind.isEnumField : Kind → Bool
  | .enumField _ _ => true
  | _ => false

/-- What an action of a file says: it is right about the names in the file. -/
def ActOK (f : ProtoFile) (i : Nat) : Act → Prop
  | .name s q => q.file = i ∧ f.fqn q.path = some s
  | .scope v s => ∃ q : Ptr, v = .at q ∧ q.file = i ∧ f.fqn q.path = some s ∧
      ∃ e, f.elemAt q.path = some e ∧ e.kind.isEnumField = false
  | .imp _ => False

mutual
theorem acts_ok {f : ProtoFile} {key : Vis} {i : Nat} : (e : Elem) → (path : List Nat) → (j : Nat) →
    (s : Str) → f.elemAt (j :: path) = some e → f.scopeAt path = some s → e.flat = true →
    e.kind.notPackage = true → (∀ g, e.kind ≠ .importK g) →
    ∀ a ∈ (acts key e ⟨i, j :: path⟩ s).1, ActOK f i a
  | .mk pos c k cs, path, j, s, he, hs, hf, hk, hi, a, ha => by
    have hfqn : ∀ n, k.declName = some n → f.fqn (j :: path) = some (s ++ dot :: n) := by
      intro n hn
      simp [ProtoFile.fqn, hs, he, hn]
    have hsc : ∀ s', k.memberScope s = some s' → f.scopeAt (j :: path) = some s' := by
      intro s' h
      simp [ProtoFile.scopeAt, hs, he, h]
    have hname : ∀ n, k.declName = some n → ActOK f i (.name (scopedName s n) ⟨i, j :: path⟩) :=
      fun n hn => ⟨rfl, hfqn n hn⟩
    have hscope : ∀ n, k.declName = some n → k.isEnumField = false →
        ActOK f i (.scope (.at ⟨i, j :: path⟩) (scopedName s n)) :=
      fun n hn hne => ⟨_, rfl, rfl, hfqn n hn, _, he, hne⟩
    have hcs := fun s' h => actsAll_ok (f := f) (key := key) (i := i) cs (j :: path) 0 s'
      (fun m c hc => by
        rw [Nat.zero_add]
        exact elemAt_child he (by simpa using hc)) h (by simpa [Elem.flat] using hf) a
    cases k with
    | message n ext =>
      cases ext with
      | true =>
        simp [acts] at ha
        exact hcs s (hsc s rfl) ha
      | false =>
        simp [acts] at ha
        rcases ha with rfl | rfl | ha
        · exact hname n rfl
        · exact hscope n rfl rfl
        · exact hcs _ (hsc _ rfl) ha
    | service n =>
      simp [acts] at ha
      rcases ha with rfl | rfl | ha
      · exact hname n rfl
      · exact hscope n rfl rfl
      · exact hcs _ (hsc _ rfl) ha
    | enum n =>
      simp [acts] at ha
      rcases ha with rfl | rfl | ha
      · exact hname n rfl
      · exact hscope n rfl rfl
      · exact hcs _ (hsc _ rfl) ha
    | oneof n =>
      simp [acts] at ha
      rcases ha with rfl | rfl | ha
      · exact hname n rfl
      · exact hscope n rfl rfl
      · exact hcs _ (hsc _ rfl) ha
    | packageK n => simp [Kind.notPackage] at hk
    | importK g => exact absurd rfl (hi g)
    | enumField n v =>
      simp [acts] at ha
      subst ha
      exact hname n rfl
    | normalField n _ _ _ _ =>
      simp [acts] at ha
      rcases ha with rfl | rfl
      · exact hname n rfl
      · exact hscope n rfl rfl
    | mapField n _ _ _ =>
      simp [acts] at ha
      rcases ha with rfl | rfl
      · exact hname n rfl
      · exact hscope n rfl rfl
    | oneofField n _ _ =>
      simp [acts] at ha
      rcases ha with rfl | rfl
      · exact hname n rfl
      · exact hscope n rfl rfl
    | rpc n _ _ _ _ =>
      simp [acts] at ha
      rcases ha with rfl | rfl
      · exact hname n rfl
      · exact hscope n rfl rfl
    | _ => simp [acts] at ha
theorem actsAll_ok {f : ProtoFile} {key : Vis} {i : Nat} : (es : List Elem) → (path : List Nat) →
    (n : Nat) → (s : Str) → (∀ m c, es[m]? = some c → f.elemAt ((n + m) :: path) = some c) →
    f.scopeAt path = some s → flatAll es = true →
    ∀ a ∈ (actsAll key es ⟨i, path⟩ n s).1, ActOK f i a
  | [], path, n, s, _, _, _, a, ha => by simp [actsAll] at ha
  | e :: es, path, n, s, he, hs, hf, a, ha => by
    have h0 := flatAll_mem hf e (by simp)
    simp only [flatAll, Bool.and_eq_true] at hf
    simp only [actsAll, List.mem_append] at ha
    rw [acts_snd e _ _ hf.1.2 h0.2.1] at ha
    rcases ha with ha | ha
    · exact acts_ok e path n s (by simpa using he 0 e rfl) hs h0.1 h0.2.1 h0.2.2 a ha
    · exact actsAll_ok es path (n + 1) s (fun m c hc => by
        rw [show n + 1 + m = n + (m + 1) by omega]
        exact he (m + 1) c (by simpa using hc)) hs hf.2 a ha
end

/-- What an action of visiting a whole file says. -/
theorem fileActs_ok {f : ProtoFile} {path : Str} {key : Vis} {i : Nat} (hw : WFFile path f.elems) :
    ∀ a ∈ fileActs key i f.elems, ActOK f i a ∨ a = .scope key (packageDot f.elems) ∨
      ∃ g, a = .imp g ∧ g ∈ topImports f.elems := by
  intro a ha
  obtain ⟨j, e, hj, h⟩ := (mem_fileActs hw).mp ha
  rcases h with ⟨hk, h⟩ | ⟨_, h⟩
  · by_cases hi : ∃ g, e.kind = .importK g
    · obtain ⟨g, hg⟩ := hi
      right; right
      refine ⟨g, ?_, ?_⟩
      · rcases e with ⟨pos, c, k, cs⟩
        simp only [Elem.kind_mk] at hg
        subst hg
        simpa [acts] using h
      · simp only [topImports, List.mem_filterMap]
        exact ⟨e, List.mem_of_getElem? hj, by simp [hg]⟩
    · left
      exact acts_ok e [] j _ (by simp [ProtoFile.elemAt, ProtoFile.childrenAt, hj]) rfl
        (hw.1 e (List.mem_of_getElem? hj)) hk (fun g hg => hi ⟨g, hg⟩) a h
  · exact .inr (.inl h)

/-! ### Completeness of the actions -/

theorem elemAt_split {f : ProtoFile} {j : Nat} {rest : List Nat} {e : Elem}
    (h : f.elemAt (j :: rest) = some e) : ∃ es, f.childrenAt rest = some es ∧ es[j]? = some e := by
  simp only [ProtoFile.elemAt, Option.bind_eq_some_iff] at h
  exact h

/-- Every member element of the scopes of the file is visited. -/
theorem visited {f : ProtoFile} {fp : Str} {key : Vis} {i : Nat} (hw : WFFile fp f.elems) :
    ∀ (path : List Nat) (j : Nat) (s : Str) (e : Elem), f.scopeAt path = some s →
      f.elemAt (j :: path) = some e → e.kind.notPackage = true →
      e.flat = true ∧ ∀ a ∈ (acts key e ⟨i, j :: path⟩ s).1, a ∈ fileActs key i f.elems := by
  intro path
  induction path with
  | nil =>
    intro j s e hs he hk
    simp only [ProtoFile.scopeAt, Option.some.injEq] at hs
    subst hs
    simp only [ProtoFile.elemAt, ProtoFile.childrenAt, Option.bind_some] at he
    refine ⟨hw.1 e (List.mem_of_getElem? he), fun a ha => ?_⟩
    rw [mem_fileActs hw]
    exact ⟨j, e, he, .inl ⟨hk, ha⟩⟩
  | cons m rest ih =>
    intro j s e hs he hk
    simp only [ProtoFile.scopeAt] at hs
    split at hs
    · next s0 e0 h1 h2 =>
      have hk0 : e0.kind.notPackage = true := by
        cases hx : e0.kind <;> simp_all [Kind.memberScope, Kind.notPackage]
      obtain ⟨hfl, hin⟩ := ih m s0 e0 h1 h2 hk0
      obtain ⟨es, hes, hj⟩ := elemAt_split he
      have hes' : es = e0.children := by
        obtain ⟨es0, hes0, hm0⟩ := elemAt_split h2
        simp only [ProtoFile.childrenAt, hes0, Option.bind_some, hm0, Option.map_some,
          Option.some.injEq] at hes
        exact hes.symm
      subst hes'
      rcases e0 with ⟨pos, c, k, cs⟩
      simp only [Elem.children_mk, Elem.kind_mk] at hj hs
      have hcs : flatAll cs = true := by simpa [Elem.flat] using hfl
      have hmem := List.mem_of_getElem? hj
      refine ⟨(flatAll_mem hcs e hmem).1, fun a ha => hin a ?_⟩
      have hall : a ∈ (actsAll key cs ⟨i, m :: rest⟩ 0 s).1 := by
        rw [mem_actsAll cs 0 (fun e he => ⟨(flatAll_mem hcs e he).1, (flatAll_mem hcs e he).2.1⟩)]
        exact ⟨j, e, hj, by simpa [Ptr.child] using ha⟩
      cases k with
      | message n ext =>
        cases ext with
        | true =>
          simp only [Kind.memberScope, Option.some.injEq] at hs
          subst hs
          simpa [acts] using hall
        | false =>
          simp only [Kind.memberScope, Option.some.injEq] at hs
          subst hs
          simp [acts]
          exact .inr (.inr hall)
      | service n =>
        simp only [Kind.memberScope, Option.some.injEq] at hs
        subst hs
        simp [acts]
        exact .inr (.inr hall)
      | enum n =>
        simp only [Kind.memberScope, Option.some.injEq] at hs
        subst hs
        simp [acts]
        exact .inr (.inr hall)
      | oneof n =>
        simp only [Kind.memberScope, Option.some.injEq] at hs
        subst hs
        simp [acts]
        exact .inr (.inr hall)
      | _ => simp [Kind.memberScope] at hs
    · cases hs

/-- Every declaration of the file is registered by the visitor. -/
theorem fileActs_complete {f : ProtoFile} {fp : Str} {key : Vis} {i : Nat} (hw : WFFile fp f.elems)
    {path : List Nat} {name : Str} (h : f.fqn path = some name) :
    Act.name name ⟨i, path⟩ ∈ fileActs key i f.elems ∧
      ((∀ e, f.elemAt path = some e → ∀ n v, e.kind ≠ .enumField n v) →
        Act.scope (.at ⟨i, path⟩) name ∈ fileActs key i f.elems) := by
  cases path with
  | nil => simp [ProtoFile.fqn] at h
  | cons j rest =>
    simp only [ProtoFile.fqn] at h
    split at h
    · next s n hs hn =>
      cases h
      rw [Option.bind_eq_some_iff] at hn
      obtain ⟨e, he, hn⟩ := hn
      have hk : e.kind.notPackage = true := by
        cases hx : e.kind <;> simp_all [Kind.declName, Kind.notPackage]
      obtain ⟨_, hin⟩ := visited (key := key) (i := i) hw rest j s e hs he hk
      rcases e with ⟨pos, c, k, cs⟩
      constructor
      · apply hin
        cases k with
        | message n ext =>
          cases ext <;> simp_all [Kind.declName, acts, scopedName]
        | _ => simp_all [Kind.declName, acts, scopedName]
      · intro hne
        apply hin
        have hne' := hne _ he
        cases k with
        | message n ext =>
          cases ext <;> simp_all [Kind.declName, acts, scopedName]
        | enumField n v => exact absurd rfl (hne' n v)
        | _ => simp_all [Kind.declName, acts, scopedName]
    · cases h

theorem fileActs_imports {f : ProtoFile} {fp : Str} {key : Vis} {i : Nat} (hw : WFFile fp f.elems)
    {g : Str} (h : g ∈ topImports f.elems) : Act.imp g ∈ fileActs key i f.elems := by
  simp only [topImports, List.mem_filterMap] at h
  obtain ⟨e, he, hg⟩ := h
  obtain ⟨j, hj⟩ := List.mem_iff_getElem?.mp he
  rw [mem_fileActs hw]
  refine ⟨j, e, hj, .inl ?_⟩
  rcases e with ⟨pos, c, k, cs⟩
  cases k <;> simp_all [Kind.notPackage, acts]

theorem fileActs_package {f : ProtoFile} {fp : Str} {key : Vis} {i : Nat} (hw : WFFile fp f.elems)
    (h : packageDot f.elems ≠ []) : Act.scope key (packageDot f.elems) ∈ fileActs key i f.elems := by
  rw [mem_fileActs hw]
  rcases hw.2 with hnone | ⟨pre, pos, cm, n, cs, post, he, _⟩
  · rw [packageDot, ← firstPackage_eq, firstPackage_none hnone] at h; exact absurd rfl h
  · refine ⟨pre.length, .mk pos cm (.packageK n) cs, by rw [he]; simp, .inr ⟨rfl, rfl⟩⟩

end Protoast
