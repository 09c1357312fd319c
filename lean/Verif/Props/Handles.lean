import Verif.Spec.Handles
import Verif.Props.Everything
import Verif.Spec.Tables
/-
  C103-C105: handles have the type that belongs to what they stand for; the index of a declaration is spelled by the
  nodes around it; all handles of a file have the same Go package.
-/
namespace Protoast.Props
open Protoast

/-! ### C103 -/

theorem optionMentioned_of {r : Reg} {o : Option Ptr} (h : OptOK r o) : OptionMentioned r o := by
  cases o with
  | none => trivial
  | some p => exact h.1

theorem typed_wrapped {o r a k p} (g : GoodW o r a k p) : (Node.wrapped a k p).Typed r := by
  have ht := g.target
  rcases p with ⟨i, path⟩
  cases path with
  | nil =>
    simp only [Reg.wrapTarget] at ht
    split at ht
    · next h => cases ht; exact .inl ⟨rfl, rfl, _, List.getElem?_eq_getElem h⟩
    · cases ht
  | cons j t =>
    simp only [Reg.wrapTarget, Option.map_eq_some_iff, Option.bind_eq_some_iff] at ht
    obtain ⟨k', ⟨kd, h1, h2⟩, h3⟩ := ht
    cases h3
    exact .inr ⟨by simp, kd, h1, standsFor_of_wrapKind h2⟩

mutual
theorem typed_val {o r} : (v : OptVal) → GoodVal o r v → v.typed r
  | .bool _ _ _, h | .int _ _ _, h | .uint _ _ _, h | .float _ _ _, h | .string _ _ _, h | .bytes _ _ _, h => by
    simp only [GoodVal] at h
    simp only [OptVal.typed]
    exact optionMentioned_of h
  | .enum _ _ _ p, h => by
    simp only [GoodVal] at h
    simp only [OptVal.typed]
    refine ⟨optionMentioned_of h.1, ?_⟩
    rcases typed_wrapped h.2 with ⟨h1, _⟩ | ⟨_, kd, h1, h2⟩
    · cases h1
    · cases kd <;> cases h2
      exact ⟨_, _, h1⟩
  | .array _ vs, h => by
    simp only [GoodVal] at h
    simp only [OptVal.typed]
    exact ⟨optionMentioned_of h.1, typed_vals vs h.2⟩
  | .map _ _ items, h => by
    simp only [GoodVal] at h
    simp only [OptVal.typed]
    exact ⟨optionMentioned_of h.1, typed_items items h.2⟩
theorem typed_vals {o r} : (vs : List OptVal) → GoodVals o r vs → OptVal.typedAll r vs
  | [], _ => by simp only [OptVal.typedAll]
  | v :: vs, h => by
    simp only [GoodVals] at h
    simp only [OptVal.typedAll]
    exact ⟨typed_val v h.1, typed_vals vs h.2⟩
theorem typed_items {o r} : (vs : List (Str × OptVal)) → GoodItems o r vs → OptVal.typedItems r vs
  | [], _ => by simp only [OptVal.typedItems]
  | v :: vs, h => by
    simp only [GoodItems] at h
    simp only [OptVal.typedItems]
    exact ⟨typed_item v h.1, typed_items vs h.2⟩
theorem typed_item {o r} : (v : Str × OptVal) → GoodItem o r v → OptVal.typedItem r v
  | (_, v), h => by
    simp only [GoodItem] at h
    simp only [OptVal.typedItem]
    exact typed_val v h
end

theorem typed_good {o r} : (n : Node) → Good o r n → n.Typed r
  | .wrapped _ _ _, h => by simp only [Good] at h; exact typed_wrapped h
  | .option _ _ _ _, h => by simp only [Good] at h; simp only [Node.Typed]; exact ⟨h.2.1.1, h.2.2.1, h.2.2.2.1⟩
  | .oneof _ _, h => by simp only [Good] at h; simp only [Node.Typed]; exact h.2.1
  | .map _ _, h => by simp only [Good] at h; simp only [Node.Typed]; exact h.2
  | .repeated _ none, _ => by simp only [Node.Typed]
  | .repeated _ (some t), h => by simp only [Good] at h; simp only [Node.Typed]; exact typed_good t h.2.2
  | .builtin _, _ => by simp only [Node.Typed]
  | .value v, h => by simp only [Good] at h; simp only [Node.Typed]; exact typed_val v h
  | .mapItem _ v, h => by simp only [Good] at h; simp only [Node.Typed]; exact typed_val v h

/-- C103: every handle the client was ever given, by whatever call, is of the type that belongs to what it stands for,
    and keeps being so: what it refers to is there in every later state. -/
theorem C103_typed {P c n} (hr : Reachable P c) (hn : n ∈ c.pool) (ops : List Op) (hs : ∀ op ∈ ops, Op.Sat P op) :
    n.Typed c.reg ∧ n.Typed (c.exec ops).reg := by
  have key : ∀ {c : Client}, Reachable P c → n ∈ c.pool → n.Typed c.reg := by
    intro c hr hn
    obtain ⟨o, _, hg⟩ := reachable_inv hr
    exact typed_good n (hg n hn)
  obtain ⟨l, hl⟩ := exec_pool ops c
  exact ⟨key hr hn, key (reachable_exec hr ops hs) (by rw [hl]; simp [hn])⟩

/-- Handles of an option, of a oneof branch and of an enum value that were given out. -/
example : (∃ a, Node.option a ⟨1, [0, 6]⟩ ⟨0, [3]⟩ ⟨1, [0, 3]⟩ ∈ cV.pool) ∧ Reachable WFFile cV ∧
    (∃ a, Node.wrapped a .enumValue ⟨3, [0, 3]⟩ ∈ cG.pool) ∧ Reachable WFFile cG :=
  ⟨hasOpt_spec (i := 7) (by decide +kernel), clean_reachable cV_clean,
    Ex.hasW_spec (i := 9) (by decide +kernel), clean_reachable cG_clean⟩

/-! ### C104 -/

theorem handle_at {o r} {n : Node} (g : Good o r n) {i j : Nat} {rest : List Nat} {kd : Kind}
    (hs : n.source = some ⟨i, j :: rest⟩) (hk : r.kind ⟨i, j :: rest⟩ = some kd)
    (hno : ∀ w l, kd ≠ .option w l) :
    (∃ a k, n = .wrapped a k ⟨i, j :: rest⟩ ∧ k.standsFor kd = true) ∨
    (∃ a s, n = .oneof a ⟨i, j :: rest⟩ ∧ kd = .oneof s) := by
  have ht := typed_good n g
  cases n with
  | wrapped a k p =>
    cases hs
    rcases ht with ⟨_, h, _⟩ | ⟨_, kd', h1, h2⟩
    · cases h
    · rw [hk] at h1; cases h1; exact .inl ⟨a, k, rfl, h2⟩
  | option a p cls f =>
    cases hs
    simp only [Node.Typed] at ht
    obtain ⟨⟨w, l, h1⟩, _⟩ := ht
    rw [hk] at h1; cases h1
    exact absurd rfl (hno w l)
  | oneof a p =>
    cases hs
    simp only [Node.Typed] at ht
    obtain ⟨s, h1⟩ := ht
    rw [hk] at h1; cases h1
    exact .inr ⟨a, s, rfl, rfl⟩
  | _ => cases hs

/-- The nodes around a place spell the scope of the place. -/
theorem spelled_scope {o r} {i : Nat} {f : ProtoFile} (hf : r.heap[i]? = some f) : ∀ (path : List Nat) (s : Str),
    f.scopeAt path = some s → ∀ ns : List Node, (∀ n ∈ ns, Good o r n ∧ ∀ a p, n ≠ .oneof a p) →
    ns.map Node.source = (enclosing i path).map some → Spelled r ns s := by
  intro path
  induction path with
  | nil =>
    intro s hs ns hg hm
    simp only [enclosing, List.map_cons, List.map_nil] at hm
    obtain ⟨n, rfl, hn⟩ : ∃ n, ns = [n] ∧ n.source = some ⟨i, []⟩ := by
      cases ns with
      | nil => cases hm
      | cons n ns =>
        simp only [List.map_cons, List.cons.injEq, List.map_eq_nil_iff] at hm
        exact ⟨n, by rw [hm.2], hm.1⟩
    have ht := typed_good n (hg n (by simp)).1
    have hread : ∀ a, Attr.read .package (.wrapped a .file ⟨i, []⟩) r = (.ok (.str (firstPackage f.elems)), r) := by
      intro a
      simp [Attr.read, File.package, Reg.children, hf, ProtoFile.childrenAt]
    cases n with
    | wrapped a k p =>
      cases hn
      rcases ht with ⟨rfl, _⟩ | ⟨h, _⟩
      · simp only [ProtoFile.scopeAt, Option.some.injEq] at hs
        subst hs
        unfold packageDot
        rw [← firstPackage_eq]
        cases hp : firstPackage f.elems with
        | nil => exact .root (by rw [hread, hp])
        | cons c cs => exact .package (by rw [hread, hp])
      · exact absurd rfl h
    | option a p cls fl =>
      cases hn
      simp only [Node.Typed] at ht
      obtain ⟨⟨w, l, h1⟩, _⟩ := ht
      simp [Reg.kind, Reg.elem, hf, ProtoFile.elemAt] at h1
    | oneof a p => exact absurd rfl ((hg _ (by simp)).2 a p)
    | _ => cases hn
  | cons j rest ih =>
    intro s hs ns hg hm
    simp only [enclosing, List.map_cons] at hm
    cases ns with
    | nil => cases hm
    | cons n ns =>
      simp only [List.map_cons, List.cons.injEq] at hm
      obtain ⟨hn, hm⟩ := hm
      simp only [ProtoFile.scopeAt] at hs
      split at hs
      · next s0 e h0 he =>
        have hkd : r.kind ⟨i, j :: rest⟩ = some e.kind := by simp [Reg.kind, Reg.elem, hf, he]
        have hrest := ih s0 h0 ns (fun m h => hg m (by simp [h])) hm
        have hno : ∀ w l, e.kind ≠ .option w l := by
          intro w l h; rw [h] at hs; cases hs
        rcases handle_at (hg n (by simp)).1 hn hkd hno with ⟨a, k, rfl, hk⟩ | ⟨a, _, rfl, _⟩
        · generalize hek : e.kind = kd at hs hk hkd
          cases kd with
          | message nm ext =>
            cases k <;> cases hk
            cases ext with
            | false =>
              cases hs
              exact .message hrest (by simp [Attr.read, Message.isExtension, hkd]) (by simp [Attr.read, Message.name, hkd])
            | true =>
              cases hs
              exact .extend hrest (by simp [Attr.read, Message.isExtension, hkd])
          | service nm =>
            cases k <;> cases hk
            cases hs
            exact .service hrest (by simp [Attr.read, Service.name, hkd])
          | enum nm =>
            cases k <;> cases hk
            cases hs
            exact .enum hrest
          | oneof nm =>
            cases k <;> cases hk
            cases hs
            exact .oneof hrest
          | _ => cases hs
        · exact absurd rfl ((hg (.oneof a ⟨i, j :: rest⟩) List.mem_cons_self).2 _ _)
      · cases hs

/-- What NodeParent gives is never a `*OneOf`. -/
theorem linked_wrapped {o r} (hi : Inv o r) {i : Nat} : ∀ (path : List Nat) (m : Node) (ns : List Node),
    (∀ n ∈ m :: ns, Good o r n) → (m :: ns).map Node.source = (enclosing i path).map some →
    Linked (fun x y => nodeParent x r = (.ok (some y), r)) (m :: ns) → ∀ n ∈ ns, ∀ a p, n ≠ .oneof a p := by
  intro path
  induction path with
  | nil =>
    intro m ns _ hm _ n hn
    simp only [enclosing, List.map_cons, List.map_nil, List.cons.injEq, List.map_eq_nil_iff] at hm
    rw [hm.2] at hn
    cases hn
  | cons j rest ih =>
    intro m ns hg hm hl n hn
    simp only [enclosing, List.map_cons, List.cons.injEq] at hm
    cases ns with
    | nil => cases hn
    | cons y ns =>
      obtain ⟨a, k, _, r', h1, _⟩ := nodeParent_full hi (hg m (by simp)) (p := ⟨i, rest⟩) (j := j) hm.1
      rw [hl.1] at h1
      cases h1
      rcases List.mem_cons.mp hn with rfl | h
      · intro a p h; cases h
      · exact ih _ ns (fun n h => hg n (by simp [List.mem_cons.mp h])) hm.2 hl.2 n h

/-- C104: the fully qualified name of a declaration is spelled by the nodes around it: the package of the file, then
    the names of the messages and services, then its own name, as the accessors of the nodes of its NodeHierarchy give
    them. This is what NodeIndex gives, but for enum values (C73). -/
theorem C104_spelled {c a k p name} (hc : CleanReachable WFFile c) (hn : Node.wrapped a k p ∈ c.pool)
    (hd : Declared c.reg name p) :
    ∃ ns r' s nm, (∀ fuel, p.path.length < fuel →
        nodeHierarchy fuel (some (.wrapped a k p)) c.reg = (.ok (.wrapped a k p :: ns), r')) ∧
      Spelled r' ns s ∧ Attr.read .name (.wrapped a k p) r' = (.ok (.str nm), r') ∧ name = s ++ dot :: nm ∧
      (k ≠ .enumValue → nodeIndex (.wrapped a k p) r' = (.ok (s ++ dot :: nm), r')) := by
  have hr := clean_reachable hc
  obtain ⟨o, hi, hg⟩ := reachable_inv hr
  obtain ⟨ns, o', r', h1, hx, hi', hgs, h2, h3, _⟩ := hierarchy_full p.file p.path hi (hg _ hn) rfl
  have hro : CacheExt c.reg r' := by
    have := (RO.nodeHierarchy (p.path.length + 1) (some (.wrapped a k p))).ext c.reg
    rw [h1 _ (Nat.lt_succ_self _)] at this
    exact this
  obtain ⟨f, hf, hq⟩ := hd
  rcases p with ⟨i, path⟩
  cases path with
  | nil => simp [ProtoFile.fqn] at hq
  | cons j rest =>
    have hgn : Good o' r' (.wrapped a k ⟨i, j :: rest⟩) := hx.good _ (hg _ hn)
    have hf' : r'.heap[i]? = some f := by rw [hro.heap]; exact hf
    have hdn : Declared c.reg name ⟨i, j :: rest⟩ := ⟨f, hf, hq⟩
    simp only [ProtoFile.fqn] at hq
    split at hq
    · next s nm hs hb =>
      cases hq
      rw [Option.bind_eq_some_iff] at hb
      obtain ⟨e, he, hnm⟩ := hb
      have hkd : c.reg.kind ⟨i, j :: rest⟩ = some e.kind := by simp [Reg.kind, Reg.elem, hf, he]
      have hkd' : r'.kind ⟨i, j :: rest⟩ = some e.kind := by simp [Reg.kind, Reg.elem, hf', he]
      have hno : ∀ w l, e.kind ≠ .option w l := by
        intro w l h; rw [h] at hnm; cases hnm
      have hall : ∀ n ∈ Node.wrapped a k ⟨i, j :: rest⟩ :: ns, Good o' r' n := by
        intro n h
        rcases List.mem_cons.mp h with rfl | h
        · exact hgn
        · exact hgs n h
      refine ⟨ns, r', s, nm, h1, ?_, ?_, rfl, ?_⟩
      · refine spelled_scope hf' rest s hs ns (fun n h => ⟨hgs n h, ?_⟩) ?_
        · exact linked_wrapped hi' (j :: rest) _ ns hall h2 h3 n h
        · simp only [enclosing, List.map_cons, List.cons.injEq] at h2
          exact h2.2
      · rcases handle_at hgn rfl hkd' hno with ⟨a', k', h, hk⟩ | ⟨_, _, h, _⟩
        · cases h
          generalize e.kind = kd at hnm hk hkd'
          cases kd <;> cases k <;> cases hk <;>
            first
            | (cases hnm; simp [Attr.read, Enum.name, EnumValue.name, MessageField.name, OneOfBranch.name, Service.name,
                Method.name, hkd']; done)
            | cases hnm
            | skip
          rename_i ext n
          cases ext <;> cases hnm
          simp [Attr.read, Message.name, hkd']
        · cases h
      · intro hk
        have hne : ∀ s v, c.reg.kind ⟨i, j :: rest⟩ ≠ some (.enumField s v) := by
          intro s v h
          rcases handle_at hgn rfl hkd' hno with ⟨a', k', h', hk'⟩ | ⟨_, _, h', _⟩
          · cases h'
            rw [hkd, Option.some.injEq] at h
            rw [h] at hk'
            cases k <;> cases hk'
            exact hk rfl
          · cases h'
        have := C11_partial hc hn rfl hdn hne
        have hsc : ∀ n : Node, nodeIndex n r' = ((nodeIndex n c.reg).1, r') := by
          intro n
          cases n with
          | wrapped a k p =>
            have hk : r'.kind p = c.reg.kind p := by simp [Reg.kind, Reg.elem, hro.heap]
            have hs : r'.scope (.at p) = c.reg.scope (.at p) := by simp [Reg.scope, hro.scopes]
            cases k <;> simp only [nodeIndex, M.bind_apply, M.get_apply, hk, hs] <;> first
              | rfl
              | (rcases c.reg.kind p with _ | kd
                 · rfl
                 · cases kd <;> rfl)
          | oneof a p => simp [nodeIndex, Reg.scope, hro.scopes]
          | map a p => simp [nodeIndex, Reg.scope, hro.scopes]
          | _ => rfl
        rw [hsc, this]
    · cases hq

/-- C104, uniqueness: the nodes around a declaration spell one name. -/
theorem C104_unique {r : Reg} {ns : List Node} {s t : Str} (h : Spelled r ns s) (g : Spelled r ns t) : s = t := by
  induction h generalizing t with
  | root h => cases g with
    | root g => rfl
    | package g => rw [h] at g; cases g
  | package h => cases g with
    | root g => rw [h] at g; cases g
    | package g => rw [h] at g; cases g; rfl
  | message h1 h2 h3 ih => cases g with
    | message g1 g2 g3 => rw [h3] at g3; cases g3; rw [ih g1]
    | extend g1 g2 => rw [h2] at g2; cases g2
  | extend h1 h2 ih => cases g with
    | message g1 g2 g3 => rw [h2] at g2; cases g2
    | extend g1 g2 => exact ih g1
  | service h1 h2 ih => cases g with
    | service g1 g2 => rw [h2] at g2; cases g2; rw [ih g1]
  | oneof h ih => cases g with
    | oneof g => exact ih g
  | enum h ih => cases g with
    | enum g => exact ih g

/-- A handle three levels deep (a branch of a oneof), whose hierarchy passes over the oneof. -/
example : ∃ a, Node.wrapped a .oneofBranch ⟨1, [0, 3, 4]⟩ ∈ Ex.c2.pool ∧ CleanReachable WFFile Ex.c2 ∧
    ∃ name, Declared Ex.c2.reg name ⟨1, [0, 3, 4]⟩ := by
  obtain ⟨a, h⟩ := Ex.hasW_spec (c := Ex.c2) (i := 12) (k := .oneofBranch) (p := ⟨1, [0, 3, 4]⟩) (by decide +kernel)
  exact ⟨a, h, Ex.c2_clean, _, ⟨Ex.pa, Ex.fileA⟩, rfl, rfl⟩

/-! ### C105 -/

theorem goPackageOf_unique {r : Reg} {p s cls gf g1 g2} (h : GoPackageOf r p s cls gf g1)
    (h' : GoPackageOf r p s cls gf g2) : g1 = g2 := by
  have split : ∀ {α} (Q : α → Prop) (l pre post pre' post' : List α) (x x' : α), l = pre ++ x :: post →
      l = pre' ++ x' :: post' → (∀ y ∈ pre, ¬ Q y) → (∀ y ∈ pre', ¬ Q y) → Q x → Q x' → x = x' := by
    intro α Q l pre
    induction pre generalizing l with
    | nil =>
      intro post pre' post' x x' e e' _ h2 hx _
      cases pre' with
      | nil => rw [e] at e'; simp only [List.nil_append, List.cons.injEq] at e'; exact e'.1
      | cons y pre' =>
        rw [e] at e'
        simp only [List.nil_append, List.cons_append, List.cons.injEq] at e'
        exact absurd (e'.1 ▸ hx) (h2 y (by simp))
    | cons z pre ih =>
      intro post pre' post' x x' e e' h1 h2 hx hx'
      cases pre' with
      | nil =>
        rw [e] at e'
        simp only [List.nil_append, List.cons_append, List.cons.injEq] at e'
        exact absurd (e'.1 ▸ hx') (h1 z (by simp))
      | cons y pre' =>
        rw [e] at e'
        simp only [List.cons_append, List.cons.injEq] at e'
        exact ih _ post pre' post' x x' rfl e'.2 (fun y h => h1 y (by simp [h])) (fun y h => h2 y (by simp [h])) hx hx'
  rcases h with ⟨rfl, h⟩ | ⟨pre, x, post, w, lit, info, e, h1, h2, h3, rfl, h4⟩
  · rcases h' with ⟨rfl, _⟩ | ⟨pre', x', post', w', lit', info', e', h1', h2', _⟩
    · rfl
    · exact absurd h2' (h x' (by rw [e']; simp))
  · rcases h' with ⟨rfl, h'⟩ | ⟨pre', x', post', w', lit', info', e', h1', h2', h3', rfl, h4'⟩
    · exact absurd h2 (h' x (by rw [e]; simp))
    · have hxx := split (fun y => Binds r s cls y.2 gf) _ _ _ _ _ x x' e e' h1 h1' h2 h2'
      subst hxx
      rw [h3] at h3'
      cases h3'
      obtain ⟨i1, i2⟩ := C52_unique h4 h4'
      cases info
      cases info'
      simp only at i1 i2
      rw [i1, i2]

theorem queries_registry : ∀ (ops : List Op) (c : Client), (∀ op ∈ ops, op.isQuery) →
    CacheExt c.reg (c.exec ops).reg ∧ LoadsOK c ops ∧ ∀ P, ∀ op ∈ ops, Op.Sat P op := by
  intro ops
  induction ops with
  | nil => intro c _; exact ⟨.refl _, trivial, by simp⟩
  | cons op ops ih =>
    intro c hq
    have hop := hq op (by simp)
    obtain ⟨h1, h2, h3⟩ := ih (c.step op) fun x hx => hq x (by simp [hx])
    have hstep : CacheExt c.reg (c.step op).reg := by
      have : CacheExt c.reg (op.run c.pool c.reg).2 := by
        cases op with
        | proto _ _ _ => exact hop.elim
        | byName name => exact (RO.bind (RO.nodeByFullName name) fun _ => RO.pure _).ext c.reg
        | query i q =>
          simp only [Op.run]
          cases c.pool[i]? with
          | none => exact .refl _
          | some n => exact (RO.queryRun q n).ext c.reg
      unfold Client.step
      rcases hr : op.run c.pool c.reg with ⟨res, r⟩
      rw [hr] at this
      cases res <;> exact this
    refine ⟨hstep.trans h1, ⟨?_, h2⟩, ?_⟩
    · cases op with
      | proto _ _ _ => exact hop.elim
      | _ => trivial
    · intro P x hx
      rcases List.mem_cons.mp hx with rfl | hx
      · cases x with
        | proto _ _ _ => exact hop.elim
        | _ => trivial
      · exact h3 P x hx

/-- C105: whenever `GoPackage` returns, for any handles `n` and `m` of things in the same file, with any calls in
    between that load nothing, it returns the same. -/
theorem C105_one_go_package {c n m a b p r1 r2 cls gf g1 g2 r3 r4} (ops : List Op) (hq : ∀ op ∈ ops, op.isQuery)
    (hc : CleanReachable WFFile c) (hn : n ∈ c.pool) (hm : m ∈ (c.exec ops).pool)
    (hf1 : nodeFile n c.reg = (.ok (some (.wrapped a .file p)), r1))
    (hf2 : nodeFile m (c.exec ops).reg = (.ok (some (.wrapped b .file p)), r2))
    (hcl : ClassAt c.reg b!".google.protobuf.FileOptions" cls)
    (hg : c.reg.registry b!".google.protobuf.FileOptions.go_package" = some gf)
    (hgn : FieldNamed c.reg cls b!"go_package" gf)
    (h1 : goPackage n c.reg = (.ok g1, r3)) (h2 : goPackage m (c.exec ops).reg = (.ok g2, r4)) : g1 = g2 := by
  obtain ⟨hx, hl, hs⟩ := queries_registry ops c hq
  have hc2 := clean_exec hc ops (hs _) hl
  obtain ⟨es, hes⟩ : ∃ es, c.reg.children p = some es := by
    obtain ⟨o, hi, _⟩ := reachable_inv (clean_reachable hc)
    obtain ⟨o1, e1, e2, e3⟩ := nodeFile_tri hi n
    rw [hf1] at e1 e2 e3
    have hroot : Rooted r1 p := GoodW.rooted (e3 _ rfl _ rfl)
    have hx1 : CacheExt c.reg r1 := by
      have := (RO.nodeFile n).ext c.reg
      rw [hf1] at this
      exact this
    obtain ⟨f, hf, _⟩ := hroot
    rw [hx1.heap] at hf
    have hp : p.path = [] := by
      have := (typed_good _ (show Good o1 r1 (.wrapped a .file p) from e3 _ rfl _ rfl))
      rcases this with ⟨_, h, _⟩ | ⟨_, kd, _, h⟩
      · exact h
      · cases kd <;> cases h
    exact ⟨f.elems, by simp [Reg.children, hf, hp, ProtoFile.childrenAt]⟩
  have k1 := (C82_go_package hc hn hf1 hes hcl hg hgn).2 _ _ h1
  have k2 := (C82_go_package hc2 hm hf2 (by rw [hx.children_eq]; exact hes) (hcl.congr hx.heap hx.registry)
    (by rw [hx.registry]; exact hg) (by unfold FieldNamed at hgn ⊢; rw [hx.children_eq]; exact hgn)).2 _ _ h2
  refine goPackageOf_unique k1 ?_
  have hb : ∀ w, Binds (c.exec ops).reg [] cls w gf ↔ Binds c.reg [] cls w gf := fun w =>
    ⟨fun g => g.congr hx.heap.symm hx.registry.symm, fun g => g.congr hx.heap hx.registry⟩
  unfold GoPackageOf at k2 ⊢
  have ho : optionsOf (c.exec ops).reg p = optionsOf c.reg p := by
    rw [optionsOf_kids, optionsOf_kids, hx.kids_eq]
  simpa only [hb, ho, hx.kind_eq] using k2

/-- The enum value of `g.proto` and its file have the same Go package, which is not nil. -/
example : ∃ a b r1 r2 r3 r4 g, CleanReachable WFFile cG ∧ Node.wrapped a .enumValue ⟨3, [0, 3]⟩ ∈ cG.pool ∧
    (∀ op ∈ [Op.query 9 (.plain .goPackage)], op.isQuery) ∧
    Node.wrapped b .file ⟨3, []⟩ ∈ (cG.exec [.query 9 (.plain .goPackage)]).pool ∧
    (∃ x, nodeFile (.wrapped a .enumValue ⟨3, [0, 3]⟩) cG.reg = (.ok (some (.wrapped x .file ⟨3, []⟩)), r1)) ∧
    (∃ x, nodeFile (.wrapped b .file ⟨3, []⟩) (cG.exec [.query 9 (.plain .goPackage)]).reg =
      (.ok (some (.wrapped x .file ⟨3, []⟩)), r2)) ∧
    ClassAt cG.reg b!".google.protobuf.FileOptions" ⟨0, [2]⟩ ∧
    cG.reg.registry b!".google.protobuf.FileOptions.go_package" = some ⟨0, [1, 2]⟩ ∧
    FieldNamed cG.reg ⟨0, [2]⟩ b!"go_package" ⟨0, [1, 2]⟩ ∧
    goPackage (.wrapped a .enumValue ⟨3, [0, 3]⟩) cG.reg = (.ok (some g), r3) ∧
    goPackage (.wrapped b .file ⟨3, []⟩) (cG.exec [.query 9 (.plain .goPackage)]).reg = (.ok (some g), r4) := by
  obtain ⟨a, hm⟩ := Ex.hasW_spec (c := cG) (i := 9) (k := .enumValue) (p := ⟨3, [0, 3]⟩) (by decide +kernel)
  obtain ⟨b, hm2⟩ := Ex.hasW_spec (c := cG.exec [.query 9 (.plain .goPackage)]) (i := 7) (k := .file) (p := ⟨3, []⟩)
    (by decide +kernel)
  obtain ⟨x, r1, hf⟩ := fileFound_spec (x := nodeFile (.wrapped a .enumValue ⟨3, [0, 3]⟩) cG.reg) (p := ⟨3, []⟩)
    (by show fileFound (nodeFile (.wrapped 0 .enumValue ⟨3, [0, 3]⟩) cG.reg) = _; decide +kernel)
  obtain ⟨y, r2, hf2⟩ := fileFound_spec
    (x := nodeFile (.wrapped b .file ⟨3, []⟩) (cG.exec [.query 9 (.plain .goPackage)]).reg) (p := ⟨3, []⟩)
    (by show fileFound (nodeFile (.wrapped 0 .file ⟨3, []⟩) (cG.exec [.query 9 (.plain .goPackage)]).reg) = _
        decide +kernel)
  have some_spec : ∀ {x : Res (Option GoPackageInfo) × Reg}, (match x.1 with | .ok (some _) => true | _ => false) = true →
      ∃ g r, x = (.ok (some g), r) := by
    rintro ⟨res, r⟩ h
    cases res with
    | ok y => cases y with
      | none => cases h
      | some g => exact ⟨g, r, rfl⟩
    | _ => cases h
  obtain ⟨g, r3, hg⟩ := some_spec (x := goPackage (.wrapped a .enumValue ⟨3, [0, 3]⟩) cG.reg) (by
    show (match (goPackage (.wrapped 0 .enumValue ⟨3, [0, 3]⟩) cG.reg).1 with | .ok (some _) => true | _ => false) = true
    decide +kernel)
  obtain ⟨g', r4, hg'⟩ := some_spec
    (x := goPackage (.wrapped b .file ⟨3, []⟩) (cG.exec [.query 9 (.plain .goPackage)]).reg) (by
    show (match (goPackage (.wrapped 0 .file ⟨3, []⟩) (cG.exec [.query 9 (.plain .goPackage)]).reg).1 with
      | .ok (some _) => true | _ => false) = true
    decide +kernel)
  have hq : ∀ op ∈ [Op.query 9 (.plain .goPackage)], op.isQuery := by
    intro op h
    simp only [List.mem_cons, List.not_mem_nil, or_false] at h
    subst h
    trivial
  have hreg : cG.reg.registry b!".google.protobuf.FileOptions.go_package" = some ⟨0, [1, 2]⟩ := by decide +kernel
  have e := C105_one_go_package _ hq cG_clean hm hm2 hf hf2 cG_class hreg cG_go hg hg'
  cases e
  exact ⟨a, b, r1, r2, r3, r4, g, cG_clean, hm, hq, hm2, ⟨x, hf⟩, ⟨y, hf2⟩, cG_class, hreg, cG_go, hg, hg'⟩

end Protoast.Props
