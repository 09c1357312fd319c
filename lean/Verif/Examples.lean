import Verif.Proof.InvQuery
import Verif.Spec.Names
/-
  A small concrete world used to show that the hypotheses of the theorems are met by non-trivial cases
  and as witness where a property does not hold of the code.  Nothing here is a property theorem.
-/
namespace Protoast.Ex
open Protoast

/-- An element of file `f` at line `l`. -/
def el (f : Str) (l : Nat) (k : Kind) (cs : List Elem := []) : Elem :=
  .mk { filename := f, line := l } none k cs

/-- A string literal in a file. -/
def lit (f : Str) (s : Str) : Literal := .mk { filename := f, line := 1 } s [] []

def fld (f : Str) (l : Nat) (name type : Str) (n : Int) (rep : Bool := false) (cs : List Elem := []) :
    Elem := el f l (.normalField name type n rep false) cs

/-- A cut-down `google/protobuf/descriptor.proto`. -/
def descriptor : List Elem :=
  let f := descriptorPath
  [el f 1 (.syntaxK b!"proto2"), el f 2 (.packageK b!"google.protobuf"),
   el f 3 (.message b!"FileOptions" false)
     [fld f 4 b!"java_package" b!"string" 1, fld f 5 b!"go_package" b!"string" 11],
   el f 6 (.message b!"MessageOptions" false) [fld f 7 b!"deprecated" b!"bool" 3],
   el f 8 (.message b!"FieldOptions" false) [fld f 9 b!"deprecated" b!"bool" 3],
   el f 10 (.message b!"OneofOptions" false) [],
   el f 11 (.message b!"EnumOptions" false) [fld f 12 b!"allow_alias" b!"bool" 2],
   el f 13 (.message b!"EnumValueOptions" false) [fld f 14 b!"deprecated" b!"bool" 1],
   el f 15 (.message b!"ServiceOptions" false) [fld f 16 b!"deprecated" b!"bool" 33],
   el f 17 (.message b!"MethodOptions" false) [fld f 18 b!"deprecated" b!"bool" 33]]

def pa : Str := b!"a.proto"
def pb : Str := b!"b.proto"

/-- `a.proto` and `b.proto` import each other; `a.proto` has every kind of declaration. -/
def fileA : List Elem :=
  let f := pa
  [el f 1 (.syntaxK b!"proto3"), el f 2 (.packageK b!"p.q"), el f 3 (.importK pb),
   el f 4 (.option b!"go_package" (lit f b!"x/y;z")),
   el f 5 (.message b!"M" false)
     [fld f 6 b!"t" b!"T" 1,
      fld f 7 b!"n" b!"N" 2 true [el f 7 (.option b!"deprecated" (lit f b!"true"))],
      fld f 8 b!"i" b!"int32" 3,
      el f 9 (.oneof b!"choice")
        [el f 10 (.oneofField b!"left" b!"N" 4), el f 11 (.oneofField b!"right" b!"string" 5)],
      el f 12 (.mapField b!"dict" b!"string" b!"p.q.M" 6),
      el f 13 (.message b!"N" false)
        [el f 14 (.message b!"Deep" false) [fld f 15 b!"up" b!"E" 1],
         fld f 16 b!"self" b!"N" 1],
      el f 17 (.enum b!"E") [el f 18 (.enumField b!"ZERO" 0), el f 19 (.enumField b!"ONE" 1)],
      el f 20 (.reserved [⟨10, 20, false⟩, ⟨5, 5, false⟩, ⟨30, 0, true⟩] [b!"foo"])],
   el f 21 (.service b!"S") [el f 22 (.rpc b!"Do" b!"M" b!"M.N" false true)]]

def fileB : List Elem :=
  let f := pb
  [el f 1 (.packageK b!"p"), el f 2 (.importK pa), el f 3 (.importK descriptorPath),
   el f 4 (.message b!"T" false) [fld f 5 b!"x" b!"int64" 1],
   el f 6 (.message b!"google.protobuf.FieldOptions" true) [fld f 7 b!"mark" b!"string" 50001]]

/-- One resolver that knows every path. -/
def anyResolver : Resolver := { name := b!"root", resolve := fun p => .ok (b!"/r/" ++ p) }

/-- A world of the given files. -/
def worldOf (files : List (Str × List Elem)) : World :=
  { resolvers := [anyResolver],
    load := fun _ path =>
      match files.find? (fun x => x.1 == path) with
      | some x => .ok x.2
      | none => .error .notExist }

def W : World := worldOf [(descriptorPath, descriptor), (pa, fileA), (pb, fileB)]

/-- The registry after `NewRegistry`. -/
def r0 : Reg := (newRegistry W 5).2

/-- A client that loaded `a.proto`. -/
def c1 : Client := Client.exec ⟨r0, []⟩ [.proto W 5 pa]

def isOk {α} : Res α → Bool
  | .ok _ => true
  | _ => false

def okOk {α} : Res (Except Err α) → Bool
  | .ok (.ok _) => true
  | _ => false

theorem ok_of_okOk {x : Res (Except Err Unit) × Reg} (h : okOk x.1 = true) :
    x = (.ok (.ok ()), x.2) := by
  rcases x with ⟨(⟨(e | u)⟩ | p | _), r⟩ <;> simp_all [okOk]

theorem W_ok : newRegistry W 5 = (.ok (.ok ()), r0) := ok_of_okOk (by decide +kernel)

/-- The client state after any history in the example world is reachable. -/
theorem reach_exec {P} (hW : W.Sat P) (ops : List Op) (h : ∀ op ∈ ops, Op.Sat P op) :
    Reachable P (Client.exec ⟨r0, []⟩ ops) := ⟨W, 5, r0, ops, hW, W_ok, h, rfl⟩

theorem reach_any (ops : List Op) : Reachable AnyTree (Client.exec ⟨r0, []⟩ ops) :=
  reach_exec (fun _ _ _ _ => trivial) ops (fun op _ => by cases op <;> simp [Op.Sat, World.Sat])

theorem c1_reach : Reachable AnyTree c1 := reach_any _

/-- The handle at index `i` of the pool is a wrapper of kind `k` for the element at `p`. -/
def hasW (c : Client) (i : Nat) (k : WKind) (p : Ptr) : Bool :=
  match c.pool[i]? with
  | some (.wrapped _ k' p') => decide (k' = k ∧ p' = p)
  | _ => false

theorem hasW_spec {c i k p} (h : hasW c i k p = true) : ∃ a, Node.wrapped a k p ∈ c.pool := by
  unfold hasW at h
  split at h
  · next a k' p' hx =>
    simp only [decide_eq_true_eq] at h
    obtain ⟨rfl, rfl⟩ := h
    exact ⟨a, List.mem_of_getElem? hx⟩
  · cases h

/-- As `hasW`, with the address. -/
def hasA (c : Client) (i a : Nat) (k : WKind) (p : Ptr) : Bool :=
  match c.pool[i]? with
  | some (.wrapped a' k' p') => decide (a' = a ∧ k' = k ∧ p' = p)
  | _ => false

theorem hasA_spec {c i a k p} (h : hasA c i a k p = true) : Node.wrapped a k p ∈ c.pool := by
  unfold hasA at h
  split at h
  · next a k' p' hx =>
    simp only [decide_eq_true_eq] at h
    obtain ⟨rfl, rfl, rfl⟩ := h
    exact List.mem_of_getElem? hx
  · cases h

theorem pool_addr_lt {P c a k p} (hr : Reachable P c) (h : Node.wrapped a k p ∈ c.pool) :
    a < c.reg.next := by
  obtain ⟨o, hi, hg⟩ := reachable_inv hr
  exact hi.fresh _ _ (hg _ h).owner

/-- A client that loaded `a.proto` and looked around: file, message M, its fields t, n, i, choice, dict,
    nested N, the enum E, the service S, its method Do, the oneof, its branch left. -/
def ops2 : List Op :=
  [.proto W 5 pa, .query 0 (.named .fileMessage b!"M"),
   .query 1 (.iter .messageFields 0), .query 1 (.iter .messageFields 1),
   .query 1 (.iter .messageFields 2), .query 1 (.iter .messageFields 3),
   .query 1 (.iter .messageFields 4), .query 1 (.named .messageType b!"N"),
   .query 1 (.named .messageType b!"E"), .query 0 (.named .fileService b!"S"),
   .query 9 (.named .serviceMethod b!"Do"), .query 5 (.plain .fieldType),
   .query 11 (.named .oneofBranch b!"left"), .query 6 (.plain .fieldType)]
def c2 : Client := Client.exec ⟨r0, []⟩ ops2
theorem c2_reach : Reachable AnyTree c2 := reach_any _

/-! ### Checkers for `WFFile` and `LoadsOK` -/

/-- A checker for `WFFile`. -/
def wfb (elems : List Elem) : Bool :=
  elems.all Elem.flat &&
  (elems.all (·.kind.notPackage) ||
    match elems.dropWhile (·.kind.notPackage) with
    | .mk _ _ (.packageK n) _ :: post =>
      n != [] && !hasDotPrefix n && (elems.takeWhile (·.kind.notPackage)).all (·.kind.preamble) &&
        post.all (·.kind.notPackage)
    | _ => false)

theorem wfb_spec {path elems} (h : wfb elems = true) : WFFile path elems := by
  unfold wfb at h
  rw [Bool.and_eq_true, Bool.or_eq_true] at h
  obtain ⟨h1, h2⟩ := h
  refine ⟨by simpa using h1, ?_⟩
  rcases h2 with h2 | h2
  · exact .inl (by simpa using h2)
  · right
    have he := List.takeWhile_append_dropWhile (p := fun e : Elem => e.kind.notPackage) (l := elems)
    split at h2
    · next pos cm n cs post hd =>
      simp only [Bool.and_eq_true, bne_iff_ne, ne_eq, Bool.not_eq_true', List.all_eq_true] at h2
      obtain ⟨⟨⟨a, b⟩, c⟩, d⟩ := h2
      refine ⟨_, pos, cm, n, cs, post, by rw [← hd, he], a, b, ?_, d⟩
      intro e hm
      exact c e hm
    · cases h2

theorem worldOf_sat {P : Str → List Elem → Prop} {files} (h : ∀ x ∈ files, P x.1 x.2) :
    (worldOf files).Sat P := by
  intro name path elems hl
  simp only [worldOf] at hl
  split at hl
  · next x hx =>
    cases hl
    have h1 := List.mem_of_find?_eq_some hx
    have h2 := List.find?_some hx
    have h3 := h x h1
    rw [beq_iff_eq] at h2
    rw [← h2]
    exact h3
  · cases hl

/-- A checker for `LoadsOK`. -/
def loadsB : Client → List Op → Bool
  | _, [] => true
  | c, op :: ops =>
    (match op with
      | .proto W fuel path => isOk (proto W fuel path c.reg).1
      | _ => true) && loadsB (c.step op) ops

theorem loadsB_spec : ∀ {ops : List Op} {c : Client}, loadsB c ops = true → LoadsOK c ops := by
  intro ops
  induction ops with
  | nil => intro c _; trivial
  | cons op ops ih =>
    intro c h
    unfold loadsB at h
    rw [Bool.and_eq_true] at h
    refine ⟨?_, ih h.2⟩
    have h1 := h.1
    cases op with
    | proto W fuel path =>
      simp only at h1 ⊢
      revert h1
      cases (proto W fuel path c.reg).1 with
      | ok x => intro _; exact ⟨x, rfl⟩
      | panic e => intro h; cases h
      | timeout => intro h; cases h
    | byName n => trivial
    | query a b => trivial

theorem W_wf : W.Sat WFFile := by
  apply worldOf_sat
  intro x hx
  apply wfb_spec
  simp only [List.mem_cons, List.not_mem_nil, or_false] at hx
  rcases hx with rfl | rfl | rfl <;> decide +kernel

theorem opsW_sat (ops : List Op) (h : ∀ op ∈ ops, ∀ W' f p, op = .proto W' f p → W'.Sat WFFile) :
    ∀ op ∈ ops, Op.Sat WFFile op := by
  intro op hop
  cases op with
  | proto W' f p => exact h _ hop W' f p rfl
  | byName _ => trivial
  | query _ _ => trivial

theorem c2_sat : ∀ op ∈ ops2, Op.Sat WFFile op := by
  apply opsW_sat
  intro op hop W' f p e
  subst e
  simp only [ops2, List.mem_cons, Op.proto.injEq, reduceCtorEq, List.not_mem_nil, or_false] at hop
  rw [hop.1]
  exact W_wf

theorem c2_wf : Reachable WFFile c2 := reach_exec W_wf _ c2_sat
theorem c2_clean : CleanReachable WFFile c2 :=
  ⟨W, 5, r0, ops2, W_wf, W_ok, c2_sat, loadsB_spec (by decide +kernel), rfl⟩

/-! ### A checker for `UniqueNames` -/

mutual
/-- The paths of an element at path `pre` and of everything below it. -/
def elemPaths (pre : List Nat) : Elem → List (List Nat)
  | .mk _ _ _ cs => pre :: listPaths pre 0 cs
def listPaths (pre : List Nat) : Nat → List Elem → List (List Nat)
  | _, [] => []
  | n, e :: es => elemPaths (n :: pre) e ++ listPaths pre (n + 1) es
end

theorem listPaths_get (pre : List Nat) : ∀ (es : List Elem) (n i : Nat) (e : Elem), es[i]? = some e →
    ∀ x ∈ elemPaths ((n + i) :: pre) e, x ∈ listPaths pre n es := by
  intro es
  induction es with
  | nil => intro n i e h; simp at h
  | cons a es ih =>
    intro n i e h x hx
    unfold listPaths
    rw [List.mem_append]
    cases i with
    | zero => simp at h; subst h; exact .inl hx
    | succ i =>
      right
      apply ih (n + 1) i e (by simpa using h)
      rw [show n + 1 + i = n + (i + 1) by omega]; exact hx

theorem paths_complete (f : ProtoFile) : ∀ (path : List Nat),
    (∀ es, f.childrenAt path = some es → ∀ x ∈ listPaths path 0 es, x ∈ listPaths [] 0 f.elems) ∧
    (∀ e, f.elemAt path = some e → ∀ x ∈ elemPaths path e, x ∈ listPaths [] 0 f.elems) := by
  intro path
  induction path with
  | nil =>
    refine ⟨?_, ?_⟩
    · intro es h x hx
      simp only [ProtoFile.childrenAt, Option.some.injEq] at h
      subst h; exact hx
    · intro e h; simp [ProtoFile.elemAt] at h
  | cons i rest ih =>
    have hel : ∀ e, f.elemAt (i :: rest) = some e →
        ∀ x ∈ elemPaths (i :: rest) e, x ∈ listPaths [] 0 f.elems := by
      intro e h x hx
      simp only [ProtoFile.elemAt] at h
      rw [Option.bind_eq_some_iff] at h
      obtain ⟨es, h1, h2⟩ := h
      apply ih.1 es h1
      apply listPaths_get rest es 0 i e h2
      rw [Nat.zero_add]; exact hx
    refine ⟨?_, hel⟩
    intro es h x hx
    simp only [ProtoFile.childrenAt, Option.map_eq_some_iff] at h
    obtain ⟨e, h1, h2⟩ := h
    apply hel e h1
    rcases e with ⟨a, b, c, d⟩
    simp only [Elem.children_mk] at h2
    subst h2
    simp [elemPaths, hx]

/-- All fully qualified names with their declarations. -/
def fqnsFrom : Nat → List ProtoFile → List (Str × Ptr)
  | _, [] => []
  | n, f :: fs => ((listPaths [] 0 f.elems).filterMap fun path => (f.fqn path).map fun s => (s, Ptr.mk n path))
      ++ fqnsFrom (n + 1) fs

theorem fqnsFrom_complete : ∀ (fs : List ProtoFile) (n i : Nat) (f : ProtoFile) (path : List Nat)
    (name : Str), fs[i]? = some f → f.fqn path = some name → (name, Ptr.mk (n + i) path) ∈ fqnsFrom n fs := by
  intro fs
  induction fs with
  | nil => intro n i f path name h; simp at h
  | cons g fs ih =>
    intro n i f path name h hq
    unfold fqnsFrom
    rw [List.mem_append]
    cases i with
    | zero =>
      simp at h; subst h
      left
      rw [List.mem_filterMap]
      refine ⟨path, ?_, by simp [hq]⟩
      cases path with
      | nil => simp [ProtoFile.fqn] at hq
      | cons j rest =>
        cases he : g.elemAt (j :: rest) with
        | none =>
          exfalso
          simp only [ProtoFile.fqn, he, Option.bind_none] at hq
          revert hq
          cases g.scopeAt rest <;> simp
        | some e =>
          apply (paths_complete g (j :: rest)).2 e he
          rcases e with ⟨a, b, c, d⟩
          simp [elemPaths]
    | succ i =>
      right
      have := ih (n + 1) i f path name (by simpa using h) hq
      rw [show n + (i + 1) = n + 1 + i by omega]; exact this

/-- A checker for `UniqueNames`. -/
def uniqueB (r : Reg) : Bool := decide ((fqnsFrom 0 r.heap).map Prod.fst).Nodup

theorem uniqueB_spec {r : Reg} (h : uniqueB r = true) : UniqueNames r := by
  unfold uniqueB at h
  rw [decide_eq_true_eq] at h
  rintro name ⟨pf, pp⟩ ⟨qf, qp⟩ ⟨f, hf, hq⟩ ⟨g, hg, hq'⟩
  have h1 := fqnsFrom_complete _ 0 _ _ _ _ hf hq
  have h2 := fqnsFrom_complete _ 0 _ _ _ _ hg hq'
  rw [Nat.zero_add] at h1 h2
  have key : ∀ (l : List (Str × Ptr)), (l.map Prod.fst).Nodup → ∀ s a b, (s, a) ∈ l → (s, b) ∈ l → a = b := by
    intro l
    induction l with
    | nil => intro _ s a b h; cases h
    | cons x l ih =>
      intro hn s a b ha hb
      simp only [List.map_cons, List.nodup_cons, List.mem_map, not_exists, not_and] at hn
      rcases List.mem_cons.mp ha with rfl | ha'
      · rcases List.mem_cons.mp hb with hb | hb
        · cases hb; rfl
        · exact absurd rfl (hn.1 (s, b) hb)
      · rcases List.mem_cons.mp hb with rfl | hb
        · exact absurd rfl (hn.1 (s, a) ha')
        · exact ih hn.2 s a b ha' hb
  exact key _ h _ _ _ h1 h2

theorem c2_unique : UniqueNames c2.reg := uniqueB_spec (by decide +kernel)

end Protoast.Ex
