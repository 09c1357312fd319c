import Verif.Proof.Sane
import Verif.OptExamples
/-
  C79, C80: no call hangs, and the complete list of panics.
-/
namespace Protoast.Props
open Protoast

/-! ### C79 -/

/-- C79: in every reachable state, no call on a handle runs forever. `NodeHierarchy` and `Pos`, which climb from node to
    node, need no more steps than the declaration is nested deep, plus one. (For `Proto` see C06.) -/
theorem C79_terminates {P c n} (hr : Reachable P c) (hn : n ∈ c.pool) (q : Query) (hd : q.enough n.depth) :
    (q.run n c.reg).1 ≠ .timeout := by
  obtain ⟨o, hi, hg⟩ := reachable_inv hr
  exact (query_sane hi (hg _ hn) q hd).1

/-- C79, the step budget is no part of the result: with any two sufficient budgets the outcome and the effect are the
    same. -/
theorem C79_budget {P c n} (hr : Reachable P c) (hn : n ∈ c.pool) {fuel fuel' : Nat} (hf : n.depth < fuel)
    (hf' : n.depth < fuel') :
    nodeHierarchy fuel (some n) c.reg = nodeHierarchy fuel' (some n) c.reg ∧ pos fuel n c.reg = pos fuel' n c.reg := by
  obtain ⟨o, hi, hg⟩ := reachable_inv hr
  have ok := NodeOK.of_good n (hg _ hn)
  have j := J.of_inv hi
  have same : ∀ r, J c.reg.heap r → nodeHierarchy fuel (some n) r = nodeHierarchy fuel' (some n) r := fun r jr =>
    hierarchy_budget ((SQ.nodeHierarchy fuel n ok hf).run r jr).2.1.1 ((SQ.nodeHierarchy fuel' n ok hf').run r jr).2.1.1
  refine ⟨same _ j, ?_⟩
  have hdef : ∀ res r, J c.reg.heap r → posDefer fuel n res r = posDefer fuel' n res r := by
    intro res r jr
    unfold posDefer
    split
    · rfl
    · simp only [M.bind_apply, same r jr]
  have hb := ((SQ.posBody n ok).run _ j).1
  unfold pos
  rcases e : posBody n c.reg with ⟨res, r'⟩
  rw [e] at hb
  cases res with
  | ok a => exact hdef a r' hb
  | panic p => dsimp only; rw [hdef {} r' hb]
  | timeout => rfl

/-- Non-vacuity of C79: a oneof branch is three levels deep. -/
example : ∃ n ∈ Ex.c2.pool, n.depth = 3 := by
  obtain ⟨a, h⟩ := Ex.hasW_spec (c := Ex.c2) (i := 12) (k := .oneofBranch) (p := ⟨1, [0, 3, 4]⟩) (by decide +kernel)
  exact ⟨_, h, rfl⟩

/-! ### C80 -/

/-- C80: in every reachable state, whatever files were loaded and whatever calls were made, a call on a handle panics
    only in the ways listed for that call and that kind of handle. -/
theorem C80_panics {P c n} (hr : Reachable P c) (hn : n ∈ c.pool) (q : Query) (hd : q.enough n.depth) (p : Panic)
    (h : (q.run n c.reg).1 = .panic p) : p ∈ q.panics n := by
  obtain ⟨o, hi, hg⟩ := reachable_inv hr
  exact (query_sane hi (hg _ hn) q hd).2 p h

/-- C80, calls that never panic: those for which nothing is listed return, in every reachable state. Among them are
    all iterators over one kind of declaration, all lookups of declarations by name, names, comments and indices. -/
theorem C80_quiet {P c n} (hr : Reachable P c) (hn : n ∈ c.pool) (q : Query) (hd : q.enough n.depth)
    (hq : q.panics n = []) : ∃ ns r', q.run n c.reg = (.ok ns, r') := by
  have h1 := C79_terminates hr hn q hd
  have h2 := C80_panics hr hn q hd
  rcases e : q.run n c.reg with ⟨res, r'⟩
  rw [e] at h1 h2
  cases res with
  | ok ns => exact ⟨ns, r', rfl⟩
  | panic p =>
    have := h2 p rfl
    rw [hq] at this
    cases this
  | timeout => exact absurd rfl h1

/-- C80 for `NodeByFullName`: its only panic is the one for names that are not known. -/
theorem C80_byName {P c} (hr : Reachable P c) (name : Str) (p : Panic) (h : (nodeByFullName name c.reg).1 = .panic p) :
    p = .unsupportedType ∧ c.reg.registry name = none := by
  obtain ⟨o, hi, hg⟩ := reachable_inv hr
  have h1 := ((SQ.nodeByFullName name).run _ (J.of_inv hi)).2.1.2 p h
  refine ⟨by simpa using h1, ?_⟩
  cases e : c.reg.registry name with
  | none => rfl
  | some q =>
    obtain ⟨_, k, _, _, ht⟩ := (J.of_inv hi).reg name q e
    have h2 := ((SQ.wrapAt (L := []) ht).run _ (J.of_inv hi)).2.1.2 p
    have h3 : nodeByFullName name c.reg = wrap (.at q) c.reg := by
      unfold nodeByFullName
      simp only [M.bind_apply, M.get_apply, e]
    rw [h3] at h
    cases h2 h

/-- The model's marker for objects of the wrong type, which Go's type system rules out, is in no list. -/
theorem C80_well_typed (n : Node) (q : Query) : Panic.illTyped ∉ q.panics n := by
  have hc : ∀ n : Node, Panic.illTyped ∉ n.climbPanics := by
    intro n
    fun_induction Node.climbPanics n <;> simp_all
  have hf : ∀ n : Node, Panic.illTyped ∉ n.filePanics := by
    intro n
    fun_induction Node.filePanics n <;> simp_all
  have hp : Panic.illTyped ∉ n.posPanics := by
    unfold Node.posPanics
    split <;> simp [hc]
  have hd : ∀ n : Node, Panic.illTyped ∉ n.descPanics := by
    intro n
    fun_induction Node.descPanics n <;> first | assumption | (intro h; simp at h)
  have ht : ∀ n : Node, Panic.illTyped ∉ n.typeNamePanics := by
    intro n
    fun_induction Node.typeNamePanics n <;> first | assumption | (intro h; simp at h)
  unfold Query.panics
  split
  · next q _ => cases q <;> decide
  · next q _ => cases q <;> decide
  · next q =>
    cases q <;> simp [PlainQ.panics, hc, hf, hp, hd, ht, everythingPanics]

end Protoast.Props

namespace Protoast.Ex
open Protoast

def pp : Str := b!"p.proto"
/-- An element without a position. -/
def el0 (k : Kind) : Elem := .mk {} none k []
/-- An option. -/
def opt (n : Str) (l : Literal) : Elem := el pp 1 (.option n l)

/-- A file that makes the library panic in many ways. -/
def fileP : List Elem :=
  let f := pp
  [el f 1 (.packageK b!"z"),
   el f 2 (.service b!"S")
     [el f 3 (.rpc b!"R0" b!"S" b!"S" false false), el f 3 (.rpc b!"R1" b!"Nope" b!"Nope" false false),
      el f 4 (.rpc b!"R2" b!"A" b!"A" false false) [opt b!"nope" (lit f b!"1")],
      el f 4 (.rpc b!"R3" b!"A" b!"A" false false) [opt b!"(.z.A)" (lit f b!"1")]],
   el f 6 (.message b!"A" false)
     [fld f 7 b!"f" b!"S" 1, el f 8 (.oneof b!"o") [el f 9 (.oneofField b!"b" b!"S" 2)],
      el0 (.mapField b!"m" b!"bytes" b!"Nope" 3), fld f 10 b!"r" b!"Nope" 4 true,
      fld f 11 b!"k" b!"int32" 5 true, el f 8 (.mapField b!"m2" b!"string" b!"string" 3)],
   el f 13 (.message b!"google.protobuf.FieldOptions" true)
     [fld f 14 b!"i" b!"int32" 50001, fld f 15 b!"e" b!"E" 50002, fld f 16 b!"w" b!"Msg" 50003,
      fld f 17 b!"un" b!"Nope" 50004, fld f 18 b!"sv" b!"S" 50005, fld f 19 b!"rp" b!"string" 50006 true],
   el f 20 (.enum b!"E") [el f 21 (.enumField b!"ZERO" 0)],
   el f 22 (.message b!"Msg" false) [fld f 23 b!"a" b!"int32" 1, el f 24 (.mapField b!"mp" b!"string" b!"string" 2)],
   el f 25 (.message b!"U" false)
     [fld f 26 b!"u" b!"string" 1 false
       [opt b!"(i)" (lit f b!"x"), opt b!"(e)" (lit f b!"Q"), opt b!"(w)" (msg f [(b!"zz", lit f b!"1")]),
        opt b!"(un)" (lit f b!"1"), opt b!"(w)" (msg f [(b!"mp", msg f [])]), opt b!"(sv)" (lit f b!"1"),
        opt b!"(rp)" (arr f [lit f b!"a"]), opt b!"(i)" (.mk {} b!"1" [] []),
        opt b!"(w)" (msg f [(b!"a", lit f b!"1")]), opt b!"(i)" (.mk {} b!"2" [] [])],
      fld f 27 b!"v" b!"string" 2 false [opt b!"nope" (lit f b!"1")],
      fld f 28 b!"x" b!"string" 2 false [opt b!"(A)" (lit f b!"1")]],
   el f 30 (.message b!"N" false) [opt b!"nope" (lit f b!"1")],
   el f 31 (.message b!"T" false) [opt b!"(.z.A)" (lit f b!"1")],
   el f 32 (.message b!"G" false) [el f 33 (.group b!"Gr")],
   el f 34 (.enum b!"EN") [opt b!"nope" (lit f b!"1")], el f 35 (.enum b!"ET") [opt b!"(.z.A)" (lit f b!"1")],
   el f 36 (.enum b!"EC") [el f 36 .comment],
   el f 37 (.service b!"SN") [opt b!"nope" (lit f b!"1")], el f 38 (.service b!"ST") [opt b!"(.z.A)" (lit f b!"1")],
   el f 39 (.service b!"SC") [el f 39 .comment]]

/-- Files whose first element makes `Everything` panic. -/
def fileP2 : List Elem := [el b!"p2.proto" 1 (.option b!"(.z.A)" (lit b!"p2.proto" b!"1"))]
def fileP3 : List Elem := [el b!"p3.proto" 1 .comment]
def fileP4 : List Elem := [el b!"p4.proto" 1 (.option b!"nope" (lit b!"p4.proto" b!"1"))]

/-- A descriptor without `go_package`. -/
def descriptorP : List Elem :=
  let f := descriptorPath
  [el f 2 (.packageK b!"google.protobuf"), el f 3 (.message b!"FileOptions" false) [],
   el f 6 (.message b!"MessageOptions" false) [fld f 7 b!"deprecated" b!"bool" 3],
   el f 8 (.message b!"FieldOptions" false) [fld f 9 b!"deprecated" b!"bool" 3],
   el f 11 (.message b!"EnumOptions" false) [], el f 13 (.message b!"EnumValueOptions" false) [],
   el f 15 (.message b!"ServiceOptions" false) [], el f 17 (.message b!"MethodOptions" false) []]

def WP : World := worldOf [(descriptorPath, descriptorP), (pp, fileP), (b!"p2.proto", fileP2),
  (b!"p3.proto", fileP3), (b!"p4.proto", fileP4)]
def rp : Reg := (newRegistry WP 5).2
theorem WP_ok : newRegistry WP 5 = (.ok (.ok ()), rp) := ok_of_okOk (by decide +kernel)

/-- Some floating-point library. -/
def fop : FloatOps := { parse := fun _ => none, format := fun _ => [] }

/-- The history. -/
def opsP : List Op :=
  [.proto WP 5 pp, .query 0 (.named .fileService b!"S"), .query 0 (.named .fileMessage b!"A"),
   .query 0 (.named .fileEnum b!"E"), .query 0 (.named .fileMessage b!"U"),
   .query 1 (.iter .serviceMethods 0), .query 1 (.iter .serviceMethods 1), .query 1 (.iter .serviceMethods 2),
   .query 2 (.iter .messageFields 0), .query 2 (.iter .messageFields 1), .query 2 (.iter .messageFields 2),
   .query 2 (.iter .messageFields 3), .query 2 (.iter .messageFields 4), .query 4 (.iter .messageFields 0),
   .query 4 (.iter .messageFields 1),
   -- 15: the oneof; 16: its branch; 17: the map; 18: repeated nil; 19: repeated int32
   .query 9 (.plain .fieldType), .query 15 (.iter .oneofBranches 0), .query 10 (.plain .fieldType),
   .query 11 (.plain .fieldType), .query 12 (.plain .fieldType)] ++
  -- 20..29: options
  (List.range 10).map (fun i => .query 13 (.iter .options i)) ++
  -- 30: array value; 31: int without position; 32: map value, 33 another int without a position
  [.query 26 (.plain (.optionValue fop)), .query 27 (.plain (.optionValue fop)), .query 28 (.plain (.optionValue fop)),
   .query 29 (.plain (.optionValue fop)), .query 33 (.plain .parent),
   -- 34: a map item; 35: the value in it; 36 the builtin type
   .query 32 (.plain .valueParts), .query 34 (.plain .valueParts), .query 19 (.plain .repeatedElem),
   -- 37: a field with a map type; 38: its type
   .query 2 (.iter .messageFields 5), .query 37 (.plain .fieldType),
   -- 39-41: more files
   .proto WP 5 b!"p2.proto", .proto WP 5 b!"p3.proto", .proto WP 5 b!"p4.proto",
   -- 42-44: messages, 45-47: enums, 48-50: services; 51: a method; 52: a field
   .query 0 (.named .fileMessage b!"N"), .query 0 (.named .fileMessage b!"T"), .query 0 (.named .fileMessage b!"G"),
   .query 0 (.named .fileEnum b!"EN"), .query 0 (.named .fileEnum b!"ET"), .query 0 (.named .fileEnum b!"EC"),
   .query 0 (.named .fileService b!"SN"), .query 0 (.named .fileService b!"ST"), .query 0 (.named .fileService b!"SC"),
   .query 1 (.iter .serviceMethods 3), .query 4 (.iter .messageFields 2)]
def cP : Client := Client.exec ⟨rp, []⟩ opsP

/-- The panic of a call. -/
def panicOf (c : Client) (h : Nat) (q : Query) : Option (Panic × List Panic) :=
  match c.pool[h]? with
  | none => none
  | some n => match (q.run n c.reg).1 with
    | .panic p => some (p, q.panics n)
    | _ => none

/-- Handles of `cP`, calls on them, and their panics. -/
def panicTable : List (Nat × Query × Panic) :=
  [(39, .iter .fileEverything 0, .typeAssertion), (40, .iter .fileEverything 0, .unsupportedType),
   (41, .iter .fileEverything 0, .optionFieldNotFound), (42, .iter .messageEverything 0, .optionFieldNotFound),
   (43, .iter .messageEverything 0, .typeAssertion), (44, .iter .messageEverything 0, .unsupportedType),
   (45, .iter .enumEverything 0, .optionFieldNotFound), (46, .iter .enumEverything 0, .typeAssertion),
   (47, .iter .enumEverything 0, .unsupportedType), (48, .iter .serviceEverything 0, .optionFieldNotFound),
   (49, .iter .serviceEverything 0, .typeAssertion), (50, .iter .serviceEverything 0, .unsupportedType),
   (7, .iter .methodOptions 0, .optionFieldNotFound), (51, .iter .methodOptions 0, .typeAssertion),
   (36, .iter .options 0, .unsupportedNode), (14, .iter .options 0, .optionFieldNotFound),
   (52, .iter .options 0, .typeAssertion), (13, .named .optionNamed b!"(i)", .unsupportedNode),
   (7, .named .optionNamed b!"nope", .optionFieldNotFound), (51, .named .optionNamed b!"(.z.A)", .typeAssertion),
   (8, .plain .fieldType, .notAType), (16, .plain .branchType, .notAType), (5, .plain .methodInput, .notAType),
   (6, .plain .methodInput, .typeAssertion), (5, .plain .methodOutput, .notAType),
   (6, .plain .methodOutput, .typeAssertion), (17, .plain .mapKey, .badMapKey), (17, .plain .mapValue, .badMapValue),
   (20, .plain (.optionValue fop), .badLiteral), (21, .plain (.optionValue fop), .unknownEnumValue),
   (22, .plain (.optionValue fop), .unknownField), (23, .plain (.optionValue fop), .unknownFieldType),
   (24, .plain (.optionValue fop), .typeAssertion), (25, .plain (.optionValue fop), .notAType),
   (30, .plain .parent, .unsupportedType), (17, .plain .parent, .unsupportedNode),
   (18, .plain .parent, .unsupportedNode), (19, .plain .parent, .unsupportedNode),
   (36, .plain .parent, .unsupportedNode), (34, .plain .parent, .unsupportedNode),
   (30, .plain (.hierarchy 9), .unsupportedType), (17, .plain (.hierarchy 9), .unsupportedNode),
   (18, .plain .file, .nilDeref), (34, .plain .file, .nilDeref), (35, .plain .file, .nilDeref),
   (17, .plain (.pos 9), .unsupportedNode), (18, .plain (.pos 9), .unsupportedNode),
   (19, .plain (.pos 9), .unsupportedNode), (36, .plain (.pos 9), .unsupportedNode),
   (34, .plain (.pos 9), .unsupportedNode), (30, .plain (.pos 9), .unsupportedType),
   (31, .plain (.pos 9), .unsupportedType), (33, .plain (.pos 9), .typeAssertion),
   (17, .plain .description, .badMapKey), (38, .plain .description, .unsupportedNode),
   (18, .plain .description, .unsupportedNode), (19, .plain .description, .unsupportedNode),
   (36, .plain .description, .unsupportedNode), (30, .plain .description, .unsupportedNode),
   (34, .plain .description, .unsupportedNode), (0, .plain .typeName, .unsupportedNode),
   (18, .plain .typeName, .unsupportedNode), (17, .plain .typeName, .unsupportedNode),
   (20, .plain .typeName, .unsupportedNode), (30, .plain .typeName, .unsupportedNode),
   (34, .plain .typeName, .unsupportedNode), (18, .plain .goPackage, .nilDeref),
   (41, .plain .goPackage, .optionFieldNotFound), (39, .plain .goPackage, .typeAssertion),
   (40, .plain .goPackage, .unsupportedType), (20, .plain .goPackageOption, .noGoPackage),
   (9, .plain .number, .oneofHasNoValue)]

end Protoast.Ex

namespace Protoast.Props
open Protoast Ex

/-- The lists of C80 are no longer than they have to be: in this reachable state every entry of every list occurs (only
    `noGoPackage` in the list of `GoPackage` is left to `C80_go_package`), those of iterators at the first element. -/
theorem C80_all_occur : (∃ P, Reachable P cP) ∧
    panicTable.all (fun x => match panicOf cP x.1 x.2.1 with
      | some (p, l) => p == x.2.2 && l.contains p
      | none => false) = true :=
  ⟨⟨AnyTree, WP, 5, rp, opsP, fun _ _ _ _ => trivial, WP_ok,
    fun op _ => by cases op <;> simp [Op.Sat, World.Sat, AnyTree], rfl⟩, by decide +kernel⟩

end Protoast.Props
