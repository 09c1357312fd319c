import Verif.Examples
/-
  A concrete world with options of all sorts, used for non-vacuity and as witness where a property does
  not hold of the code.
-/
namespace Protoast.Ex
open Protoast

def po : Str := b!"o.proto"

/-- An array literal. -/
def arr (f : Str) (ls : List Literal) : Literal := .mk { filename := f, line := 1 } [] ls []
/-- A message literal. -/
def msg (f : Str) (ls : List (Str × Literal)) : Literal := .mk { filename := f, line := 1 } [] [] ls

def fileO : List Elem :=
  let f := po
  [el f 1 (.packageK b!"o"), el f 2 (.importK descriptorPath),
   el f 3 (.message b!"google.protobuf.FieldOptions" true)
     [fld f 4 b!"mark" b!"string" 50001, fld f 5 b!"tags" b!"string" 50002 true,
      fld f 6 b!"cfg" b!"Cfg" 50003, fld f 7 b!"color" b!"Color" 50004,
      fld f 8 b!"limit" b!"uint32" 50005, fld f 9 b!"colors" b!"Color" 50006 true,
      fld f 9 b!"size" b!"int64" 50007, fld f 9 b!"on" b!"bool" 50008, fld f 9 b!"fix" b!"fixed32" 50009],
   el f 10 (.message b!"Cfg" false)
     [fld f 11 b!"depth" b!"int32" 1, fld f 12 b!"names" b!"string" 2 true, fld f 13 b!"next" b!"Cfg" 3,
      el f 14 (.mapField b!"dict" b!"string" b!"string" 4)],
   el f 15 (.enum b!"Color") [el f 16 (.enumField b!"RED" 0), el f 17 (.enumField b!"GREEN" 1)],
   el f 18 (.message b!"U" false)
     [fld f 19 b!"a" b!"string" 1 false [el f 19 (.option b!"(mark)" (lit f b!"x"))],
      fld f 20 b!"b" b!"string" 2 false [el f 20 (.option b!"(tags)" (arr f [lit f b!"p", lit f b!"q"]))],
      fld f 21 b!"c" b!"string" 3 false [el f 21 (.option b!"(cfg)" (msg f
        [(b!"depth", lit f b!"7"), (b!"names", arr f [lit f b!"n"]),
         (b!"next", msg f [(b!"depth", lit f b!"8")])]))],
      fld f 22 b!"d" b!"string" 4 false [el f 22 (.option b!"(color)" (lit f b!"GREEN"))],
      fld f 23 b!"e" b!"string" 5 false [el f 23 (.option b!"(limit)" (lit f b!"5"))],
      fld f 24 b!"f" b!"string" 6 false [el f 24 (.option b!"(colors)" (arr f [lit f b!"RED"]))],
      fld f 25 b!"g" b!"string" 7 false [el f 25 (.option b!"(cfg).depth" (lit f b!"3"))],
      fld f 26 b!"h" b!"string" 8 false [el f 26 (.option b!"(tags)" (lit f b!"single"))],
      fld f 27 b!"i" b!"string" 9 false [el f 27 (.option b!"(cfg)" (msg f
        [(b!"dict", msg f [])]))],
      fld f 28 b!"j" b!"string" 10 false [el f 28 (.option b!"(size)" (lit f b!"-12")),
        el f 28 (.option b!"(on)" (lit f b!"true")), el f 28 (.option b!"(fix)" (lit f b!"9"))],
      fld f 29 b!"k" b!"string" 11 false [el f 29 (.option b!"(size)" (lit f b!"010"))]]]

def WO : World := worldOf [(descriptorPath, descriptor), (po, fileO)]
def ro : Reg := (newRegistry WO 5).2
theorem WO_ok : newRegistry WO 5 = (.ok (.ok ()), ro) := ok_of_okOk (by decide +kernel)

/-- The fields a..j of U and the first option of each. Pool: 0 file, 1 U, 2..11 fields, 12..19 options of
    a, b, c, d, e, f, h, i (g has an option the library rejects), 20..22 the three options of j, 23 field k,
    24 its option. -/
def opsO : List Op :=
  [.proto WO 5 po, .query 0 (.named .fileMessage b!"U")] ++
  (List.range 10).map (fun i => .query 1 (.iter .messageFields i)) ++
  [2, 3, 4, 5, 6, 7, 9, 10].map (fun h => .query h (.iter .options 0)) ++
  [.query 11 (.iter .options 0), .query 11 (.iter .options 1), .query 11 (.iter .options 2),
   .query 1 (.iter .messageFields 10), .query 23 (.iter .options 0)]
def cO : Client := Client.exec ⟨ro, []⟩ opsO

theorem reachO {P} (hW : WO.Sat P) (ops : List Op) (h : ∀ op ∈ ops, Op.Sat P op) :
    Reachable P (Client.exec ⟨ro, []⟩ ops) := ⟨WO, 5, ro, ops, hW, WO_ok, h, rfl⟩

/-- The histories of this file only load from `WO`. -/
def onlyO : List Op → Prop
  | ops => ∀ op ∈ ops, (∃ fuel path, op = .proto WO fuel path) ∨ (∃ n, op = .byName n) ∨ ∃ h q, op = .query h q

theorem onlyO_sat {P} (hW : WO.Sat P) {ops} (h : onlyO ops) : ∀ op ∈ ops, Op.Sat P op := by
  intro op hop
  rcases h op hop with ⟨fuel, path, rfl⟩ | ⟨n, rfl⟩ | ⟨h, q, rfl⟩
  · exact hW
  · trivial
  · trivial

theorem opsO_only : onlyO opsO := by
  intro op hop
  simp only [opsO, List.mem_append, List.mem_cons, List.mem_map, List.not_mem_nil, or_false] at hop
  rcases hop with (((rfl | rfl) | ⟨i, _, rfl⟩) | ⟨h, _, rfl⟩) | (rfl | rfl | rfl | rfl | rfl)
  · exact .inl ⟨_, _, rfl⟩
  all_goals exact .inr (.inr ⟨_, _, rfl⟩)

theorem WO_wf : WO.Sat WFFile := by
  apply worldOf_sat
  intro x hx
  apply wfb_spec
  simp only [List.mem_cons, List.not_mem_nil, or_false] at hx
  rcases hx with rfl | rfl <;> decide +kernel

theorem cO_wf : Reachable WFFile cO := reachO WO_wf _ (onlyO_sat WO_wf opsO_only)

example : cO.pool.length = 25 := by decide +kernel

end Protoast.Ex
