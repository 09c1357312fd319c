import Verif.Proof.GoPack
import Verif.Props.Panics
/-
  C80, the last entry of its lists: `GoPackage` does not panic because go_package is not known.
-/
namespace Protoast.Props
open Protoast

/-- C80: for files as the parser makes them (one package statement in front of the declarations, imports at the top level
    only), `GoPackage` never panics with "no go_package option detected in registry", in any reachable state: whatever
    loads failed before, if an option is found to be go_package then the field is known. (`GoPackageOption`, which takes
    any option, does: see `C80_all_occur`.) -/
theorem C80_go_package {c n} (hr : Reachable WFFile c) (hn : n ∈ c.pool) :
    (goPackage n c.reg).1 ≠ .panic .noGoPackage :=
  goPackage_known hr hn

end Protoast.Props

namespace Protoast.Ex
open Protoast

/-! An import inside a message, which the parser does not make: the load breaks off between the message and its field. -/

def fileQ : List Elem :=
  [el b!"q.proto" 1 (.packageK b!"google.protobuf"),
   el b!"q.proto" 2 (.message b!"FileOptions" false)
     [el b!"q.proto" 3 (.importK b!"gone.proto"), fld b!"q.proto" 4 b!"go_package" b!"string" 11]]
def fileQ2 : List Elem := [el b!"q2.proto" 1 (.option b!"go_package" (lit b!"q2.proto" b!"x"))]
def WQ : World := worldOf [(descriptorPath, descriptorP), (b!"q.proto", fileQ), (b!"q2.proto", fileQ2)]
def rq : Reg := (newRegistry WQ 5).2
theorem WQ_ok : newRegistry WQ 5 = (.ok (.ok ()), rq) := ok_of_okOk (by decide +kernel)
def cQ : Client := Client.exec ⟨rq, []⟩ [.proto WQ 5 b!"q.proto", .proto WQ 5 b!"q2.proto"]

end Protoast.Ex

namespace Protoast.Props
open Protoast Ex

/-- The entry that `C80_all_occur` leaves open occurs as well, but only for trees that no source text has. -/
theorem C80_go_package_occurs : (∃ P, Reachable P cQ) ∧
    panicOf cQ 0 (.plain .goPackage) = some (.noGoPackage, .noGoPackage :: everythingPanics) :=
  ⟨⟨AnyTree, WQ, 5, rq, _, fun _ _ _ _ => trivial, WQ_ok,
    fun op _ => by cases op <;> simp [Op.Sat, World.Sat, AnyTree], rfl⟩, by decide +kernel⟩

/-- Where go_package is known, `GoPackage` answers. -/
example : Reachable WFFile Ex.c2 ∧ ∃ n ∈ Ex.c2.pool, ∃ g r', goPackage n Ex.c2.reg = (.ok (some g), r') := by
  refine ⟨Ex.c2_wf, ?_⟩
  obtain ⟨a, h⟩ := Ex.hasW_spec (c := Ex.c2) (i := 0) (k := .file) (p := ⟨1, []⟩) (by decide +kernel)
  exact ⟨_, h, _, _, rfl⟩

end Protoast.Props
