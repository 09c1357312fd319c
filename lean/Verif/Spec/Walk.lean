import Verif.Spec.Navigate
import Verif.Spec.Types
import Mathlib.Logic.ExistsUnique
/-
  A program of a client of the library: it collects the handles of all declarations of a file with a full walk. The
  program is not part of the repository. In Go:

    func walkFile(f *File) (ns []Node) {
      for x := range f.Imports() { ns = append(ns, x) }
      for x := range f.Types() { ns = walkType(ns, x) }
      for x := range f.Services() { ns = append(ns, x); for m := range x.Methods() { ns = append(ns, m) } }
      return
    }
    func walkType(ns []Node, x Type) []Node {
      ns = append(ns, x)
      switch x := x.(type) {
      case *Message:
        for f := range x.Fields() {
          ns = append(ns, f)
          if o, ok := f.Type().(*OneOf); ok { for b := range o.Branches() { ns = append(ns, b) } }
        }
        for t := range x.Types() { ns = walkType(ns, t) }
      case *Enum:
        for v := range x.Values() { ns = append(ns, v) }
      }
      return ns
    }
-/
namespace Protoast.Walk
open Protoast

/-- `ns = append(ns, x)` -/
def collect (ns : List Node) (x : Node) : M (List Node × Bool) := pure (ns ++ [x], true)

/-- The body of the loop over the fields of a message. -/
def walkField (ns : List Node) (x : Node) : M (List Node × Bool) :=
  match x with
  | .wrapped a .messageField p => do
    match ← MessageField.type a p with
    | some (.oneof _ q) =>
      let ns ← (OneOf.branches q).run collect (ns ++ [x])
      pure (ns, true)
    | _ => pure (ns ++ [x], true)
  | _ => M.panic .illTyped

/-- `walkType`; the first argument bounds the depth of the recursion, which has no result beyond it. -/
def walkType : Nat → List Node → Node → M (List Node × Bool)
  | 0, _, _ => fun r => (.timeout, r)
  | fuel + 1, ns, x =>
    match x with
    | .wrapped _ .message p => do
      let ns ← (Message.fields p).run walkField (ns ++ [x])
      let ns ← (Message.types p).run (walkType fuel) ns
      pure (ns, true)
    | .wrapped _ .enum p => do
      let ns ← (Enum.values p).run collect (ns ++ [x])
      pure (ns, true)
    | _ => M.panic .illTyped

/-- The body of the loop over the services. -/
def walkService (ns : List Node) (x : Node) : M (List Node × Bool) :=
  match x with
  | .wrapped _ .service p => do
    let ns ← (Service.methods p).run collect (ns ++ [x])
    pure (ns, true)
  | _ => M.panic .illTyped

/-- `walkFile` of the file at `p`. -/
def walkFile (fuel : Nat) (p : Ptr) : M (List Node) := do
  let ns ← (File.imports p).run collect []
  let ns ← (File.types p).run (walkType fuel) ns
  (File.services p).run walkService ns

/-- The field at `p` has a type name that denotes something that is not a type. -/
def Misused (r : Reg) (p : Ptr) : Prop :=
  ∃ n typ s rep opt q kd, r.kind p = some (.normalField n typ s rep opt) ∧ ¬ IsKeyword typ ∧
    Refers r (r.scope (.at p)) typ q ∧ r.kind q = some kd ∧ kd.isType = false

/-- Some visible field of file `i` is misused so. -/
def SomeMisused (r : Reg) (i : Nat) : Prop := ∃ p, p.file = i ∧ Visible r p ∧ Misused r p

/-- `n` is a handle of the right kind for the declaration at `p`. -/
def HandleOf (r : Reg) (n : Node) (p : Ptr) : Prop :=
  ∃ a kd k, n = .wrapped a k p ∧ r.kind p = some kd ∧ kd.handleKind = some k

/-- The list holds handles of visible declarations of file `i` only, and each of these has exactly one place in it. -/
def AllOnce (r : Reg) (i : Nat) (ns : List Node) : Prop :=
  (∀ n ∈ ns, ∃ p, p.file = i ∧ Visible r p ∧ HandleOf r n p) ∧
  ∀ p, p.file = i → Visible r p → ∃! j : Nat, ∃ n, ns[j]? = some n ∧ HandleOf r n p

end Protoast.Walk
