import Verif.Spec.Names
import Verif.Spec.Types
import Verif.Spec.Protoc
/-
  What protoc makes of a type reference in a set of loaded files, read off the files alone.
-/
namespace Protoast

/-- The place declares a message or an enum. -/
def DeclaresType (r : Reg) (q : Ptr) : Prop :=
  ∃ n, r.kind q = some (.message n false) ∨ r.kind q = some (.enum n)

/-- `x` is the package of a loaded file, or one of the packages around it. -/
def IsPackage (r : Reg) (x : Str) : Prop :=
  ∃ (i : Nat) (f : ProtoFile), r.heap[i]? = some f ∧ packageDot f.elems ≠ [] ∧ Encloses x (packageDot f.elems)

/-- `x` is something that has members: the root, a package, a message, an enum or a service. -/
def Aggregate (r : Reg) (x : Str) : Prop :=
  x = [] ∨ IsPackage r x ∨ ∃ p n, Declared r x p ∧
    (r.kind p = some (.message n false) ∨ r.kind p = some (.enum n) ∨ r.kind p = some (.service n))

/-- protoc accepts the reference `name`, written directly inside scope `D`, as the type declared at `q`: an absolute
    name is taken as it is; for a relative one see Spec/Protoc.lean. -/
def ProtocType (r : Reg) (D name : Str) (q : Ptr) : Prop :=
  if hasDotPrefix name then Declared r name q ∧ DeclaresType r q
  else ∃ s', Encloses s' D ∧ Declared r (s' ++ dot :: name) q ∧ DeclaresType r q ∧
    ∀ s'', Encloses s'' D → s'.length < s''.length →
      if dot ∈ name then ¬ Aggregate r (s'' ++ dot :: firstPart name)
      else ∀ q', Declared r (s'' ++ dot :: name) q' → ¬ DeclaresType r q'

/-- No declaration has the full name of a package (protoc rejects such files). -/
def NoPackageClash (r : Reg) : Prop := ∀ x p, Declared r x p → ¬ IsPackage r x

/-- Nothing but types is declared under the name `name` in the scopes from `D` outwards. -/
def OnlyTypes (r : Reg) (D name : Str) : Prop :=
  ∀ s', Encloses s' D → ∀ q, Declared r (s' ++ dot :: name) q → DeclaresType r q

mutual
/-- The names declared in an element are single identifiers. -/
def Elem.plain : Elem → Bool
  | .mk _ _ k cs => (match k.declName with
      | some n => n.all (· != dot)
      | none => true) && plainAll cs
def plainAll : List Elem → Bool
  | [] => true
  | e :: es => e.plain && plainAll es
end

/-- What is assumed about parsed files: as for the theorems on names, and every declared name is an identifier. -/
def WFPlain (path : Str) (elems : List Elem) : Prop := WFFile path elems ∧ plainAll elems = true

end Protoast
