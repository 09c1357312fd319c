import Verif.Spec.Resolve
/-
  protoc's rule for type references (`DescriptorBuilder::LookupSymbolNoPlaceholder`), independent of the
  library: walk outwards from the scope the reference is written in.  For a name with several components
  the first scope where the first component is an aggregate (package, message, enum, service) decides, and
  the rest must be found in it; for a name with one component non-types are skipped.
-/
namespace Protoast

/-- The first component of a dotted name. -/
def firstPart (name : Str) : Str := name.takeWhile (· != dot)

/-- protoc, reading the reference `name` inside scope `D`, accepts it as the type `c`. -/
def ProtocAccepts (defined isAggregate isType : Str → Bool) (D name c : Str) : Prop :=
  ∃ s', Encloses s' D ∧ c = s' ++ dot :: name ∧ defined c = true ∧ isType c = true ∧
    ∀ s'', Encloses s'' D → s'.length < s''.length →
      if dot ∈ name then isAggregate (s'' ++ dot :: firstPart name) = false
      else defined (s'' ++ dot :: name) = true → isType (s'' ++ dot :: name) = false

end Protoast
