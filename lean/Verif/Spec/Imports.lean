import Verif.Model.Load
/-
  Import graphs.
-/
namespace Protoast

mutual
/-- Every path imported anywhere in an element. -/
def Elem.imports : Elem → List Str
  | .mk _ _ k cs => (match k with | .importK f => [f] | _ => []) ++ importsAll cs
/-- Every path imported anywhere in a list of elements. -/
def importsAll : List Elem → List Str
  | [] => []
  | e :: es => e.imports ++ importsAll es
end

/-- The set of paths `U` is closed under the imports of the files found at its paths. The import graph
    restricted to `U` may have cycles of any shape. -/
def ImportClosed (W : World) (U : List Str) : Prop :=
  ∀ path ∈ U, ∀ name elems, locate path W.resolvers = .ok name → W.load name path = .ok elems →
    ∀ f ∈ importsAll elems, f ∈ U

/-- The two worlds find the same for every path that is not yet loaded in `r`. -/
def AgreeOutside (r : Reg) (W W' : World) : Prop :=
  ∀ path, r.protos path = none → locate path W.resolvers = locate path W'.resolvers ∧
    ∀ name, W.load name path = W'.load name path

/-- Resolver `R` is the first in the list that does not answer "does not exist" for `path`. -/
def FirstHit (rs : List Resolver) (path : Str) (R : Resolver) : Prop :=
  ∃ pre post, rs = pre ++ R :: post ∧
    (∀ R' ∈ pre, ∃ e, R'.resolve path = .error e ∧ e.isNotExist = true) ∧
    (∀ e, R.resolve path = .error e → e.isNotExist = false)

/-- The world has a readable and parsable file for `path`: the first answering resolver gives a location
    and reading it yields `elems`. -/
def Readable (W : World) (path : Str) (elems : List Elem) : Prop :=
  ∃ R loc, FirstHit W.resolvers path R ∧ R.resolve path = .ok loc ∧ loc ≠ [] ∧
    W.load loc path = .ok elems

end Protoast
