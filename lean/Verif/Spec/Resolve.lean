import Verif.Model.Str
/-
  Specification of name lookup, independent of the resolver's loop.
-/
namespace Protoast

/-- `s'` is an enclosing scope of `s`: `s` itself or `s` cut just before one of its dots. -/
def Encloses (s' s : Str) : Prop := s' = s ∨ ∃ t, s = s' ++ dot :: t

/-- A scope written with its leading dot; the root scope is empty. -/
def dotted (s : Str) : Str :=
  match s with
  | [] => []
  | c :: cs => if c = dot then c :: cs else dot :: c :: cs

/-- `c` is the candidate of `name` in the innermost enclosing scope of `s` that has one. -/
def Innermost (defined : Str → Bool) (s name c : Str) : Prop :=
  ∃ s', Encloses s' s ∧ c = s' ++ dot :: name ∧ defined c = true ∧
    ∀ s'', Encloses s'' s → s'.length < s''.length → defined (s'' ++ dot :: name) = false

end Protoast
