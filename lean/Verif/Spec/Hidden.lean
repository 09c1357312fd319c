import Verif.Spec.Program
/-
  A type reference that protoc understands and the library does not: something that is not a type has the same name and
  is closer.
-/
namespace Protoast

/-- The reference `name`, written directly inside scope `D`, is a single identifier without leading dot; `x` is the
    closest declaration of that name around (nothing called `name` is declared in a scope further in), and it is neither a
    message nor an enum. (protoc skips it.) -/
def HiddenBy (r : Reg) (D name : Str) (x : Ptr) : Prop :=
  dot ∉ name ∧ ¬ DeclaresType r x ∧
  ∃ s', Encloses s' D ∧ Declared r (s' ++ dot :: name) x ∧
    ∀ s'', Encloses s'' D → s'.length < s''.length → ∀ y, ¬ Declared r (s'' ++ dot :: name) y

/-- Nothing hides what the reference `name` means for protoc. -/
def InSight (r : Reg) (D name : Str) : Prop := ∀ x, ¬ HiddenBy r D name x

/-- An enum constant is declared at the place. -/
def DeclaresConstant (r : Reg) (x : Ptr) : Prop := ∃ n v, r.kind x = some (.enumField n v)

end Protoast
