import Verif.Small.Lock
/-
  Calls that look at nothing but the parsed declaration behind the handle.
-/
namespace Protoast.Small
open Protoast

/-- Name, package, numbers, labels, comments, description and the other attributes that a handle shows without the help
    of the registry; the element type of a repeated type, the key type of a map, the parts of an option value. -/
def AccessorQ : PlainQ → Prop
  | .mapKey | .repeatedElem | .valueParts | .description | .comment | .name | .package | .isExtension | .number
  | .optional | .importPath | .syntaxValue | .reservedValues => True
  | _ => False

/-- Such a call. -/
def Accessor : Op → Prop
  | .query _ (.plain q) => AccessorQ q
  | _ => False

/-- What a lone caller has after the given calls: the calls are made one after the other, nothing else happens. -/
def Goroutine.alone (g : Goroutine) (r : Reg) (ops : List Op) : Callers :=
  Callers.exec ⟨r, [⟨g.pool, g.results⟩]⟩ (ops.map fun op => (0, op))

end Protoast.Small
