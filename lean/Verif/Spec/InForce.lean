import Verif.Spec.Names
/-
  Names of declarations in files with package statements at any place: what the library makes of them.
-/
namespace Protoast

/-- The scope of the last package statement of the list, empty if there is none. -/
def lastPackageDot : List Elem → Str → Str
  | [], s => s
  | e :: es, s => lastPackageDot es (match e.kind with
      | .packageK n => dot :: n
      | _ => s)

/-- The scope in which the element at `path` is declared: for a top level element that of the last package statement
    above it, for others the scope of the enclosing element. -/
def ProtoFile.placeScope (f : ProtoFile) : List Nat → Option Str
  | [] => none
  | [j] => some (lastPackageDot (f.elems.take j) [])
  | _ :: m :: rest =>
    match f.placeScope (m :: rest), f.elemAt (m :: rest) with
    | some s, some e => e.kind.memberScope s
    | _, _ => none

/-- The name of the declaration at `path` by the package statements above it. -/
def ProtoFile.nameInForce (f : ProtoFile) (path : List Nat) : Option Str :=
  match f.placeScope path, (f.elemAt path).bind (·.kind.declName) with
  | some s, some n => some (s ++ dot :: n)
  | _, _ => none

/-- `p` points to a declaration of a loaded file whose name by the package statements above it is `name`. -/
def DeclaredInForce (r : Reg) (name : Str) (p : Ptr) : Prop :=
  ∃ f, r.heap[p.file]? = some f ∧ f.nameInForce p.path = some name

/-- Package and import statements at top level only, in any number and at any place, with proper names. -/
def FlatFile (_path : Str) (elems : List Elem) : Prop :=
  (∀ e ∈ elems, e.flat = true) ∧
  ∀ e ∈ elems, ∀ n, e.kind = .packageK n → n ≠ [] ∧ hasDotPrefix n = false

end Protoast
