import Verif.Spec.Iter
/-
  Parents, hierarchies, files and positions.
-/
namespace Protoast

/-- `Y` is the node for the object `X` is a handle of. Messages, fields, enums, services, methods … have one
    node, which must be `X` itself; a file may have several `*File` handles (C26); a oneof is a field of
    its message, `*OneOf` being the type of that field. -/
def IsParent (X Y : Node) : Prop :=
  match X with
  | .wrapped _ .file p => ∃ a, Y = .wrapped a .file p
  | .oneof _ p => ∃ a, Y = .wrapped a .messageField p
  | X => Y = X

/-- A handle of something written in a proto file: everything but `*Map` (the type of a map field), builtin
    types, `*Repeated` and option values. -/
def Node.source : Node → Option Ptr
  | .wrapped _ _ p => some p
  | .option _ p _ _ => some p
  | .oneof _ p => some p
  | _ => none

/-- The places around a place, innermost first, the file last. -/
def enclosing (file : Nat) : List Nat → List Ptr
  | [] => [⟨file, []⟩]
  | i :: rest => ⟨file, i :: rest⟩ :: enclosing file rest

/-- Neighbours in a list are related. -/
def Linked {α : Type} (R : α → α → Prop) : List α → Prop
  | a :: b :: l => R a b ∧ Linked R (b :: l)
  | _ => True

/-! ### Positions in parsed files -/

mutual
/-- All positions in a literal satisfy `Q`. -/
def Literal.posAll (Q : Position → Bool) : Literal → Bool
  | .mk pos _ array items => Q pos && litsPosAll Q array && itemsPosAll Q items
def litsPosAll (Q : Position → Bool) : List Literal → Bool
  | [] => true
  | l :: ls => l.posAll Q && litsPosAll Q ls
def itemsPosAll (Q : Position → Bool) : List (Str × Literal) → Bool
  | [] => true
  | x :: xs => itemPosAll Q x && itemsPosAll Q xs
def itemPosAll (Q : Position → Bool) : Str × Literal → Bool
  | (_, l) => l.posAll Q
end

/-- All positions in the literal of an option satisfy `Q`. -/
def Kind.posAll (Q : Position → Bool) : Kind → Bool
  | .option _ l => l.posAll Q
  | _ => true

mutual
/-- All positions in an element satisfy `Q`. -/
def Elem.posAll (Q : Position → Bool) : Elem → Bool
  | .mk pos _ k cs => Q pos && k.posAll Q && elemsPosAll Q cs
def elemsPosAll (Q : Position → Bool) : List Elem → Bool
  | [] => true
  | e :: es => e.posAll Q && elemsPosAll Q es
end

/-- The assumption about the parser for the theorems on positions and files: every position carries the path
    as its file name (the parser is given it, internal/core/registry.go:143-145). -/
def Positioned (path : Str) (elems : List Elem) : Prop :=
  path ≠ [] ∧ elemsPosAll (fun pos => pos.filename == path) elems = true

/-- The same for a parser that leaves the file name empty in some positions. -/
def LooselyPositioned (path : Str) (elems : List Elem) : Prop :=
  elemsPosAll (fun pos => pos.filename == path || pos.filename == []) elems = true

/-- A handle of something written in a proto file, `*Map` (the type of a map field) included. -/
def Node.origin : Node → Option Ptr
  | .wrapped _ _ p => some p
  | .option _ p _ _ => some p
  | .oneof _ p => some p
  | .map _ p => some p
  | _ => none

/-- The position of a parsed object, line 1 for a file; the file name is that under which the file was loaded. -/
def sourcePos (r : Reg) (p : Ptr) : Option Position :=
  match r.heap[p.file]? with
  | none => none
  | some f =>
    match p.path with
    | [] => some { filename := f.filename, line := 1 }
    | _ => (f.elemAt p.path).map fun e => { e.pos with filename := f.filename }

/-- `v'` is a part of the option value `v`, at the place where `l'` is a part of the literal `l`. -/
inductive SubValue (v : OptVal) (l : Literal) : OptVal → Literal → Prop where
  | self : SubValue v l v l
  | elem {o vs lit} (i : Nat) {v' l'} : SubValue v l (.array o vs) lit → vs[i]? = some v' →
      lit.array[i]? = some l' → SubValue v l v' l'
  | item {o l0 items lit} (i : Nat) {k v' k' l'} : SubValue v l (.map o l0 items) lit →
      items[i]? = some (k, v') → lit.orderedMap[i]? = some (k', l') → SubValue v l v' l'

/-- The value is an array. -/
def OptVal.isArray : OptVal → Bool
  | .array _ _ => true
  | _ => false

end Protoast
