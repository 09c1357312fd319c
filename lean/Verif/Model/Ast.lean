import Verif.Model.Str
/-
  The syntax tree produced by github.com/emicklei/proto v1.14.3 (an external dependency, not part of
  /repo), restricted to the fields that /repo reads.

  Simplification: every element is one rose-tree node `Elem.mk pos comment kind children`.
  `children` is the Go field the library walks: `Elements` for files, messages, extends, enums, enum
  fields, oneofs, services, rpcs and groups, and `Options` for normal and map fields
  (internal/core/registry_meta.go:256,260,298).  Go pointers to elements are modelled by `Ptr` (see Registry.lean).
-/
namespace Protoast

/-- `text/scanner.Position`. -/
structure Position where
  filename : Str := []
  offset : Nat := 0
  line : Nat := 0
  column : Nat := 0
deriving DecidableEq, Repr

/-- `proto.Literal`: the fields `Position`, `Source`, `Array`, `OrderedMap` read in
    internal/core/ast_option_value.go:14-131 and internal/core/registry_meta.go:199-218. `OrderedMap` entries are
    (`NamedLiteral.Name`, `NamedLiteral.Literal`). -/
inductive Literal where
  | mk (pos : Position) (source : Str) (array : List Literal) (orderedMap : List (Str × Literal))

/-- `Literal.Position`. -/
def Literal.pos : Literal → Position | .mk p _ _ _ => p
/-- `Literal.Source`. -/
def Literal.source : Literal → Str | .mk _ s _ _ => s
/-- `Literal.Array`. -/
def Literal.array : Literal → List Literal | .mk _ _ a _ => a
/-- `Literal.OrderedMap`. -/
def Literal.orderedMap : Literal → List (Str × Literal) | .mk _ _ _ m => m

/-- `proto.Range`, read in internal/core/ast_reserved.go:18-34. -/
structure Range where
  lo : Int
  hi : Int
  max : Bool
deriving DecidableEq, Repr

/-- The dynamic type of a `proto.Visitee` other than `*proto.Proto`, with its payload.
    `edition`, `extensions`, `group` and `comment` occur in parsed files but are only ever skipped or
    rejected by /repo. -/
inductive Kind where
  | syntaxK (value : Str)
  | edition
  | packageK (name : Str)
  | importK (filename : Str)
  | option (name : Str) (constant : Literal)
  | message (name : Str) (isExtend : Bool)
  | normalField (name type : Str) (sequence : Int) (isRepeated isOptional : Bool)
  | mapField (name keyType type : Str) (sequence : Int)
  | oneof (name : Str)
  | oneofField (name type : Str) (sequence : Int)
  | enum (name : Str)
  | enumField (name : Str) (integer : Int)
  | service (name : Str)
  | rpc (name requestType returnsType : Str) (streamsRequest streamsReturns : Bool)
  | reserved (ranges : List Range) (fieldNames : List Str)
  | extensions
  | group (name : Str)
  | comment

/-- A parsed element: position, attached comment lines (`none` is a nil `*proto.Comment`), kind and
    children. -/
inductive Elem where
  | mk (pos : Position) (comment : Option (List Str)) (kind : Kind) (children : List Elem)

/-- Position of an element. -/
def Elem.pos : Elem → Position | .mk p _ _ _ => p
/-- Comment of an element. -/
def Elem.comment : Elem → Option (List Str) | .mk _ c _ _ => c
/-- Kind of an element. -/
def Elem.kind : Elem → Kind | .mk _ _ k _ => k
/-- Children of an element. -/
def Elem.children : Elem → List Elem | .mk _ _ _ cs => cs

@[simp] theorem Elem.pos_mk (p c k cs) : (Elem.mk p c k cs).pos = p := rfl
@[simp] theorem Elem.comment_mk (p c k cs) : (Elem.mk p c k cs).comment = c := rfl
@[simp] theorem Elem.kind_mk (p c k cs) : (Elem.mk p c k cs).kind = k := rfl
@[simp] theorem Elem.children_mk (p c k cs) : (Elem.mk p c k cs).children = cs := rfl

/-- Induction on elements. -/
theorem Elem.ind {P : Elem → Prop}
    (h : ∀ pos c k cs, (∀ e ∈ cs, P e) → P (.mk pos c k cs)) : ∀ e, P e := by
  intro e
  exact e.rec (motive_1 := P) (motive_2 := fun cs => ∀ e ∈ cs, P e)
    (fun pos c k cs ih => h pos c k cs ih) (by simp) (by
      intro a as ha has e he
      cases he with
      | head => exact ha
      | tail _ h => exact has e h)

/-- `proto.Proto`: file name and top-level elements. -/
structure ProtoFile where
  filename : Str
  elems : List Elem

/-- Children of the element reached by a path; the path is innermost index first, `[]` is the file
    itself. -/
def ProtoFile.childrenAt (f : ProtoFile) : List Nat → Option (List Elem)
  | [] => some f.elems
  | i :: rest => ((f.childrenAt rest).bind (·[i]?)).map Elem.children

/-- The element reached by a non-empty path (innermost index first). -/
def ProtoFile.elemAt (f : ProtoFile) : List Nat → Option Elem
  | [] => none
  | i :: rest => (f.childrenAt rest).bind (·[i]?)

end Protoast
