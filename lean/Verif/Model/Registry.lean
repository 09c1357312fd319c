import Verif.Model.Ast
/-
  The registry state, the Go pointers it stores, and the small state-and-panic monad the model is
  written in.
-/
namespace Protoast

/-- A pointer to a parsed object.  `file` is the index of the `*proto.Proto` in the list of all files
    parsed so far, `path` the child indices from the object up to the file (innermost first), `[]`
    being the `*proto.Proto` itself.  Two Go pointers are equal iff these are equal.
    The `Parent` field which the parser sets in every element is therefore `path.tail`. -/
structure Ptr where
  file : Nat
  path : List Nat
deriving DecidableEq, Repr

/-- An interface value of type `proto.Visitee` used as map key: nil, a typed nil `*proto.Proto`
    (internal/core/visitor_demark.go:63 with `file` unset by internal/core/visitor_demark.go:78-80), a typed nil `*proto.Option`
    (internal/core/ast_option_value.go:18,115 pass a nil option), or a real pointer. -/
inductive Vis where
  | nil
  | nilProto
  | nilOption
  | at (p : Ptr)
deriving DecidableEq, Repr

/-- The fifteen builtin types (internal/core/ast_builtin.go:3-46). -/
inductive Builtin where
  | double | float | int32 | int64 | uint32 | uint64 | sint32 | sint64
  | fixed32 | fixed64 | sfixed32 | sfixed64 | bool | string | bytes
deriving DecidableEq, Repr

/-- Wrapper types that hold nothing but the parsed element: `Message`, `MessageField`, `Enum`,
    `EnumValue`, `OneOfBranch`, `File`, `Service`, `Method`, `Import`, `Reserved`, `Syntax`, `Package`
    (internal/core/registry_types.go:147-203). -/
inductive WKind where
  | file | message | messageField | enum | enumValue | oneofBranch | service | method
  | importW | reserved | syntaxW | packageW
deriving DecidableEq, Repr

/-- Option values (internal/core/ast_option_value.go:149-218). `opt` is the embedded `option *proto.Option`
    (`none` = nil), `lit` the `proto *proto.Literal`; `array` has no literal because
    internal/core/ast_option_value.go:20-25 never sets it.  A float64 is represented by its bits. -/
inductive OptVal where
  | bool (opt : Option Ptr) (lit : Literal) (value : Bool)
  | int (opt : Option Ptr) (lit : Literal) (value : Int)
  | uint (opt : Option Ptr) (lit : Literal) (value : Nat)
  | float (opt : Option Ptr) (lit : Literal) (bits : UInt64)
  | string (opt : Option Ptr) (lit : Literal) (value : Str)
  | bytes (opt : Option Ptr) (lit : Literal) (value : Str)
  | enum (opt : Option Ptr) (lit : Literal) (addr : Nat) (p : Ptr)
  | array (opt : Option Ptr) (value : List OptVal)
  | map (opt : Option Ptr) (lit : Literal) (value : List (Str × OptVal))

/-- The embedded option pointer of an option value (internal/core/ast_option_value.go:139-147). -/
def OptVal.opt : OptVal → Option Ptr
  | .bool o _ _ | .int o _ _ | .uint o _ _ | .float o _ _ | .string o _ _ | .bytes o _ _ => o
  | .enum o _ _ _ => o
  | .array o _ => o
  | .map o _ _ => o

/-- A non-nil value of the Go interface `Node` (internal/core/ast.go:15-18).  `addr` is the address of the wrapper
    struct, so `==` on Go pointers is equality of `addr`.
    * `wrapped`: the single-field wrappers;
    * `option`: `*Option` with its `proto`, `optionClass`, `optionField` (internal/core/ast_option.go:11-16);
    * `oneof`, `map`: `*OneOf`, `*Map` (internal/core/ast_message.go:248-254);
    * `repeated`: `*Repeated` with its possibly nil element type (internal/core/ast_repeated.go:9-12);
    * `builtin`: the package-level builtin type values (internal/core/registry_types.go:261-277);
    * `value`: an option value; `mapItem`: a pointer to an item of a map value. -/
inductive Node where
  | wrapped (addr : Nat) (k : WKind) (p : Ptr)
  | option (addr : Nat) (p cls field : Ptr)
  | oneof (addr : Nat) (p : Ptr)
  | map (addr : Nat) (p : Ptr)
  | repeated (addr : Nat) (elem : Option Node)
  | builtin (b : Builtin)
  | value (v : OptVal)
  | mapItem (key : Str) (v : OptVal)

/-- `Registry` (internal/core/registry.go:11-20) plus the part of the Go heap that is visible through it.
    * `heap`: every `*proto.Proto` ever parsed, in order of parsing;
    * `next`: the next fresh wrapper address.
    The `resolvers` field is immutable and is passed separately as part of `World`.
    `ftcache` is keyed by the address of the `*MessageField`. A nil `Node` or `Type` is `none`. -/
structure Reg where
  heap : List ProtoFile
  protos : Str → Option Nat
  registry : Str → Option Ptr
  scopes : Vis → Option Str
  cache : Vis → Option (Option Node)
  ftcache : Nat → Option (Option Node)
  next : Nat

/-- The empty registry of internal/core/registry.go:23-30. -/
def Reg.empty : Reg :=
  { heap := [], protos := fun _ => none, registry := fun _ => none, scopes := fun _ => none,
    cache := fun _ => none, ftcache := fun _ => none, next := 0 }

/-- Dereference a pointer to an element. -/
def Reg.elem (r : Reg) (p : Ptr) : Option Elem := (r.heap[p.file]?).bind (·.elemAt p.path)

/-- The dynamic type and payload of an element pointer. -/
def Reg.kind (r : Reg) (p : Ptr) : Option Kind := (r.elem p).map Elem.kind

/-- The `Elements`/`Options` slice of the object a pointer refers to. -/
def Reg.children (r : Reg) (p : Ptr) : Option (List Elem) :=
  (r.heap[p.file]?).bind (·.childrenAt p.path)

/-- Pointer to the i-th child. -/
def Ptr.child (p : Ptr) (i : Nat) : Ptr := ⟨p.file, i :: p.path⟩

/-- `xs` with consecutive indices from `n`, as pointers to children of `p`. -/
def kidsFrom (p : Ptr) : Nat → List Elem → List (Ptr × Elem)
  | _, [] => []
  | n, e :: es => (p.child n, e) :: kidsFrom p (n + 1) es

/-- The children of an object together with the pointers to them. A pointer always refers to a live
    object in Go; for a pointer that refers to nothing the model has no children. -/
def Reg.kids (r : Reg) (p : Ptr) : List (Ptr × Elem) := kidsFrom p 0 ((r.children p).getD [])

/-- The `Parent` field of an element. A file has none; that case is never evaluated and its value is arbitrary. -/
def Ptr.parent (p : Ptr) : Vis :=
  match p.path with
  | [] => .nilProto
  | _ :: t => .at ⟨p.file, t⟩

/-- `_, ok := r.registry[name]`. -/
def Reg.defined (r : Reg) (name : Str) : Bool := (r.registry name).isSome

/-- `r.scopes[v]`, a map read with Go's zero value for absent keys. -/
def Reg.scope (r : Reg) (v : Vis) : Str := (r.scopes v).getD []

/-- Error values.  `notExist` is an error for which `errors.Is(err, os.ErrNotExist)` holds. -/
inductive Err where
  | notExist
  | other (code : Nat)
  | parse (code : Nat)
  | notFound
  | protoNotFound
  | notDir
  | wrap (ctx : Str) (inner : Err)
deriving DecidableEq, Repr

/-- `errors.Is(err, os.ErrNotExist)` (internal/errors/is.go:7, internal/core/registry.go:81): follows `%w`
    wrapping (internal/errors/wrap.go:6-14). -/
def Err.isNotExist : Err → Bool
  | .notExist => true
  | .wrap _ e => e.isNotExist
  | _ => false

/-- Run-time panics. -/
inductive Panic where
  /-- `wrap` on an unsupported dynamic type, internal/core/registry_types.go:205 -/
  | unsupportedType
  /-- internal/core/registry_types.go:136 -/
  | notAType
  /-- a failed `x.(T)` -/
  | typeAssertion
  /-- nil pointer dereference -/
  | nilDeref
  /-- default branches of the type switches over nodes -/
  | unsupportedNode
  /-- internal/core/ast_option.go:41 -/
  | optionFieldNotFound
  /-- internal/core/visitor_demark.go:75 -/
  | importFailed (path : Str) (err : Err)
  /-- internal/core/ast_message.go:266 -/
  | oneofHasNoValue
  /-- internal/core/ast_map.go:22 -/
  | badMapKey
  /-- internal/core/ast_map.go:47 -/
  | badMapValue
  /-- internal/core/ast_option_value.go:32,44,56,68 -/
  | badLiteral
  /-- internal/core/ast_option_value.go:99 -/
  | unknownEnumValue
  /-- internal/core/ast_option_value.go:113 -/
  | unknownField
  /-- internal/core/ast_option_value.go:129 -/
  | unknownFieldType
  /-- internal/core/registry_simple.go:44 -/
  | noGoPackage
  /-- a handle that Go's type system would not allow; no call ends in it (C80_panics, C80_well_typed) -/
  | illTyped
deriving DecidableEq, Repr

/-- Outcome of running Go code: normal result, panic, or (only for the two functions that take a
    step budget) budget exhausted. -/
inductive Res (α : Type) where
  | ok (a : α)
  | panic (p : Panic)
  | timeout
deriving Repr

/-- A Go computation on a registry. State changes made before a panic persist. -/
def M (α : Type) : Type := Reg → Res α × Reg

/-- Normal return. -/
def M.pure {α : Type} (a : α) : M α := fun r => (.ok a, r)

/-- Sequential composition. -/
def M.bind {α β : Type} (m : M α) (f : α → M β) : M β := fun r =>
  match m r with
  | (.ok a, r') => f a r'
  | (.panic p, r') => (.panic p, r')
  | (.timeout, r') => (.timeout, r')

instance : Monad M where
  pure := M.pure
  bind := M.bind

/-- `panic(...)`. -/
def M.panic {α : Type} (p : Panic) : M α := fun r => (.panic p, r)

/-- Read the state. -/
def M.get : M Reg := fun r => (.ok r, r)

/-- Change the state. -/
def M.modify (f : Reg → Reg) : M Unit := fun r => (.ok (), f r)

/-- Allocate a fresh wrapper address. -/
def M.alloc : M Nat := fun r => (.ok r.next, { r with next := r.next + 1 })

@[simp] theorem M.pure_apply {α} (a : α) (r : Reg) : (Pure.pure a : M α) r = (.ok a, r) := rfl
@[simp] theorem M.bind_apply {α β} (m : M α) (f : α → M β) (r : Reg) :
    (m >>= f) r = match m r with
      | (.ok a, r') => f a r'
      | (.panic p, r') => (.panic p, r')
      | (.timeout, r') => (.timeout, r') := rfl
@[simp] theorem M.panic_apply {α} (p : Panic) (r : Reg) : (M.panic p : M α) r = (.panic p, r) := rfl
@[simp] theorem M.get_apply (r : Reg) : M.get r = (.ok r, r) := rfl
@[simp] theorem M.modify_apply (f : Reg → Reg) (r : Reg) : M.modify f r = (.ok (), f r) := rfl
@[simp] theorem M.alloc_apply (r : Reg) :
    M.alloc r = (.ok r.next, { r with next := r.next + 1 }) := rfl

end Protoast
