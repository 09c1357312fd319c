import Verif.Model.Load
/-
  Node wrapping and type lookup: internal/core/registry_types.go.
-/
namespace Protoast

/-- The wrapper type chosen by the type switch internal/core/registry_types.go:147-206 for an element; `none` is the
    panicking default branch. -/
def wrapKind : Kind → Option WKind
  | .message _ _ => some .message
  | .normalField _ _ _ _ _ => some .messageField
  | .enum _ => some .enum
  | .enumField _ _ => some .enumValue
  | .oneof _ => some .messageField
  | .oneofField _ _ _ => some .oneofBranch
  | .mapField _ _ _ _ => some .messageField
  | .service _ => some .service
  | .rpc _ _ _ _ _ => some .method
  | .importK _ => some .importW
  | .reserved _ _ => some .reserved
  | .syntaxK _ => some .syntaxW
  | .packageK _ => some .packageW
  | .option _ _ => none
  | .edition => none
  | .extensions => none
  | .group _ => none
  | .comment => none

/-- The wrapper type and payload for a `proto.Visitee` value (internal/core/registry_types.go:147-206).
    A typed nil `*proto.Proto` is never passed to `wrap` and is treated as unsupported here. -/
def Reg.wrapTarget (r : Reg) : Vis → Option (WKind × Ptr)
  | .nil => none
  | .nilProto => none
  | .nilOption => none
  | .at p =>
    match p.path with
    | [] => if p.file < r.heap.length then some (.file, p) else none
    | _ :: _ => ((r.kind p).bind wrapKind).map fun k => (k, p)

/-- internal/core/registry_types.go:139-207 `wrap`. The deferred cache write also runs when the default branch
    panics, storing the still-nil result. -/
def wrap (v : Vis) : M (Option Node) := fun r =>
  match r.cache v with
  | some n => (.ok n, r)
  | none =>
    match r.wrapTarget v with
    | some (k, p) =>
      let n : Node := .wrapped r.next k p
      (.ok (some n), { r with next := r.next + 1, cache := upd r.cache v (some n) })
    | none => (.panic .unsupportedType, { r with cache := upd r.cache v none })

/-- A type assertion `x.(*T)` for a wrapper type `T`, as in `r.wrap(v).(*Message)`. -/
def assertKind (k : WKind) : Option Node → M Node
  | some (.wrapped a k' p) => if k' = k then pure (.wrapped a k' p) else M.panic .typeAssertion
  | _ => M.panic .typeAssertion

/-- `r.wrap(v).(*T)`. -/
def wrapAs (k : WKind) (p : Ptr) : M Node := do
  let n ← wrap (.at p)
  assertKind k n

/-- `String()` of the builtin types (internal/core/ast_builtin.go:48-62). -/
def Builtin.toStr : Builtin → Str
  | .double => b!"double"
  | .float => b!"float"
  | .int32 => b!"int32"
  | .int64 => b!"int64"
  | .uint32 => b!"uint32"
  | .uint64 => b!"uint64"
  | .sint32 => b!"sint32"
  | .sint64 => b!"sint64"
  | .fixed32 => b!"fixed32"
  | .fixed64 => b!"fixed64"
  | .sfixed32 => b!"sfixed32"
  | .sfixed64 => b!"sfixed64"
  | .bool => b!"bool"
  | .string => b!"string"
  | .bytes => b!"bytes"

/-- internal/core/registry_types.go:226-259 `builtinComparableType`. -/
def builtinComparableType (name : Str) : Option Builtin :=
  if name = b!"float" then some .float
  else if name = b!"double" then some .double
  else if name = b!"int32" then some .int32
  else if name = b!"int64" then some .int64
  else if name = b!"uint32" then some .uint32
  else if name = b!"uint64" then some .uint64
  else if name = b!"sint32" then some .sint32
  else if name = b!"sint64" then some .sint64
  else if name = b!"fixed32" then some .fixed32
  else if name = b!"fixed64" then some .fixed64
  else if name = b!"sfixed32" then some .sfixed32
  else if name = b!"sfixed64" then some .sfixed64
  else if name = b!"bool" then some .bool
  else if name = b!"string" then some .string
  else none

/-- internal/core/registry_types.go:213-224 `builtinType`. -/
def builtinType (name : Str) : Option Builtin :=
  match builtinComparableType name with
  | some b => some b
  | none => if name = b!"bytes" then some .bytes else none

/-- Which nodes implement the `Type` interface (internal/core/ast.go:32-35 through the embedded `isType`):
    `Message`, `Enum`, `EnumValue` (internal/core/ast_enum.go:18-24), `OneOf`, `Map`, `Repeated`, builtins. -/
def Node.isType : Node → Bool
  | .wrapped _ .message _ => true
  | .wrapped _ .enum _ => true
  | .wrapped _ .enumValue _ => true
  | .wrapped _ _ _ => false
  | .oneof _ _ => true
  | .map _ _ => true
  | .repeated _ _ => true
  | .builtin _ => true
  | .option _ _ _ _ => false
  | .value _ => false
  | .mapItem _ _ => false

/-- `scopeOf.(*proto.NormalField)` and its `Repeated` flag (internal/core/registry_types.go:108-109). -/
def Reg.isRepeatedField (r : Reg) (p : Ptr) : Bool :=
  match r.kind p with
  | some (.normalField _ _ _ rep _) => rep
  | _ => false

/-- The body of internal/core/registry_types.go:106-137 `getTypeByName`, without its deferred function. -/
def lookupType (scopeOf : Ptr) (name : Str) : M (Option Node) :=
  match builtinType name with
  | some b => pure (some (.builtin b))
  | none => do
    let r ← M.get
    match resolveNameRaw r.defined (r.scope (.at scopeOf)) name with
    | (_, false) => pure none
    | (resolved, true) =>
      match r.registry resolved with
      | none => pure none
      | some obj => do
        match ← wrap (.at obj) with
        | some n => if n.isType then pure (some n) else M.panic .notAType
        | none => M.panic .notAType

/-- internal/core/registry_types.go:106-137 `getTypeByName`: the deferred function wraps whatever was found, nil
    included, into `&Repeated{}` when the scope element is a repeated normal field. (On a panic the
    deferred allocation is unobservable and left out.) -/
def getTypeByName (scopeOf : Ptr) (name : Str) : M (Option Node) := do
  let res ← lookupType scopeOf name
  let r ← M.get
  if r.isRepeatedField scopeOf then do
    let a ← M.alloc
    pure (some (.repeated a res))
  else pure res

/-- internal/core/registry_types.go:29-31 `NodeByFullName`. -/
def nodeByFullName (name : Str) : M (Option Node) := do
  let r ← M.get
  match r.registry name with
  | some p => wrap (.at p)
  | none => wrap .nil

end Protoast
