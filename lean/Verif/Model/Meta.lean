import Verif.Model.Options
/-
  internal/core/registry_meta.go (NodeIndex, NodeDescription, Comment, Pos), internal/core/registry_types.go (TypeName,
  NodeParent, NodeHierarchy, NodeFile), internal/core/registry_simple.go, and Option.Is of internal/core/ast_option.go.
-/
namespace Protoast

/-- internal/core/registry_meta.go:14-48 `NodeIndex`. -/
def nodeIndex : Node → M Str
  | .wrapped _ k p => do
    let r ← M.get
    match k with
    | .file => pure (r.scope (.at p))
    | .message => pure (r.scope (.at p))
    | .enum => pure (r.scope (.at p))
    | .service => pure (r.scope (.at p))
    | .method => pure (r.scope (.at p))
    | .messageField =>
      match r.kind p with
      | some (.normalField _ _ _ _ _) => pure (r.scope (.at p))
      | some (.oneof _) => pure (r.scope (.at p))
      | some (.mapField _ _ _ _) => pure (r.scope (.at p))
      | _ => pure []
    | .enumValue => pure (r.scope (.at p))
    | .oneofBranch => pure (r.scope (.at p))
    | _ => pure []
  | .oneof _ p => do
    let r ← M.get
    pure (r.scope (.at p))
  | .map _ p => do
    let r ← M.get
    pure (r.scope (.at p))
  | _ => pure []

/-- internal/core/registry_meta.go:50-87 `NodeDescription`. -/
def nodeDescription : Node → M Str
  | .wrapped _ k _ =>
    match k with
    | .file => pure b!"file"
    | .syntaxW => pure b!"syntax"
    | .packageW => pure b!"package"
    | .importW => pure b!"import"
    | .message => pure b!"message"
    | .enum => pure b!"enum"
    | .service => pure b!"service"
    | .method => pure b!"method"
    | .messageField => pure b!"message field"
    | .enumValue => pure b!"enum value"
    | .oneofBranch => pure b!"oneof branch"
    | .reserved => pure b!"reserved"
  | .option _ _ _ _ => pure b!"option"
  | .oneof _ _ => pure b!"oneof"
  | .map _ p => do
    -- `r.NodeDescription(n.Key())` comes first; `Key` returns a builtin type, and builtin types end
    -- in the panicking default branch, so the value part is never reached.
    let k ← Map.key p
    match k with
    | .builtin _ => M.panic .unsupportedNode
    | _ => M.panic .illTyped
  | .repeated _ (some t) => do
    let d ← nodeDescription t
    pure (b!"[]" ++ d)
  | .repeated _ none => M.panic .unsupportedNode
  | .builtin _ => M.panic .unsupportedNode
  | .value _ => M.panic .unsupportedNode
  | .mapItem _ _ => M.panic .unsupportedNode

/-- internal/core/registry_meta.go:89-159 `Comment`; a nil slice is `none`. -/
def comment : Node → M (Option (List Str))
  | .wrapped _ k p => do
    let r ← M.get
    match k with
    | .message => pure ((r.elem p).bind Elem.comment)
    | .messageField =>
      match r.kind p with
      | some (.normalField _ _ _ _ _) => pure ((r.elem p).bind Elem.comment)
      | some (.oneof _) => pure ((r.elem p).bind Elem.comment)
      | some (.mapField _ _ _ _) => pure ((r.elem p).bind Elem.comment)
      | _ => M.panic .unsupportedNode
    | .enum => pure ((r.elem p).bind Elem.comment)
    | .enumValue => pure ((r.elem p).bind Elem.comment)
    | .oneofBranch => pure ((r.elem p).bind Elem.comment)
    | .service => pure ((r.elem p).bind Elem.comment)
    | .method => pure ((r.elem p).bind Elem.comment)
    | .reserved => pure ((r.elem p).bind Elem.comment)
    | .importW => pure ((r.elem p).bind Elem.comment)
    | .syntaxW => pure ((r.elem p).bind Elem.comment)
    | .packageW => pure ((r.elem p).bind Elem.comment)
    | .file => pure none
  | .oneof _ p => do
    let r ← M.get
    pure ((r.elem p).bind Elem.comment)
  | .map _ p => do
    let r ← M.get
    pure ((r.elem p).bind Elem.comment)
  | _ => pure none

/-- internal/core/registry_types.go:12-27 `TypeName`. -/
def typeName : Node → M Str
  | .wrapped _ k p => do
    let r ← M.get
    match k with
    | .message => pure (r.scope (.at p))
    | .enum => pure (r.scope (.at p))
    | _ => M.panic .unsupportedNode
  | .repeated _ (some t) => do
    let s ← typeName t
    pure (b!"repeated " ++ s)
  | .repeated _ none => M.panic .unsupportedNode
  | .oneof _ _ => pure b!"oneof"
  | .builtin b => pure b.toStr
  | _ => M.panic .unsupportedNode

/-- internal/core/registry_types.go:33-80 `NodeParent`. -/
def nodeParent : Node → M (Option Node)
  | .repeated _ (some t) => nodeParent t
  | .repeated _ none => M.panic .unsupportedNode
  | .wrapped _ k p => do
    let r ← M.get
    match k with
    | .message => wrap p.parent
    | .messageField =>
      match r.kind p with
      | some (.normalField _ _ _ _ _) => wrap p.parent
      | some (.oneof _) => wrap p.parent
      | some (.mapField _ _ _ _) => wrap p.parent
      | _ => M.panic .unsupportedNode
    | .enum => wrap p.parent
    | .enumValue => wrap p.parent
    | .oneofBranch => wrap p.parent
    | .service => wrap p.parent
    | .method => wrap p.parent
    | .reserved => wrap p.parent
    | .importW => wrap p.parent
    | .syntaxW => wrap p.parent
    | .packageW => wrap p.parent
    | .file => pure none
  | .oneof _ p => wrap p.parent
  | .option _ p _ _ => wrap p.parent
  | .value v =>
    match v.opt with
    | some o => wrap (.at o)
    | none => wrap .nilOption
  | .map _ _ => M.panic .unsupportedNode
  | .builtin _ => M.panic .unsupportedNode
  | .mapItem _ _ => M.panic .unsupportedNode

/-- `slices.Collect(r.NodeHierarchy(node))`, internal/core/registry_types.go:82-92. The counter bounds the number of
    steps; theorem C35 shows that it is not needed. -/
def nodeHierarchy : Nat → Option Node → M (List Node)
  | _, none => pure []
  | 0, some _ => fun r => (.timeout, r)
  | n + 1, some node => do
    let parent ← nodeParent node
    let rest ← nodeHierarchy n parent
    pure (node :: rest)

/-- The position of a parsed element, `x.proto.Position`. -/
def elemPos (p : Ptr) : M Position := do
  let r ← M.get
  match r.elem p with
  | some e => pure e.pos
  | none => M.panic .illTyped

/-- internal/core/ast_file.go:199-204: `File.pos`. -/
def filePos (p : Ptr) : M Position := do
  let r ← M.get
  match r.heap[p.file]? with
  | some f => pure { filename := f.filename, line := 1 }
  | none => M.panic .illTyped

/-- The unexported method `pos()` of every node type (internal/core/ast.go:94, internal/core/ast_enum.go:97,99,
    internal/core/ast_file.go:199-204, internal/core/ast_import.go:21, internal/core/ast_map.go:54, internal/core/ast_message.go:293-307, internal/core/ast_oneof.go:73,75,
    internal/core/ast_option.go:128, internal/core/ast_option_value.go:144, internal/core/ast_package.go:20, internal/core/ast_repeated.go:17,
    internal/core/ast_reserved.go:83, internal/core/ast_service.go:116,118, internal/core/ast_syntax.go:20). -/
def nodePos : Node → M Position
  | .wrapped _ .file p => filePos p
  | .wrapped _ _ p => elemPos p
  | .option _ p _ _ => elemPos p
  | .oneof _ p => elemPos p
  | .map _ p => elemPos p
  | .repeated _ (some t) => nodePos t
  | .repeated _ none => M.panic .nilDeref
  | .builtin _ => pure {}
  | .value v =>
    match v.opt with
    | some o => elemPos o
    | none => M.panic .nilDeref
  | .mapItem _ _ => M.panic .nilDeref

/-- internal/core/registry_types.go:96-104 `NodeFile`. -/
def nodeFile (node : Node) : M (Option Node) := do
  let pos ← nodePos node
  let r ← M.get
  match r.protos pos.filename with
  | none => pure none
  | some i => do
    let f ← wrapAs .file ⟨i, []⟩
    pure (some f)

/-- The switch of internal/core/registry_meta.go:178-243. -/
def posBody : Node → M Position
  | .wrapped _ .file p => filePos p
  | .wrapped _ _ p => elemPos p
  | .option _ p _ _ => elemPos p
  | .oneof _ p => elemPos p
  | .map _ p => elemPos p
  | .value v =>
    match v with
    | .bool _ lit _ => pure lit.pos
    | .int _ lit _ => pure lit.pos
    | .uint _ lit _ => pure lit.pos
    | .float _ lit _ => pure lit.pos
    | .string _ lit _ => pure lit.pos
    | .bytes _ lit _ => pure lit.pos
    | .enum _ lit _ _ => pure lit.pos
    -- `proto` of an array value is nil
    | .array _ _ => M.panic .nilDeref
    | .map _ lit _ => pure lit.pos
  -- `proto` of a map item is nil
  | .mapItem _ _ => M.panic .nilDeref
  | .repeated _ _ => M.panic .unsupportedNode
  | .builtin _ => M.panic .unsupportedNode

/-- `last := nodes[len(nodes)-1]; file := last.(*File)` (internal/core/registry_meta.go:173-174). -/
def lastFile : List Node → M Ptr
  | [] => M.panic .nilDeref
  | [.wrapped _ .file p] => pure p
  | [_] => M.panic .typeAssertion
  | _ :: b :: rest => lastFile (b :: rest)

/-- The deferred function of internal/core/registry_meta.go:162-176, run with the result so far. -/
def posDefer (fuel : Nat) (node : Node) (res : Position) : M Position := do
  if res.filename ≠ [] then pure res
  else do
    let nodes ← nodeHierarchy fuel (some node)
    let f ← lastFile nodes
    let name ← File.name f
    pure { res with filename := name }

/-- internal/core/registry_meta.go:161-244 `Pos`. After a panic in the switch the deferred function runs on the zero
    position; the panic then continues unless the deferred function panics itself. -/
def pos (fuel : Nat) (node : Node) : M Position := fun r =>
  match posBody node r with
  | (.ok res, r') => posDefer fuel node res r'
  | (.panic e, r') =>
    match posDefer fuel node {} r' with
    | (.ok _, r'') => (.panic e, r'')
    | (.panic e', r'') => (.panic e', r'')
    | (.timeout, r'') => (.timeout, r'')
  | (.timeout, r') => (.timeout, r')

/-- internal/core/registry_simple.go:9-18 `TypeIsDefined`. -/
def typeIsDefined (typ : Node) (ref : Str) : M Bool := do
  let r ← M.get
  match typ with
  | .wrapped _ .message p => pure (r.registry ref = some p)
  | .wrapped _ .enum p => pure (r.registry ref = some p)
  | _ => pure false

/-- internal/core/registry_simple.go:20-34 `TypeIsGoogleProtobufAny`, `Empty`, `Timestamp`, `Duration`. -/
def typeIsAny (t : Node) : M Bool := typeIsDefined t b!".google.protobuf.Any"
def typeIsEmpty (t : Node) : M Bool := typeIsDefined t b!".google.protobuf.Empty"
def typeIsTimestamp (t : Node) : M Bool := typeIsDefined t b!".google.protobuf.Timestamp"
def typeIsDuration (t : Node) : M Bool := typeIsDefined t b!".google.protobuf.Duration"

/-- `GoPackageOption` (internal/core/registry_simple.go:87-90). -/
structure GoPackageInfo where
  path : Str
  name : Str
deriving DecidableEq, Repr

/-- internal/core/registry_simple.go:92-94 `IsValid`. -/
def GoPackageInfo.isValid (o : GoPackageInfo) : Bool := o.path != [] && o.name != []

/-- internal/core/registry_simple.go:51-62: split the source at the first semicolon. -/
def splitGoPackage (source : Str) : GoPackageInfo :=
  match indexByte 59 source with
  | none => { path := source, name := [] }
  | some i => { path := source.take i, name := source.drop (i + 1) }

/-- `".google.protobuf.FileOptions.go_package"` (internal/core/registry_simple.go:42). -/
def goPackageField : Str := b!".google.protobuf.FileOptions.go_package"

/-- internal/core/registry_simple.go:36-63 `GoPackageOption`. -/
def goPackageOption (node : Node) : M (Option GoPackageInfo) :=
  match node with
  | .option _ opt _ field => do
    let r ← M.get
    match r.registry goPackageField with
    | none => M.panic .noGoPackage
    | some sample =>
      if field ≠ sample then pure none
      else
        match r.kind opt with
        | some (.option _ constant) => pure (some (splitGoPackage constant.source))
        | _ => M.panic .illTyped
  | _ => pure none

/-- The loop body of internal/core/registry_simple.go:71-82; the loop state is the value to return, if any. -/
def goPackageBody (s : Option (Option GoPackageInfo)) (a : Option Node) :
    M (Option (Option GoPackageInfo) × Bool) :=
  match a with
  | some (.option ad o c f) => do
    let name ← Option.name o c f
    if name ≠ b!"(.google.protobuf.FileOptions).go_package" then pure (s, true)
    else do
      let g ← goPackageOption (.option ad o c f)
      pure (some g, false)
  | _ => pure (s, true)

/-- internal/core/registry_simple.go:65-85 `GoPackage`. -/
def goPackage (node : Node) : M (Option GoPackageInfo) := do
  match ← nodeFile node with
  | some (.wrapped _ .file p) => do
    let res ← Seq.run (File.everything p) goPackageBody none
    match res with
    | some g => pure g
    | none => pure none
  | _ => pure none

/-- internal/core/ast_option.go:70-72 `Option.Is`. -/
def Option.is (field : Ptr) (name : Str) : M Bool := do
  match ← wrap (.at field) with
  | some n => do
    let idx ← nodeIndex n
    pure (idx == name)
  | none => pure (([] : Str) == name)

end Protoast
