import Verif.Small.Prog
import Verif.Spec.Attr
/-
  The functions of Model/*.lean as programs in small steps. Each definition has the same text as the one of the same
  name in the model, with `P` for `M`; those that look into a cache or write to a map spell out their steps.
-/
namespace Protoast.Small
open Protoast

/-! ### Load.lean -/

/-- internal/core/registry.go:72-104 `protoFile`; the result is the index of the `*proto.Proto` in the heap.
    `parsed.Filename = path` (internal/core/registry.go:102) is folded into the allocation. -/
def protoFile (W : World) (path : Str) : P (Except Err Nat) := do
  let r ← P.get
  match r.protos path with
  | some i => pure (.ok i)
  | none =>
    match locate path W.resolvers with
    | .error e => pure (.error e)
    | .ok protoName =>
      if protoName = [] then pure (.error .notFound)
      else
        match W.load protoName path with
        | .error e => pure (.error (.wrap (b!"get proto definition from resolved file " ++ protoName) e))
        | .ok elems => .parse ⟨path, elems⟩ fun i => .write (.proto path i) (.ret (.ok i))

/-- `v.r.registry[name] = x`. -/
def setName (name : Str) (p : Ptr) : P Unit := P.put (.name name p)

/-- `v.r.scopes[x] = scope`. -/
def setScope (v : Vis) (scope : Str) : P Unit := P.put (.scope v scope)

mutual
/-- `e.Accept(v)` for the visitor of internal/core/visitor_demark.go:10-137. The mutable field `v.scope` is passed
    in and returned; `v.file` is `key`; `imp` is the body of `VisitImport`; the write-only field
    `isExtend` is left out.  `p` is the pointer to the visited element.  A panic discards the visitor
    together with its scope, so the scope need not survive one.
    * `VisitMessage` 22-38, `VisitService` 40-51, `VisitSyntax` 53, `VisitPackage` 55-64,
      `VisitOption` 66, `VisitImport` 68, `VisitNormalField` 84-88, `VisitEnumField` 90-93,
      `VisitEnum` 95-102, `VisitComment` 104, `VisitOneof` 106-115, `VisitOneofField` 116-120,
      `VisitReserved` 122, `VisitRPC` 124-128, `VisitMapField` 130-134, `VisitGroup` 136,
      `VisitExtensions` 137. An edition statement has no visitor method in the parser library. -/
def visit (imp : Str → P Unit) (key : Vis) : Elem → Ptr → Str → P Str
  | .mk _ _ k cs, p, scope =>
    match k with
    | .message name isExtend =>
      if isExtend then do
        let _ ← visitAll imp key cs p 0 scope
        pure scope
      else do
        let inner := scopedName scope name
        setName inner p
        setScope (.at p) inner
        let _ ← visitAll imp key cs p 0 inner
        pure scope
    | .service name => do
      let inner := scopedName scope name
      setName inner p
      setName inner p
      setScope (.at p) inner
      let _ ← visitAll imp key cs p 0 inner
      pure scope
    | .packageK name => do
      let scope' := packageScope scope name
      setScope key scope'
      pure scope'
    | .importK filename => do
      imp filename
      pure scope
    | .normalField name _ _ _ _ => do
      setName (scopedName scope name) p
      setScope (.at p) (scopedName scope name)
      pure scope
    | .enumField name _ => do
      setName (scopedName scope name) p
      pure scope
    | .enum name => do
      setName (scopedName scope name) p
      setScope (.at p) (scopedName scope name)
      visitAll imp key cs p 0 scope
    | .oneof name => do
      setName (scopedName scope name) p
      setScope (.at p) (scopedName scope name)
      let _ ← visitAll imp key cs p 0 scope
      pure scope
    | .oneofField name _ _ => do
      setName (scopedName scope name) p
      setScope (.at p) (scopedName scope name)
      pure scope
    | .rpc name _ _ _ _ => do
      setName (scopedName scope name) p
      setScope (.at p) (scopedName scope name)
      pure scope
    | .mapField name _ _ _ => do
      setName (scopedName scope name) p
      setScope (.at p) (scopedName scope name)
      pure scope
    | .syntaxK _ => pure scope
    | .edition => pure scope
    | .option _ _ => pure scope
    | .reserved _ _ => pure scope
    | .extensions => pure scope
    | .group _ => pure scope
    | .comment => pure scope
/-- `for _, e := range elements { e.Accept(v) }` (internal/core/visitor_demark.go:32-34,47-49,99-101,111-113 and
    `Proto.Accept` of the parser library); the elements are the children of `p` from index `n` on. -/
def visitAll (imp : Str → P Unit) (key : Vis) : List Elem → Ptr → Nat → Str → P Str
  | [], _, _, scope => pure scope
  | e :: es, p, n, scope => do
    let scope' ← visit imp key e (p.child n) scope
    visitAll imp key es p (n + 1) scope'
end

/-- `file.Accept(v)` with a fresh visitor (internal/core/registry.go:63-67, internal/core/visitor_demark.go:78-81): the visitor
    starts with the empty scope. -/
def acceptFile (imp : Str → P Unit) (key : Vis) (i : Nat) : P Unit := do
  let r ← P.get
  let _ ← visitAll imp key ((r.children ⟨i, []⟩).getD []) ⟨i, []⟩ 0 []
  pure ()

/-- internal/core/visitor_demark.go:68-82 `VisitImport`. The counter bounds the import depth; running out is
    reported as `timeout`, and theorem C06 shows that it never happens for finite import graphs. -/
def visitImport (W : World) : Nat → Str → P Unit
  | 0, _ => P.timeout
  | n + 1, path => do
    let r ← P.get
    match r.protos path with
    | some _ => pure ()
    | none => do
      match ← protoFile W path with
      | .error e => P.panic (.importFailed path e)
      | .ok i => acceptFile (visitImport W n) .nilProto i

/-- internal/core/registry.go:57-70 `demarkFile`. -/
def demarkFile (W : World) (fuel : Nat) (path : Str) : P (Except Err Unit) := do
  match ← protoFile W path with
  | .error e => pure (.error e)
  | .ok i => do
    acceptFile (visitImport W fuel) (.at ⟨i, []⟩) i
    pure (.ok ())

/-- `&File{proto: file}` (internal/core/registry.go:42): a fresh wrapper on every call. -/
def newFile (i : Nat) : P Node := do
  let a ← P.new
  pure (.wrapped a .file ⟨i, []⟩)

/-- internal/core/registry.go:38-55 `Proto`: the two rounds of the loop, written out. -/
def proto (W : World) (fuel : Nat) (path : Str) : P (Except Err Node) := do
  let r ← P.get
  match r.protos path with
  | some i => do let f ← newFile i; pure (.ok f)
  | none => do
    match ← demarkFile W fuel path with
    | .error e => pure (.error (.wrap (b!"resolve proto file " ++ path) e))
    | .ok () => do
      let r ← P.get
      match r.protos path with
      | some i => do let f ← newFile i; pure (.ok f)
      | none => pure (.error .protoNotFound)

/-! ### Wrap.lean -/

/-- internal/core/registry_types.go:139-207 `wrap`. The deferred cache write also runs when the default branch
    panics, storing the still-nil result. -/
def wrap (v : Vis) : P (Option Node) := do
  let r ← P.get
  match r.cache v with
  | some n => pure n
  | none =>
    match r.wrapTarget v with
    | some (k, p) => .alloc fun a => .write (.node v (some (.wrapped a k p))) (.ret (some (.wrapped a k p)))
    | none => .write (.node v none) (.panic .unsupportedType)

/-- A type assertion `x.(*T)` for a wrapper type `T`, as in `r.wrap(v).(*Message)`. -/
def assertKind (k : WKind) : Option Node → P Node
  | some (.wrapped a k' p) => if k' = k then pure (.wrapped a k' p) else P.panic .typeAssertion
  | _ => P.panic .typeAssertion

/-- `r.wrap(v).(*T)`. -/
def wrapAs (k : WKind) (p : Ptr) : P Node := do
  let n ← wrap (.at p)
  assertKind k n

/-- The body of internal/core/registry_types.go:106-137 `getTypeByName`, without its deferred function. -/
def lookupType (scopeOf : Ptr) (name : Str) : P (Option Node) :=
  match builtinType name with
  | some b => pure (some (.builtin b))
  | none => do
    let r ← P.get
    match resolveNameRaw r.defined (r.scope (.at scopeOf)) name with
    | (_, false) => pure none
    | (resolved, true) =>
      match r.registry resolved with
      | none => pure none
      | some obj => do
        match ← wrap (.at obj) with
        | some n => if n.isType then pure (some n) else P.panic .notAType
        | none => P.panic .notAType

/-- internal/core/registry_types.go:106-137 `getTypeByName`: the deferred function wraps whatever was found, nil
    included, into `&Repeated{}` when the scope element is a repeated normal field. (On a panic the
    deferred allocation is unobservable and left out.) -/
def getTypeByName (scopeOf : Ptr) (name : Str) : P (Option Node) := do
  let res ← lookupType scopeOf name
  let r ← P.get
  if r.isRepeatedField scopeOf then do
    let a ← P.new
    pure (some (.repeated a res))
  else pure res

/-- internal/core/registry_types.go:29-31 `NodeByFullName`. -/
def nodeByFullName (name : Str) : P (Option Node) := do
  let r ← P.get
  match r.registry name with
  | some p => wrap (.at p)
  | none => wrap .nil

/-! ### Nodes.lean -/

/-- A Go iterator `iter.Seq[T]`: evaluating it (the start of `range`) gives the list of steps that
    remain after the `continue` filters; each step computes one element, then yields it. -/
abbrev Seq (α : Type) := P (List (P α))

/-- Run the steps with a loop body. The body has its own state, may use the registry, and returns
    whether to go on (`yield` returning true). -/
def runSteps {α σ : Type} (body : σ → α → P (σ × Bool)) : List (P α) → σ → P σ
  | [], s => pure s
  | m :: ms, s => do
    let a ← m
    let (s', go) ← body s a
    if go then runSteps body ms s' else pure s'

/-- `for x := range seq { body }`. -/
def Seq.run {α σ : Type} (seq : Seq α) (body : σ → α → P (σ × Bool)) (init : σ) : P σ := do
  let steps ← seq
  runSteps body steps init

/-- Compute all elements of a list of steps. -/
def collectSteps {α : Type} : List (P α) → P (List α)
  | [] => pure []
  | m :: ms => do
    let a ← m
    let as ← collectSteps ms
    pure (a :: as)

/-- `slices.Collect(seq)`. -/
def Seq.collect {α : Type} (seq : Seq α) : P (List α) := do
  let steps ← seq
  collectSteps steps

/-- A loop over the children of `p`: `pick` says which elements are not skipped and what is computed
    for them. -/
def overKids {α : Type} (p : Ptr) (pick : Ptr → Kind → Option (P α)) : P (List (P α)) := do
  let r ← P.get
  pure ((r.kids p).filterMap fun (q, e) => pick q e.kind)

/-- A loop that returns the wrapped first child satisfying a predicate, nil if there is none. -/
def firstKid (p : Ptr) (k : WKind) (sel : Kind → Bool) : P (Option Node) := do
  let r ← P.get
  match (r.kids p).find? fun (_, e) => sel e.kind with
  | some (q, _) => do let n ← wrapAs k q; pure (some n)
  | none => pure none

/-- internal/core/ast_file.go:17-19 `File.Name`. -/
def File.name (p : Ptr) : P Str := do
  let r ← P.get
  match r.heap[p.file]? with
  | some f => pure f.filename
  | none => P.panic .illTyped

/-- internal/core/ast_file.go:22-31 `File.Package`. -/
def File.package (p : Ptr) : P Str := do
  let r ← P.get
  pure (firstPackage ((r.children p).getD []))

/-- internal/core/ast_file.go:34-46 `File.Imports`. -/
def File.imports (p : Ptr) : Seq Node :=
  overKids p fun q k => match k with
    | .importK _ => some (wrapAs .importW q)
    | _ => none

/-- internal/core/ast_file.go:49-60 `File.Messages`. -/
def File.messages (p : Ptr) : Seq Node :=
  overKids p fun q k => match k with
    | .message _ false => some (wrapAs .message q)
    | _ => none

/-- internal/core/ast_file.go:63-72 `File.Message`; extend blocks are not filtered out. -/
def File.message (p : Ptr) (name : Str) : P (Option Node) :=
  firstKid p .message fun k => match k with
    | .message n _ => n == name
    | _ => false

/-- internal/core/ast_file.go:75-86 `File.Enums`. -/
def File.enums (p : Ptr) : Seq Node :=
  overKids p fun q k => match k with
    | .enum _ => some (wrapAs .enum q)
    | _ => none

/-- internal/core/ast_file.go:89-100 `File.Enum`. -/
def File.enum (p : Ptr) (name : Str) : P (Option Node) :=
  firstKid p .enum fun k => match k with
    | .enum n => n == name
    | _ => false

/-- `r.wrap(v).(NamedType)` (internal/core/ast_file.go:112,114): messages and enums implement `NamedType`
    (internal/core/ast.go:58-61). -/
def wrapNamed (p : Ptr) : P Node := do
  match ← wrap (.at p) with
  | some (.wrapped a .message q) => pure (.wrapped a .message q)
  | some (.wrapped a .enum q) => pure (.wrapped a .enum q)
  | _ => P.panic .typeAssertion

/-- internal/core/ast_file.go:103-123 `File.Types`. -/
def File.types (p : Ptr) : Seq Node :=
  overKids p fun q k => match k with
    | .message _ false => some (wrapNamed q)
    | .enum _ => some (wrapNamed q)
    | _ => none

/-- internal/core/ast_file.go:126-146 `File.Type`; extend blocks are not filtered out. -/
def File.type (p : Ptr) (name : Str) : P (Option Node) := do
  let r ← P.get
  match (r.kids p).find? fun (_, e) => match e.kind with
      | .message n _ => n == name
      | .enum n => n == name
      | _ => false with
  | some (q, e) =>
    match e.kind with
    | .message _ _ => do let n ← wrapAs .message q; pure (some n)
    | _ => do let n ← wrapAs .enum q; pure (some n)
  | none => pure none

/-- internal/core/ast_file.go:148-161 `File.Services`. -/
def File.services (p : Ptr) : Seq Node :=
  overKids p fun q k => match k with
    | .service _ => some (wrapAs .service q)
    | _ => none

/-- internal/core/ast_file.go:163-178 `File.Service`. -/
def File.service (p : Ptr) (name : Str) : P (Option Node) :=
  firstKid p .service fun k => match k with
    | .service n => n == name
    | _ => false

/-- internal/core/ast_message.go:27-29 `Message.Name`. -/
def Message.name (p : Ptr) : P Str := do
  let r ← P.get
  match r.kind p with
  | some (.message n _) => pure n
  | _ => P.panic .illTyped

/-- internal/core/ast_message.go:31-33 `Message.IsExtension`. -/
def Message.isExtension (p : Ptr) : P Bool := do
  let r ← P.get
  match r.kind p with
  | some (.message _ e) => pure e
  | _ => P.panic .illTyped

/-- internal/core/ast_message.go:36-55 `Message.Fields`. -/
def Message.fields (p : Ptr) : Seq Node :=
  overKids p fun q k => match k with
    | .normalField _ _ _ _ _ => some (wrapAs .messageField q)
    | .oneof _ => some (wrapAs .messageField q)
    | .mapField _ _ _ _ => some (wrapAs .messageField q)
    | _ => none

/-- internal/core/ast_message.go:58-85 `Message.Field`. -/
def Message.field (p : Ptr) (name : Str) : P (Option Node) :=
  firstKid p .messageField fun k => match k with
    | .normalField n _ _ _ _ => n == name
    | .oneof n => n == name
    | .mapField n _ _ _ => n == name
    | _ => false

/-- internal/core/ast_message.go:88-103 `Message.Messages`. -/
def Message.messages (p : Ptr) : Seq Node :=
  overKids p fun q k => match k with
    | .message _ false => some (wrapAs .message q)
    | _ => none

/-- internal/core/ast_message.go:106-123 `Message.Message`. -/
def Message.message (p : Ptr) (name : Str) : P (Option Node) :=
  firstKid p .message fun k => match k with
    | .message n false => n == name
    | _ => false

/-- internal/core/ast_message.go:126-137 `Enum.Enums` (the receiver really is `*Enum`). -/
def Enum.enums (p : Ptr) : Seq Node :=
  overKids p fun q k => match k with
    | .enum _ => some (wrapAs .enum q)
    | _ => none

/-- internal/core/ast_message.go:140-153 `Enum.Enum` (the receiver really is `*Enum`). -/
def Enum.enum (p : Ptr) (name : Str) : P (Option Node) :=
  firstKid p .enum fun k => match k with
    | .enum n => n == name
    | _ => false

/-- internal/core/ast_message.go:156-177 `Message.Types`. -/
def Message.types (p : Ptr) : Seq Node :=
  overKids p fun q k => match k with
    | .message _ false => some (wrapAs .message q)
    | .enum _ => some (wrapAs .enum q)
    | _ => none

/-- internal/core/ast_message.go:180-202 `Message.Type`. -/
def Message.type (p : Ptr) (name : Str) : P (Option Node) := do
  let r ← P.get
  match (r.kids p).find? fun (_, e) => match e.kind with
      | .message n false => n == name
      | .enum n => n == name
      | _ => false with
  | some (q, e) =>
    match e.kind with
    | .message _ _ => do let n ← wrapAs .message q; pure (some n)
    | _ => do let n ← wrapAs .enum q; pure (some n)
  | none => pure none

/-- internal/core/ast_message.go:222-233 `MessageField.Name`. -/
def MessageField.name (p : Ptr) : P Str := do
  let r ← P.get
  match r.kind p with
  | some (.normalField n _ _ _ _) => pure n
  | some (.oneof n) => pure n
  | some (.mapField n _ _ _) => pure n
  | _ => P.panic .illTyped

/-- The body of internal/core/ast_message.go:243-257 without cache and deferred write. -/
def fieldTypeBody (p : Ptr) : P (Option Node) := do
  let r ← P.get
  match r.kind p with
  | some (.normalField _ typ _ _ _) => getTypeByName p typ
  | some (.oneof _) => do let a ← P.new; pure (some (.oneof a p))
  | some (.mapField _ _ _ _) => do let a ← P.new; pure (some (.map a p))
  | _ => P.panic .illTyped

/-- internal/core/ast_message.go:236-258 `MessageField.Type`. The deferred cache write also runs on a panic, storing
    nil. -/
def MessageField.type (addr : Nat) (p : Ptr) : P (Option Node) := do
  let r ← P.get
  match r.ftcache addr with
  | some t => pure t
  | none => (fieldTypeBody p).deferred fun t => .fieldType addr (t.getD none)

/-- internal/core/ast_message.go:261-272 `MessageField.Value`. -/
def MessageField.value (p : Ptr) : P Int := do
  let r ← P.get
  match r.kind p with
  | some (.normalField _ _ s _ _) => pure s
  | some (.oneof _) => P.panic .oneofHasNoValue
  | some (.mapField _ _ _ s) => pure s
  | _ => P.panic .illTyped

/-- internal/core/ast_message.go:275-286 `MessageField.Optional`. -/
def MessageField.optional (p : Ptr) : P Bool := do
  let r ← P.get
  match r.kind p with
  | some (.normalField _ _ _ _ o) => pure o
  | some (.oneof _) => pure false
  | some (.mapField _ _ _ _) => pure false
  | _ => P.panic .illTyped

/-- internal/core/ast_enum.go:27-29 `Enum.Name`. -/
def Enum.name (p : Ptr) : P Str := do
  let r ← P.get
  match r.kind p with
  | some (.enum n) => pure n
  | _ => P.panic .illTyped

/-- internal/core/ast_enum.go:32-46 `Enum.Values`. -/
def Enum.values (p : Ptr) : Seq Node :=
  overKids p fun q k => match k with
    | .enumField _ _ => some (wrapAs .enumValue q)
    | _ => none

/-- internal/core/ast_enum.go:49-64 `Enum.Value`. -/
def Enum.value (p : Ptr) (name : Str) : P (Option Node) :=
  firstKid p .enumValue fun k => match k with
    | .enumField n _ => n == name
    | _ => false

/-- internal/core/ast_enum.go:84-86 `EnumValue.Name`. -/
def EnumValue.name (p : Ptr) : P Str := do
  let r ← P.get
  match r.kind p with
  | some (.enumField n _) => pure n
  | _ => P.panic .illTyped

/-- internal/core/ast_enum.go:88-90 `EnumValue.Value`. -/
def EnumValue.value (p : Ptr) : P Int := do
  let r ← P.get
  match r.kind p with
  | some (.enumField _ v) => pure v
  | _ => P.panic .illTyped

/-- internal/core/ast_oneof.go:24-37 `OneOf.Branches`. -/
def OneOf.branches (p : Ptr) : Seq Node :=
  overKids p fun q k => match k with
    | .oneofField _ _ _ => some (wrapAs .oneofBranch q)
    | _ => none

/-- internal/core/ast_oneof.go:40-55 `OneOf.Branch`. -/
def OneOf.branch (p : Ptr) (name : Str) : P (Option Node) :=
  firstKid p .oneofBranch fun k => match k with
    | .oneofField n _ _ => n == name
    | _ => false

/-- internal/core/ast_oneof.go:57 `OneOfBranch.Name`. -/
def OneOfBranch.name (p : Ptr) : P Str := do
  let r ← P.get
  match r.kind p with
  | some (.oneofField n _ _) => pure n
  | _ => P.panic .illTyped

/-- internal/core/ast_oneof.go:59-61 `OneOfBranch.Type`. -/
def OneOfBranch.type (p : Ptr) : P (Option Node) := do
  let r ← P.get
  match r.kind p with
  | some (.oneofField _ t _) => getTypeByName p t
  | _ => P.panic .illTyped

/-- internal/core/ast_oneof.go:63-65 `OneOfBranch.Value`. -/
def OneOfBranch.value (p : Ptr) : P Int := do
  let r ← P.get
  match r.kind p with
  | some (.oneofField _ _ s) => pure s
  | _ => P.panic .illTyped

/-- internal/core/ast_service.go:23-25 `Service.Name`. -/
def Service.name (p : Ptr) : P Str := do
  let r ← P.get
  match r.kind p with
  | some (.service n) => pure n
  | _ => P.panic .illTyped

/-- internal/core/ast_service.go:28-41 `Service.Methods`. -/
def Service.methods (p : Ptr) : Seq Node :=
  overKids p fun q k => match k with
    | .rpc _ _ _ _ _ => some (wrapAs .method q)
    | _ => none

/-- internal/core/ast_service.go:44-59 `Service.Method`. -/
def Service.method (p : Ptr) (name : Str) : P (Option Node) :=
  firstKid p .method fun k => match k with
    | .rpc n _ _ _ _ => n == name
    | _ => false

/-- internal/core/ast_service.go:79-81 `Method.Name`. -/
def Method.name (p : Ptr) : P Str := do
  let r ← P.get
  match r.kind p with
  | some (.rpc n _ _ _ _) => pure n
  | _ => P.panic .illTyped

/-- internal/core/ast_service.go:84-87 `Method.Input`. -/
def Method.input (p : Ptr) : P (Bool × Node) := do
  let r ← P.get
  match r.kind p with
  | some (.rpc _ req _ sreq _) => do
    let t ← getTypeByName p req
    let m ← assertKind .message t
    pure (sreq, m)
  | _ => P.panic .illTyped

/-- internal/core/ast_service.go:90-93 `Method.Output`. -/
def Method.output (p : Ptr) : P (Bool × Node) := do
  let r ← P.get
  match r.kind p with
  | some (.rpc _ _ ret _ sret) => do
    let t ← getTypeByName p ret
    let m ← assertKind .message t
    pure (sret, m)
  | _ => P.panic .illTyped

/-- internal/core/ast_map.go:19-26 `Map.Key`. -/
def Map.key (p : Ptr) : P Node := do
  let r ← P.get
  match r.kind p with
  | some (.mapField _ keyType _ _) =>
    match builtinComparableType keyType with
    | some b => pure (.builtin b)
    | none => P.panic .badMapKey
  | _ => P.panic .illTyped

/-- internal/core/ast_map.go:29-49 `Map.Value`. -/
def Map.value (p : Ptr) : P Node := do
  let r ← P.get
  match r.kind p with
  | some (.mapField _ _ typ _) =>
    match builtinType typ with
    | some b => pure (.builtin b)
    | none =>
      match r.registry (mapValueName typ) with
      | none => P.panic .badMapValue
      | some q =>
        match r.kind q with
        | some (.message _ _) => wrapAs .message q
        | some (.enum _) => wrapAs .enum q
        | _ => P.panic .badMapValue
  | _ => P.panic .illTyped

/-- internal/core/ast_reserved.go:16-49 `Reserved.Values`. The steps touch no state. -/
def Reserved.values (p : Ptr) : P (List (P ReservedValue)) := do
  let r ← P.get
  match r.kind p with
  | some (.reserved ranges names) =>
    pure ((ranges.map fun g => (pure (reservedRange g) : P ReservedValue)) ++
      names.map fun n => (pure (.name n) : P ReservedValue))
  | _ => P.panic .illTyped

/-- internal/core/ast_import.go:14-16 `Import.Path`. -/
def Import.path (p : Ptr) : P Str := do
  let r ← P.get
  match r.kind p with
  | some (.importK f) => pure f
  | _ => P.panic .illTyped

/-- internal/core/ast_syntax.go:15-17 `Syntax.Value`. -/
def Syntax.value (p : Ptr) : P Str := do
  let r ← P.get
  match r.kind p with
  | some (.syntaxK v) => pure v
  | _ => P.panic .illTyped

/-- internal/core/ast_package.go:13-15 `Package.Package`. -/
def Package.package (p : Ptr) : P Str := do
  let r ← P.get
  match r.kind p with
  | some (.packageK n) => pure n
  | _ => P.panic .illTyped

/-! ### Options.lean -/

/-- `r.registry[className].(*proto.Message)` (internal/core/ast_option.go:75,93 and internal/core/registry.go:106-136). -/
def optionClass (className : Str) : P Ptr := do
  let r ← P.get
  match r.registry className with
  | some p =>
    match r.kind p with
    | some (.message _ _) => pure p
    | _ => P.panic .typeAssertion
  | none => P.panic .typeAssertion

/-- internal/core/ast_option.go:18-51 `newOption`. `opt` points to the `*proto.Option`. -/
def newOption (scope : Str) (cls opt : Ptr) : P Node := do
  let r ← P.get
  match r.kind opt with
  | some (.option oname _) =>
    match resolveNameRaw r.defined scope (stripParens oname) with
    | (resolved, true) =>
      match r.registry resolved with
      | some f =>
        match r.kind f with
        | some (.normalField _ _ _ _ _) => do
          let a ← P.new
          pure (.option a opt cls f)
        | _ => P.panic .typeAssertion
      | none => P.panic .typeAssertion
    | (_, false) =>
      match builtinOptionField r cls oname with
      | some f => do
        let a ← P.new
        pure (.option a opt cls f)
      | none => P.panic .optionFieldNotFound
  | _ => P.panic .illTyped

/-- internal/core/registry_types.go:209-211 `wrapOption`: the scope is whatever is recorded for the option element
    itself. -/
def wrapOption (opt cls : Ptr) : P Node := do
  let r ← P.get
  newOption (r.scope (.at opt)) cls opt

/-- One step of an `Everything` iterator (internal/core/ast_file.go:182-192, internal/core/ast_message.go:207-217,
    internal/core/ast_enum.go:69-80, internal/core/ast_service.go:64-74). -/
def everythingStep (className : Str) (q : Ptr) (k : Kind) : Option (P (Option Node)) :=
  match k with
  | .option _ _ => some do
      let cls ← optionClass className
      let o ← wrapOption q cls
      pure (some o)
  | _ => some (wrap (.at q))

/-- internal/core/ast_file.go:180-194 `File.Everything`. -/
def File.everything (p : Ptr) : Seq (Option Node) := overKids p (everythingStep registryOptionsFile)

/-- internal/core/ast_message.go:205-219 `Message.Everything`. -/
def Message.everything (p : Ptr) : Seq (Option Node) :=
  overKids p (everythingStep registryOptionsMessage)

/-- internal/core/ast_enum.go:67-82 `Enum.Everything`. -/
def Enum.everything (p : Ptr) : Seq (Option Node) := overKids p (everythingStep registryOptionsEnum)

/-- internal/core/ast_service.go:62-76 `Service.Everything`. -/
def Service.everything (p : Ptr) : Seq (Option Node) :=
  overKids p (everythingStep registryOptionsService)

/-- internal/core/ast_service.go:95-108 `Method.Options`. -/
def Method.options (p : Ptr) : Seq Node :=
  overKids p fun q k => match k with
    | .option _ _ => some do
        let cls ← optionClass registryOptionsMethod
        wrapOption q cls
    | _ => none

/-- internal/core/ast_option.go:74-90 `seqOptions`; the class is looked up when the iterator is created. -/
def seqOptions (scope className : Str) (p : Ptr) : P (Seq Node) := do
  let cls ← optionClass className
  pure (overKids p fun q k => match k with
    | .option _ _ => some (newOption scope cls q)
    | _ => none)

/-- internal/core/ast_option.go:92-110 `namedOption`. -/
def namedOption (name scope className : Str) (p : Ptr) : P (Option Node) := do
  let cls ← optionClass className
  let r ← P.get
  match (r.kids p).find? fun (_, e) => match e.kind with
      | .option n _ => n == name
      | _ => false with
  | some (q, _) => do let o ← newOption scope cls q; pure (some o)
  | none => pure none

/-- internal/core/registry_meta.go:246-282 `Options`. -/
def options : Node → P (Seq Node)
  | .wrapped _ k p => do
    let r ← P.get
    match k with
    | .file => seqOptions (firstPackage ((r.children p).getD [])) registryOptionsFile p
    | .message => seqOptions (r.scope (.at p)) registryOptionsMessage p
    | .messageField =>
      match r.kind p with
      | some (.normalField _ _ _ _ _) => seqOptions (r.scope (.at p)) registryOptionsMessageField p
      | some (.oneof _) => seqOptions (r.scope (.at p)) registryOptionsOneof p
      | some (.mapField _ _ _ _) => seqOptions (r.scope (.at p)) registryOptionsMessageField p
      | _ => P.panic .unsupportedNode
    | .enum => seqOptions (r.scope (.at p)) registryOptionsEnum p
    | .enumValue => seqOptions (r.scope (.at p)) registryOptionsEnumValue p
    | .service => seqOptions (r.scope (.at p)) registryOptionsService p
    | .method => seqOptions (r.scope (.at p)) registryOptionsMethod p
    | _ => P.panic .unsupportedNode
  | .oneof _ p => do
    let r ← P.get
    seqOptions (r.scope (.at p)) registryOptionsOneof p
  | _ => P.panic .unsupportedNode

/-- internal/core/registry_meta.go:284-320 `OptionNamed`. The case for fields lists `*proto.Message` where
    `Options` lists `*proto.NormalField`, so a normal field ends in the panicking default. -/
def optionNamed (node : Node) (name : Str) : P (Option Node) :=
  match node with
  | .wrapped _ k p => do
    let r ← P.get
    match k with
    | .file => namedOption name (firstPackage ((r.children p).getD [])) registryOptionsFile p
    | .message => namedOption name (r.scope (.at p)) registryOptionsMessage p
    | .messageField =>
      match r.kind p with
      | some (.message _ _) => namedOption name (r.scope (.at p)) registryOptionsMessageField p
      | some (.oneof _) => namedOption name (r.scope (.at p)) registryOptionsOneof p
      | some (.mapField _ _ _ _) => namedOption name (r.scope (.at p)) registryOptionsMessageField p
      | _ => P.panic .unsupportedNode
    | .enum => namedOption name (r.scope (.at p)) registryOptionsEnum p
    | .enumValue => namedOption name (r.scope (.at p)) registryOptionsEnumValue p
    | .service => namedOption name (r.scope (.at p)) registryOptionsService p
    | .method => namedOption name (r.scope (.at p)) registryOptionsMethod p
    | _ => P.panic .unsupportedNode
  | .oneof _ p => do
    let r ← P.get
    namedOption name (r.scope (.at p)) registryOptionsOneof p
  | _ => P.panic .unsupportedNode

/-- internal/core/ast_option.go:53-63 `Option.Name`. -/
def Option.name (opt cls field : Ptr) : P Str := do
  let r ← P.get
  if field.parent = .at cls then
    match r.kind field with
    | some (.normalField n _ _ _ _) => pure (b!"(" ++ r.scope (.at cls) ++ b!")." ++ n)
    | _ => P.panic .illTyped
  else
    match r.kind opt with
    | some (.option n _) => pure n
    | _ => P.panic .illTyped

mutual
/-- internal/core/ast_option_value.go:14-131 `buildFromLiteral`. -/
def buildFromLiteral (F : FloatOps) (option : Option Ptr) (field : Ptr) (ignoreRepeat : Bool) :
    Literal → P OptVal
  | .mk pos source array orderedMap => do
    let lit := Literal.mk pos source array orderedMap
    let r ← P.get
    match r.kind field with
    | some (.normalField _ typ _ isRepeated _) =>
      if isRepeated && !ignoreRepeat then do
        let vs ← buildArray F field array
        pure (.array option vs)
      else
        match scalarClass typ with
        | .bool =>
          match parseBool source with
          | some v => pure (.bool option lit v)
          | none => P.panic .badLiteral
        | .int =>
          match atoi source with
          | some v => pure (.int option lit v)
          | none => P.panic .badLiteral
        | .uint =>
          match parseUint source with
          | some v => pure (.uint option lit v)
          | none => P.panic .badLiteral
        | .float =>
          match F.parse source with
          | some v => pure (.float option lit v)
          | none => P.panic .badLiteral
        | .string => pure (.string option lit source)
        | .bytes => pure (.bytes option lit source)
        | .named => do
          match ← getTypeByName field typ with
          | some (.wrapped _ .enum ep) => do
            match ← Enum.value ep source with
            | some (.wrapped a _ vp) => pure (.enum option lit a vp)
            | _ => P.panic .unknownEnumValue
          | some (.wrapped _ .message mp) => do
            let items ← buildItems F mp orderedMap
            pure (.map option lit items)
          | _ => P.panic .unknownFieldType
    | _ => P.panic .illTyped
/-- The array loop internal/core/ast_option_value.go:16-19. -/
def buildArray (F : FloatOps) (field : Ptr) : List Literal → P (List OptVal)
  | [] => pure []
  | l :: ls => do
    let v ← buildFromLiteral F none field true l
    let vs ← buildArray F field ls
    pure (v :: vs)
/-- The loop over message literals internal/core/ast_option_value.go:109-120. -/
def buildItems (F : FloatOps) (msg : Ptr) : List (Str × Literal) → P (List (Str × OptVal))
  | [] => pure []
  | nl :: rest => do
    let item ← buildItem F msg nl
    let items ← buildItems F msg rest
    pure (item :: items)
/-- One iteration of that loop, internal/core/ast_option_value.go:111-119. -/
def buildItem (F : FloatOps) (msg : Ptr) : Str × Literal → P (Str × OptVal)
  | (name, lit) => do
    match ← Message.field msg name with
    | some (.wrapped _ _ fp) => do
      let r ← P.get
      match r.kind fp with
      | some (.normalField _ _ _ _ _) => do
        let v ← buildFromLiteral F none fp false lit
        pure (name, v)
      | _ => P.panic .typeAssertion
    | _ => P.panic .unknownField
end

/-- internal/core/ast_option.go:65-67 `Option.Value`. -/
def Option.value (F : FloatOps) (opt field : Ptr) : P OptVal := do
  let r ← P.get
  match r.kind opt with
  | some (.option _ constant) => buildFromLiteral F (some opt) field false constant
  | _ => P.panic .illTyped

/-! ### Meta.lean -/

/-- internal/core/registry_meta.go:14-48 `NodeIndex`. -/
def nodeIndex : Node → P Str
  | .wrapped _ k p => do
    let r ← P.get
    match k with
    | .file => pure (r.scope (.at p))
    | .message => pure (r.scope (.at p))
    | .enum => pure (r.scope (.at p))
    | .service => pure (r.scope (.at p))
    | .method => pure (r.scope (.at p))
    | .messageField =>
      match r.kind p with
      | some (.normalField _ _ _ _ _) => pure (r.scope (.at p))
      | some (.oneof _) => pure (r.scope (.at p))
      | some (.mapField _ _ _ _) => pure (r.scope (.at p))
      | _ => pure []
    | .enumValue => pure (r.scope (.at p))
    | .oneofBranch => pure (r.scope (.at p))
    | _ => pure []
  | .oneof _ p => do
    let r ← P.get
    pure (r.scope (.at p))
  | .map _ p => do
    let r ← P.get
    pure (r.scope (.at p))
  | _ => pure []

/-- internal/core/registry_meta.go:50-87 `NodeDescription`. -/
def nodeDescription : Node → P Str
  | .wrapped _ k _ =>
    match k with
    | .file => pure b!"file"
    | .syntaxW => pure b!"syntax"
    | .packageW => pure b!"package"
    | .importW => pure b!"import"
    | .message => pure b!"message"
    | .enum => pure b!"enum"
    | .service => pure b!"service"
    | .method => pure b!"method"
    | .messageField => pure b!"message field"
    | .enumValue => pure b!"enum value"
    | .oneofBranch => pure b!"oneof branch"
    | .reserved => pure b!"reserved"
  | .option _ _ _ _ => pure b!"option"
  | .oneof _ _ => pure b!"oneof"
  | .map _ p => do
    -- `r.NodeDescription(n.Key())` comes first; `Key` returns a builtin type, and builtin types end
    -- in the panicking default branch, so the value part is never reached.
    let k ← Map.key p
    match k with
    | .builtin _ => P.panic .unsupportedNode
    | _ => P.panic .illTyped
  | .repeated _ (some t) => do
    let d ← nodeDescription t
    pure (b!"[]" ++ d)
  | .repeated _ none => P.panic .unsupportedNode
  | .builtin _ => P.panic .unsupportedNode
  | .value _ => P.panic .unsupportedNode
  | .mapItem _ _ => P.panic .unsupportedNode

/-- internal/core/registry_meta.go:89-159 `Comment`; a nil slice is `none`. -/
def comment : Node → P (Option (List Str))
  | .wrapped _ k p => do
    let r ← P.get
    match k with
    | .message => pure ((r.elem p).bind Elem.comment)
    | .messageField =>
      match r.kind p with
      | some (.normalField _ _ _ _ _) => pure ((r.elem p).bind Elem.comment)
      | some (.oneof _) => pure ((r.elem p).bind Elem.comment)
      | some (.mapField _ _ _ _) => pure ((r.elem p).bind Elem.comment)
      | _ => P.panic .unsupportedNode
    | .enum => pure ((r.elem p).bind Elem.comment)
    | .enumValue => pure ((r.elem p).bind Elem.comment)
    | .oneofBranch => pure ((r.elem p).bind Elem.comment)
    | .service => pure ((r.elem p).bind Elem.comment)
    | .method => pure ((r.elem p).bind Elem.comment)
    | .reserved => pure ((r.elem p).bind Elem.comment)
    | .importW => pure ((r.elem p).bind Elem.comment)
    | .syntaxW => pure ((r.elem p).bind Elem.comment)
    | .packageW => pure ((r.elem p).bind Elem.comment)
    | .file => pure none
  | .oneof _ p => do
    let r ← P.get
    pure ((r.elem p).bind Elem.comment)
  | .map _ p => do
    let r ← P.get
    pure ((r.elem p).bind Elem.comment)
  | _ => pure none

/-- internal/core/registry_types.go:12-27 `TypeName`. -/
def typeName : Node → P Str
  | .wrapped _ k p => do
    let r ← P.get
    match k with
    | .message => pure (r.scope (.at p))
    | .enum => pure (r.scope (.at p))
    | _ => P.panic .unsupportedNode
  | .repeated _ (some t) => do
    let s ← typeName t
    pure (b!"repeated " ++ s)
  | .repeated _ none => P.panic .unsupportedNode
  | .oneof _ _ => pure b!"oneof"
  | .builtin b => pure b.toStr
  | _ => P.panic .unsupportedNode

/-- internal/core/registry_types.go:33-80 `NodeParent`. -/
def nodeParent : Node → P (Option Node)
  | .repeated _ (some t) => nodeParent t
  | .repeated _ none => P.panic .unsupportedNode
  | .wrapped _ k p => do
    let r ← P.get
    match k with
    | .message => wrap p.parent
    | .messageField =>
      match r.kind p with
      | some (.normalField _ _ _ _ _) => wrap p.parent
      | some (.oneof _) => wrap p.parent
      | some (.mapField _ _ _ _) => wrap p.parent
      | _ => P.panic .unsupportedNode
    | .enum => wrap p.parent
    | .enumValue => wrap p.parent
    | .oneofBranch => wrap p.parent
    | .service => wrap p.parent
    | .method => wrap p.parent
    | .reserved => wrap p.parent
    | .importW => wrap p.parent
    | .syntaxW => wrap p.parent
    | .packageW => wrap p.parent
    | .file => pure none
  | .oneof _ p => wrap p.parent
  | .option _ p _ _ => wrap p.parent
  | .value v =>
    match v.opt with
    | some o => wrap (.at o)
    | none => wrap .nilOption
  | .map _ _ => P.panic .unsupportedNode
  | .builtin _ => P.panic .unsupportedNode
  | .mapItem _ _ => P.panic .unsupportedNode

/-- `slices.Collect(r.NodeHierarchy(node))`, internal/core/registry_types.go:82-92. The counter bounds the number of
    steps; theorem C35 shows that it is not needed. -/
def nodeHierarchy : Nat → Option Node → P (List Node)
  | _, none => pure []
  | 0, some _ => P.timeout
  | n + 1, some node => do
    let parent ← nodeParent node
    let rest ← nodeHierarchy n parent
    pure (node :: rest)

/-- The position of a parsed element, `x.proto.Position`. -/
def elemPos (p : Ptr) : P Position := do
  let r ← P.get
  match r.elem p with
  | some e => pure e.pos
  | none => P.panic .illTyped

/-- internal/core/ast_file.go:199-204: `File.pos`. -/
def filePos (p : Ptr) : P Position := do
  let r ← P.get
  match r.heap[p.file]? with
  | some f => pure { filename := f.filename, line := 1 }
  | none => P.panic .illTyped

/-- The unexported method `pos()` of every node type (internal/core/ast.go:94, internal/core/ast_enum.go:97,99,
    internal/core/ast_file.go:199-204, internal/core/ast_import.go:21, internal/core/ast_map.go:54, internal/core/ast_message.go:293-307, internal/core/ast_oneof.go:73,75,
    internal/core/ast_option.go:128, internal/core/ast_option_value.go:144, internal/core/ast_package.go:20, internal/core/ast_repeated.go:17,
    internal/core/ast_reserved.go:83, internal/core/ast_service.go:116,118, internal/core/ast_syntax.go:20). -/
def nodePos : Node → P Position
  | .wrapped _ .file p => filePos p
  | .wrapped _ _ p => elemPos p
  | .option _ p _ _ => elemPos p
  | .oneof _ p => elemPos p
  | .map _ p => elemPos p
  | .repeated _ (some t) => nodePos t
  | .repeated _ none => P.panic .nilDeref
  | .builtin _ => pure {}
  | .value v =>
    match v.opt with
    | some o => elemPos o
    | none => P.panic .nilDeref
  | .mapItem _ _ => P.panic .nilDeref

/-- internal/core/registry_types.go:96-104 `NodeFile`. -/
def nodeFile (node : Node) : P (Option Node) := do
  let pos ← nodePos node
  let r ← P.get
  match r.protos pos.filename with
  | none => pure none
  | some i => do
    let f ← wrapAs .file ⟨i, []⟩
    pure (some f)

/-- The switch of internal/core/registry_meta.go:178-243. -/
def posBody : Node → P Position
  | .wrapped _ .file p => filePos p
  | .wrapped _ _ p => elemPos p
  | .option _ p _ _ => elemPos p
  | .oneof _ p => elemPos p
  | .map _ p => elemPos p
  | .value v =>
    match v with
    | .bool _ lit _ => pure lit.pos
    | .int _ lit _ => pure lit.pos
    | .uint _ lit _ => pure lit.pos
    | .float _ lit _ => pure lit.pos
    | .string _ lit _ => pure lit.pos
    | .bytes _ lit _ => pure lit.pos
    | .enum _ lit _ _ => pure lit.pos
    -- `proto` of an array value is nil
    | .array _ _ => P.panic .nilDeref
    | .map _ lit _ => pure lit.pos
  -- `proto` of a map item is nil
  | .mapItem _ _ => P.panic .nilDeref
  | .repeated _ _ => P.panic .unsupportedNode
  | .builtin _ => P.panic .unsupportedNode

/-- `last := nodes[len(nodes)-1]; file := last.(*File)` (internal/core/registry_meta.go:173-174). -/
def lastFile : List Node → P Ptr
  | [] => P.panic .nilDeref
  | [.wrapped _ .file p] => pure p
  | [_] => P.panic .typeAssertion
  | _ :: b :: rest => lastFile (b :: rest)

/-- The deferred function of internal/core/registry_meta.go:162-176, run with the result so far. -/
def posDefer (fuel : Nat) (node : Node) (res : Position) : P Position := do
  if res.filename ≠ [] then pure res
  else do
    let nodes ← nodeHierarchy fuel (some node)
    let f ← lastFile nodes
    let name ← File.name f
    pure { res with filename := name }

/-- internal/core/registry_meta.go:161-244 `Pos`. After a panic in the switch the deferred function runs on the zero
    position; the panic then continues unless the deferred function panics itself. -/
def pos (fuel : Nat) (node : Node) : P Position :=
  (posBody node).handle (posDefer fuel node) fun e => do
    let _ ← posDefer fuel node {}
    P.panic e

/-- internal/core/registry_simple.go:9-18 `TypeIsDefined`. -/
def typeIsDefined (typ : Node) (ref : Str) : P Bool := do
  let r ← P.get
  match typ with
  | .wrapped _ .message p => pure (r.registry ref = some p)
  | .wrapped _ .enum p => pure (r.registry ref = some p)
  | _ => pure false

/-- internal/core/registry_simple.go:36-63 `GoPackageOption`. -/
def goPackageOption (node : Node) : P (Option GoPackageInfo) :=
  match node with
  | .option _ opt _ field => do
    let r ← P.get
    match r.registry goPackageField with
    | none => P.panic .noGoPackage
    | some sample =>
      if field ≠ sample then pure none
      else
        match r.kind opt with
        | some (.option _ constant) => pure (some (splitGoPackage constant.source))
        | _ => P.panic .illTyped
  | _ => pure none

/-- The loop body of internal/core/registry_simple.go:71-82; the loop state is the value to return, if any. -/
def goPackageBody (s : Option (Option GoPackageInfo)) (a : Option Node) :
    P (Option (Option GoPackageInfo) × Bool) :=
  match a with
  | some (.option ad o c f) => do
    let name ← Option.name o c f
    if name ≠ b!"(.google.protobuf.FileOptions).go_package" then pure (s, true)
    else do
      let g ← goPackageOption (.option ad o c f)
      pure (some g, false)
  | _ => pure (s, true)

/-- internal/core/registry_simple.go:65-85 `GoPackage`. -/
def goPackage (node : Node) : P (Option GoPackageInfo) := do
  match ← nodeFile node with
  | some (.wrapped _ .file p) => do
    let res ← Seq.run (File.everything p) goPackageBody none
    match res with
    | some g => pure g
    | none => pure none
  | _ => pure none

/-- internal/core/ast_option.go:70-72 `Option.Is`. -/
def Option.is (field : Ptr) (name : Str) : P Bool := do
  match ← wrap (.at field) with
  | some n => do
    let idx ← nodeIndex n
    pure (idx == name)
  | none => pure (([] : Str) == name)

/-! ### History.lean -/

/-- The `i`-th element of an iterator. A loop over an iterator is a sequence of these calls with the
    calls of the loop body in between. -/
def Seq.nth {α : Type} (seq : Seq α) (i : Nat) : P (Option α) := do
  let steps ← seq
  match steps[i]? with
  | some m => do let a ← m; pure (some a)
  | none => pure none

/-- The iterator element call, by static type of the receiver. A receiver of the wrong static type
    cannot be written in Go; the model then does nothing. -/
def IterQ.run (q : IterQ) (n : Node) (i : Nat) : P (Option Node) :=
  match q, n with
  | .fileImports, .wrapped _ .file p => (File.imports p).nth i
  | .fileMessages, .wrapped _ .file p => (File.messages p).nth i
  | .fileEnums, .wrapped _ .file p => (File.enums p).nth i
  | .fileTypes, .wrapped _ .file p => (File.types p).nth i
  | .fileServices, .wrapped _ .file p => (File.services p).nth i
  | .fileEverything, .wrapped _ .file p => do let x ← (File.everything p).nth i; pure (flatOpt x)
  | .messageFields, .wrapped _ .message p => (Message.fields p).nth i
  | .messageMessages, .wrapped _ .message p => (Message.messages p).nth i
  | .messageTypes, .wrapped _ .message p => (Message.types p).nth i
  | .messageEverything, .wrapped _ .message p => do
    let x ← (Message.everything p).nth i; pure (flatOpt x)
  | .enumValues, .wrapped _ .enum p => (Enum.values p).nth i
  | .enumEnums, .wrapped _ .enum p => (Enum.enums p).nth i
  | .enumEverything, .wrapped _ .enum p => do let x ← (Enum.everything p).nth i; pure (flatOpt x)
  | .oneofBranches, .oneof _ p => (OneOf.branches p).nth i
  | .serviceMethods, .wrapped _ .service p => (Service.methods p).nth i
  | .serviceEverything, .wrapped _ .service p => do
    let x ← (Service.everything p).nth i; pure (flatOpt x)
  | .methodOptions, .wrapped _ .method p => (Method.options p).nth i
  | .options, n => do let s ← options n; s.nth i
  | _, _ => pure none

/-- The lookup-by-name call. -/
def NamedQ.run (q : NamedQ) (n : Node) (name : Str) : P (Option Node) :=
  match q, n with
  | .fileMessage, .wrapped _ .file p => File.message p name
  | .fileEnum, .wrapped _ .file p => File.enum p name
  | .fileType, .wrapped _ .file p => File.type p name
  | .fileService, .wrapped _ .file p => File.service p name
  | .messageField, .wrapped _ .message p => Message.field p name
  | .messageMessage, .wrapped _ .message p => Message.message p name
  | .messageType, .wrapped _ .message p => Message.type p name
  | .enumValue, .wrapped _ .enum p => Enum.value p name
  | .enumEnum, .wrapped _ .enum p => Enum.enum p name
  | .oneofBranch, .oneof _ p => OneOf.branch p name
  | .serviceMethod, .wrapped _ .service p => Service.method p name
  | .optionNamed, n => optionNamed n name
  | _, _ => pure none

/-! ### Attr.lean -/

/-- Read an attribute; by static type of the handle. -/
def Attr.read : Attr → Node → P AttrVal
  | .index, n => do let s ← nodeIndex n; pure (.str s)
  | .description, n => do let s ← nodeDescription n; pure (.str s)
  | .comment, n => do let s ← comment n; pure (.lines s)
  | .typeName, n => do let s ← typeName n; pure (.str s)
  | .name, .wrapped _ .file p => do let s ← File.name p; pure (.str s)
  | .name, .wrapped _ .message p => do let s ← Message.name p; pure (.str s)
  | .name, .wrapped _ .enum p => do let s ← Enum.name p; pure (.str s)
  | .name, .wrapped _ .enumValue p => do let s ← EnumValue.name p; pure (.str s)
  | .name, .wrapped _ .messageField p => do let s ← MessageField.name p; pure (.str s)
  | .name, .wrapped _ .oneofBranch p => do let s ← OneOfBranch.name p; pure (.str s)
  | .name, .wrapped _ .service p => do let s ← Service.name p; pure (.str s)
  | .name, .wrapped _ .method p => do let s ← Method.name p; pure (.str s)
  | .package, .wrapped _ .file p => do let s ← File.package p; pure (.str s)
  | .package, .wrapped _ .packageW p => do let s ← Package.package p; pure (.str s)
  | .isExtension, .wrapped _ .message p => do let b ← Message.isExtension p; pure (.bool b)
  | .number, .wrapped _ .messageField p => do let i ← MessageField.value p; pure (.int i)
  | .number, .wrapped _ .enumValue p => do let i ← EnumValue.value p; pure (.int i)
  | .number, .wrapped _ .oneofBranch p => do let i ← OneOfBranch.value p; pure (.int i)
  | .optional, .wrapped _ .messageField p => do let b ← MessageField.optional p; pure (.bool b)
  | .importPath, .wrapped _ .importW p => do let s ← Import.path p; pure (.str s)
  | .syntaxValue, .wrapped _ .syntaxW p => do let s ← Syntax.value p; pure (.str s)
  | .reservedValues, .wrapped _ .reserved p => do
    let l ← Reserved.values p
    let vs ← collectSteps l
    pure (.reserved vs)
  | _, _ => pure .undefined

end Protoast.Small
