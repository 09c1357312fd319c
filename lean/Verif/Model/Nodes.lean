import Verif.Model.Wrap
/-
  Traversal and accessors: internal/core/ast_file.go, internal/core/ast_message.go, internal/core/ast_enum.go, internal/core/ast_oneof.go, internal/core/ast_service.go,
  internal/core/ast_map.go, internal/core/ast_reserved.go and the small node files.

  A method of a wrapper type takes the pointer to the wrapped element (`x.proto`), because that is the
  only thing the wrapper holds; `MessageField.Type` also takes the address of the wrapper, the key of
  the field type cache.
-/
namespace Protoast

/-- A Go iterator `iter.Seq[T]`: evaluating it (the start of `range`) gives the list of steps that
    remain after the `continue` filters; each step computes one element, then yields it. -/
abbrev Seq (α : Type) := M (List (M α))

/-- Run the steps with a loop body. The body has its own state, may use the registry, and returns
    whether to go on (`yield` returning true). -/
def runSteps {α σ : Type} (body : σ → α → M (σ × Bool)) : List (M α) → σ → M σ
  | [], s => pure s
  | m :: ms, s => do
    let a ← m
    let (s', go) ← body s a
    if go then runSteps body ms s' else pure s'

/-- `for x := range seq { body }`. -/
def Seq.run {α σ : Type} (seq : Seq α) (body : σ → α → M (σ × Bool)) (init : σ) : M σ := do
  let steps ← seq
  runSteps body steps init

/-- Compute all elements of a list of steps. -/
def collectSteps {α : Type} : List (M α) → M (List α)
  | [] => pure []
  | m :: ms => do
    let a ← m
    let as ← collectSteps ms
    pure (a :: as)

/-- `slices.Collect(seq)`. -/
def Seq.collect {α : Type} (seq : Seq α) : M (List α) := do
  let steps ← seq
  collectSteps steps

/-- A loop over the children of `p`: `pick` says which elements are not skipped and what is computed
    for them. -/
def overKids {α : Type} (p : Ptr) (pick : Ptr → Kind → Option (M α)) : M (List (M α)) := do
  let r ← M.get
  pure ((r.kids p).filterMap fun (q, e) => pick q e.kind)

/-- A loop that returns the wrapped first child satisfying a predicate, nil if there is none. -/
def firstKid (p : Ptr) (k : WKind) (sel : Kind → Bool) : M (Option Node) := do
  let r ← M.get
  match (r.kids p).find? fun (_, e) => sel e.kind with
  | some (q, _) => do let n ← wrapAs k q; pure (some n)
  | none => pure none

/-! ### File (internal/core/ast_file.go) -/

/-- internal/core/ast_file.go:17-19 `File.Name`. -/
def File.name (p : Ptr) : M Str := do
  let r ← M.get
  match r.heap[p.file]? with
  | some f => pure f.filename
  | none => M.panic .illTyped

/-- The package name in a list of elements: the first package statement (internal/core/ast_file.go:23-30). -/
def firstPackage : List Elem → Str
  | [] => []
  | e :: es => match e.kind with
    | .packageK n => n
    | _ => firstPackage es

/-- internal/core/ast_file.go:22-31 `File.Package`. -/
def File.package (p : Ptr) : M Str := do
  let r ← M.get
  pure (firstPackage ((r.children p).getD []))

/-- internal/core/ast_file.go:34-46 `File.Imports`. -/
def File.imports (p : Ptr) : Seq Node :=
  overKids p fun q k => match k with
    | .importK _ => some (wrapAs .importW q)
    | _ => none

/-- internal/core/ast_file.go:49-60 `File.Messages`. -/
def File.messages (p : Ptr) : Seq Node :=
  overKids p fun q k => match k with
    | .message _ false => some (wrapAs .message q)
    | _ => none

/-- internal/core/ast_file.go:63-72 `File.Message`; extend blocks are not filtered out. -/
def File.message (p : Ptr) (name : Str) : M (Option Node) :=
  firstKid p .message fun k => match k with
    | .message n _ => n == name
    | _ => false

/-- internal/core/ast_file.go:75-86 `File.Enums`. -/
def File.enums (p : Ptr) : Seq Node :=
  overKids p fun q k => match k with
    | .enum _ => some (wrapAs .enum q)
    | _ => none

/-- internal/core/ast_file.go:89-100 `File.Enum`. -/
def File.enum (p : Ptr) (name : Str) : M (Option Node) :=
  firstKid p .enum fun k => match k with
    | .enum n => n == name
    | _ => false

/-- `r.wrap(v).(NamedType)` (internal/core/ast_file.go:112,114): messages and enums implement `NamedType`
    (internal/core/ast.go:58-61). -/
def wrapNamed (p : Ptr) : M Node := do
  match ← wrap (.at p) with
  | some (.wrapped a .message q) => pure (.wrapped a .message q)
  | some (.wrapped a .enum q) => pure (.wrapped a .enum q)
  | _ => M.panic .typeAssertion

/-- internal/core/ast_file.go:103-123 `File.Types`. -/
def File.types (p : Ptr) : Seq Node :=
  overKids p fun q k => match k with
    | .message _ false => some (wrapNamed q)
    | .enum _ => some (wrapNamed q)
    | _ => none

/-- internal/core/ast_file.go:126-146 `File.Type`; extend blocks are not filtered out. -/
def File.type (p : Ptr) (name : Str) : M (Option Node) := do
  let r ← M.get
  match (r.kids p).find? fun (_, e) => match e.kind with
      | .message n _ => n == name
      | .enum n => n == name
      | _ => false with
  | some (q, e) =>
    match e.kind with
    | .message _ _ => do let n ← wrapAs .message q; pure (some n)
    | _ => do let n ← wrapAs .enum q; pure (some n)
  | none => pure none

/-- internal/core/ast_file.go:148-161 `File.Services`. -/
def File.services (p : Ptr) : Seq Node :=
  overKids p fun q k => match k with
    | .service _ => some (wrapAs .service q)
    | _ => none

/-- internal/core/ast_file.go:163-178 `File.Service`. -/
def File.service (p : Ptr) (name : Str) : M (Option Node) :=
  firstKid p .service fun k => match k with
    | .service n => n == name
    | _ => false

/-! ### Message (internal/core/ast_message.go) -/

/-- internal/core/ast_message.go:27-29 `Message.Name`. -/
def Message.name (p : Ptr) : M Str := do
  let r ← M.get
  match r.kind p with
  | some (.message n _) => pure n
  | _ => M.panic .illTyped

/-- internal/core/ast_message.go:31-33 `Message.IsExtension`. -/
def Message.isExtension (p : Ptr) : M Bool := do
  let r ← M.get
  match r.kind p with
  | some (.message _ e) => pure e
  | _ => M.panic .illTyped

/-- internal/core/ast_message.go:36-55 `Message.Fields`. -/
def Message.fields (p : Ptr) : Seq Node :=
  overKids p fun q k => match k with
    | .normalField _ _ _ _ _ => some (wrapAs .messageField q)
    | .oneof _ => some (wrapAs .messageField q)
    | .mapField _ _ _ _ => some (wrapAs .messageField q)
    | _ => none

/-- internal/core/ast_message.go:58-85 `Message.Field`. -/
def Message.field (p : Ptr) (name : Str) : M (Option Node) :=
  firstKid p .messageField fun k => match k with
    | .normalField n _ _ _ _ => n == name
    | .oneof n => n == name
    | .mapField n _ _ _ => n == name
    | _ => false

/-- internal/core/ast_message.go:88-103 `Message.Messages`. -/
def Message.messages (p : Ptr) : Seq Node :=
  overKids p fun q k => match k with
    | .message _ false => some (wrapAs .message q)
    | _ => none

/-- internal/core/ast_message.go:106-123 `Message.Message`. -/
def Message.message (p : Ptr) (name : Str) : M (Option Node) :=
  firstKid p .message fun k => match k with
    | .message n false => n == name
    | _ => false

/-- internal/core/ast_message.go:126-137 `Enum.Enums` (the receiver really is `*Enum`). -/
def Enum.enums (p : Ptr) : Seq Node :=
  overKids p fun q k => match k with
    | .enum _ => some (wrapAs .enum q)
    | _ => none

/-- internal/core/ast_message.go:140-153 `Enum.Enum` (the receiver really is `*Enum`). -/
def Enum.enum (p : Ptr) (name : Str) : M (Option Node) :=
  firstKid p .enum fun k => match k with
    | .enum n => n == name
    | _ => false

/-- internal/core/ast_message.go:156-177 `Message.Types`. -/
def Message.types (p : Ptr) : Seq Node :=
  overKids p fun q k => match k with
    | .message _ false => some (wrapAs .message q)
    | .enum _ => some (wrapAs .enum q)
    | _ => none

/-- internal/core/ast_message.go:180-202 `Message.Type`. -/
def Message.type (p : Ptr) (name : Str) : M (Option Node) := do
  let r ← M.get
  match (r.kids p).find? fun (_, e) => match e.kind with
      | .message n false => n == name
      | .enum n => n == name
      | _ => false with
  | some (q, e) =>
    match e.kind with
    | .message _ _ => do let n ← wrapAs .message q; pure (some n)
    | _ => do let n ← wrapAs .enum q; pure (some n)
  | none => pure none

/-! ### MessageField (internal/core/ast_message.go) -/

/-- internal/core/ast_message.go:222-233 `MessageField.Name`. -/
def MessageField.name (p : Ptr) : M Str := do
  let r ← M.get
  match r.kind p with
  | some (.normalField n _ _ _ _) => pure n
  | some (.oneof n) => pure n
  | some (.mapField n _ _ _) => pure n
  | _ => M.panic .illTyped

/-- The body of internal/core/ast_message.go:243-257 without cache and deferred write. -/
def fieldTypeBody (p : Ptr) : M (Option Node) := do
  let r ← M.get
  match r.kind p with
  | some (.normalField _ typ _ _ _) => getTypeByName p typ
  | some (.oneof _) => do let a ← M.alloc; pure (some (.oneof a p))
  | some (.mapField _ _ _ _) => do let a ← M.alloc; pure (some (.map a p))
  | _ => M.panic .illTyped

/-- internal/core/ast_message.go:236-258 `MessageField.Type`. The deferred cache write also runs on a panic, storing
    nil. -/
def MessageField.type (addr : Nat) (p : Ptr) : M (Option Node) := fun r =>
  match r.ftcache addr with
  | some t => (.ok t, r)
  | none =>
    match fieldTypeBody p r with
    | (.ok t, r') => (.ok t, { r' with ftcache := upd r'.ftcache addr t })
    | (.panic e, r') => (.panic e, { r' with ftcache := upd r'.ftcache addr none })
    | (.timeout, r') => (.timeout, r')

/-- internal/core/ast_message.go:261-272 `MessageField.Value`. -/
def MessageField.value (p : Ptr) : M Int := do
  let r ← M.get
  match r.kind p with
  | some (.normalField _ _ s _ _) => pure s
  | some (.oneof _) => M.panic .oneofHasNoValue
  | some (.mapField _ _ _ s) => pure s
  | _ => M.panic .illTyped

/-- internal/core/ast_message.go:275-286 `MessageField.Optional`. -/
def MessageField.optional (p : Ptr) : M Bool := do
  let r ← M.get
  match r.kind p with
  | some (.normalField _ _ _ _ o) => pure o
  | some (.oneof _) => pure false
  | some (.mapField _ _ _ _) => pure false
  | _ => M.panic .illTyped

/-! ### Enum and EnumValue (internal/core/ast_enum.go) -/

/-- internal/core/ast_enum.go:27-29 `Enum.Name`. -/
def Enum.name (p : Ptr) : M Str := do
  let r ← M.get
  match r.kind p with
  | some (.enum n) => pure n
  | _ => M.panic .illTyped

/-- internal/core/ast_enum.go:32-46 `Enum.Values`. -/
def Enum.values (p : Ptr) : Seq Node :=
  overKids p fun q k => match k with
    | .enumField _ _ => some (wrapAs .enumValue q)
    | _ => none

/-- internal/core/ast_enum.go:49-64 `Enum.Value`. -/
def Enum.value (p : Ptr) (name : Str) : M (Option Node) :=
  firstKid p .enumValue fun k => match k with
    | .enumField n _ => n == name
    | _ => false

/-- internal/core/ast_enum.go:84-86 `EnumValue.Name`. -/
def EnumValue.name (p : Ptr) : M Str := do
  let r ← M.get
  match r.kind p with
  | some (.enumField n _) => pure n
  | _ => M.panic .illTyped

/-- internal/core/ast_enum.go:88-90 `EnumValue.Value`. -/
def EnumValue.value (p : Ptr) : M Int := do
  let r ← M.get
  match r.kind p with
  | some (.enumField _ v) => pure v
  | _ => M.panic .illTyped

/-! ### OneOf and OneOfBranch (internal/core/ast_oneof.go) -/

/-- internal/core/ast_oneof.go:24-37 `OneOf.Branches`. -/
def OneOf.branches (p : Ptr) : Seq Node :=
  overKids p fun q k => match k with
    | .oneofField _ _ _ => some (wrapAs .oneofBranch q)
    | _ => none

/-- internal/core/ast_oneof.go:40-55 `OneOf.Branch`. -/
def OneOf.branch (p : Ptr) (name : Str) : M (Option Node) :=
  firstKid p .oneofBranch fun k => match k with
    | .oneofField n _ _ => n == name
    | _ => false

/-- internal/core/ast_oneof.go:57 `OneOfBranch.Name`. -/
def OneOfBranch.name (p : Ptr) : M Str := do
  let r ← M.get
  match r.kind p with
  | some (.oneofField n _ _) => pure n
  | _ => M.panic .illTyped

/-- internal/core/ast_oneof.go:59-61 `OneOfBranch.Type`. -/
def OneOfBranch.type (p : Ptr) : M (Option Node) := do
  let r ← M.get
  match r.kind p with
  | some (.oneofField _ t _) => getTypeByName p t
  | _ => M.panic .illTyped

/-- internal/core/ast_oneof.go:63-65 `OneOfBranch.Value`. -/
def OneOfBranch.value (p : Ptr) : M Int := do
  let r ← M.get
  match r.kind p with
  | some (.oneofField _ _ s) => pure s
  | _ => M.panic .illTyped

/-! ### Service and Method (internal/core/ast_service.go) -/

/-- internal/core/ast_service.go:23-25 `Service.Name`. -/
def Service.name (p : Ptr) : M Str := do
  let r ← M.get
  match r.kind p with
  | some (.service n) => pure n
  | _ => M.panic .illTyped

/-- internal/core/ast_service.go:28-41 `Service.Methods`. -/
def Service.methods (p : Ptr) : Seq Node :=
  overKids p fun q k => match k with
    | .rpc _ _ _ _ _ => some (wrapAs .method q)
    | _ => none

/-- internal/core/ast_service.go:44-59 `Service.Method`. -/
def Service.method (p : Ptr) (name : Str) : M (Option Node) :=
  firstKid p .method fun k => match k with
    | .rpc n _ _ _ _ => n == name
    | _ => false

/-- internal/core/ast_service.go:79-81 `Method.Name`. -/
def Method.name (p : Ptr) : M Str := do
  let r ← M.get
  match r.kind p with
  | some (.rpc n _ _ _ _) => pure n
  | _ => M.panic .illTyped

/-- internal/core/ast_service.go:84-87 `Method.Input`. -/
def Method.input (p : Ptr) : M (Bool × Node) := do
  let r ← M.get
  match r.kind p with
  | some (.rpc _ req _ sreq _) => do
    let t ← getTypeByName p req
    let m ← assertKind .message t
    pure (sreq, m)
  | _ => M.panic .illTyped

/-- internal/core/ast_service.go:90-93 `Method.Output`. -/
def Method.output (p : Ptr) : M (Bool × Node) := do
  let r ← M.get
  match r.kind p with
  | some (.rpc _ _ ret _ sret) => do
    let t ← getTypeByName p ret
    let m ← assertKind .message t
    pure (sret, m)
  | _ => M.panic .illTyped

/-! ### Map (internal/core/ast_map.go) -/

/-- internal/core/ast_map.go:19-26 `Map.Key`. -/
def Map.key (p : Ptr) : M Node := do
  let r ← M.get
  match r.kind p with
  | some (.mapField _ keyType _ _) =>
    match builtinComparableType keyType with
    | some b => pure (.builtin b)
    | none => M.panic .badMapKey
  | _ => M.panic .illTyped

/-- internal/core/ast_map.go:35-38: the name looked up for a map value type. For a name with a leading dot
    `qualifiedTypeName` keeps its zero value. -/
def mapValueName (typ : Str) : Str := if hasDotPrefix typ then [] else dot :: typ

/-- internal/core/ast_map.go:29-49 `Map.Value`. -/
def Map.value (p : Ptr) : M Node := do
  let r ← M.get
  match r.kind p with
  | some (.mapField _ _ typ _) =>
    match builtinType typ with
    | some b => pure (.builtin b)
    | none =>
      match r.registry (mapValueName typ) with
      | none => M.panic .badMapValue
      | some q =>
        match r.kind q with
        | some (.message _ _) => wrapAs .message q
        | some (.enum _) => wrapAs .enum q
        | _ => M.panic .badMapValue
  | _ => M.panic .illTyped

/-! ### Reserved, Import, Syntax, Package -/

/-- `ReservedValue` variants (internal/core/ast_reserved.go:51-70). -/
inductive ReservedValue where
  | single (value : Int)
  | range (lo hi : Int)
  | from (lo : Int)
  | name (value : Str)
deriving DecidableEq, Repr

/-- internal/core/ast_reserved.go:18-34: one range. -/
def reservedRange (g : Range) : ReservedValue :=
  if g.max then .from g.lo
  else if g.lo = g.hi then .single g.lo
  else .range g.lo g.hi

/-- internal/core/ast_reserved.go:16-49 `Reserved.Values`. The steps touch no state. -/
def Reserved.values (p : Ptr) : M (List (M ReservedValue)) := do
  let r ← M.get
  match r.kind p with
  | some (.reserved ranges names) =>
    pure ((ranges.map fun g => (pure (reservedRange g) : M ReservedValue)) ++
      names.map fun n => (pure (.name n) : M ReservedValue))
  | _ => M.panic .illTyped

/-- internal/core/ast_import.go:14-16 `Import.Path`. -/
def Import.path (p : Ptr) : M Str := do
  let r ← M.get
  match r.kind p with
  | some (.importK f) => pure f
  | _ => M.panic .illTyped

/-- internal/core/ast_syntax.go:15-17 `Syntax.Value`. -/
def Syntax.value (p : Ptr) : M Str := do
  let r ← M.get
  match r.kind p with
  | some (.syntaxK v) => pure v
  | _ => M.panic .illTyped

/-- internal/core/ast_package.go:13-15 `Package.Package`. -/
def Package.package (p : Ptr) : M Str := do
  let r ← M.get
  match r.kind p with
  | some (.packageK n) => pure n
  | _ => M.panic .illTyped

end Protoast
