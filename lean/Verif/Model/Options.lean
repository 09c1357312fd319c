import Verif.Model.Nodes
import Verif.Model.Strconv
/-
  Options and option values: internal/core/ast_option.go, internal/core/ast_option_value.go, the option-related parts of
  internal/core/registry_types.go and internal/core/registry_meta.go, and the `Everything` iterators.
-/
namespace Protoast

/-! ### Option classes (internal/core/ast_option.go:112-121) -/
def registryOptionsFile : Str := b!".google.protobuf.FileOptions"
def registryOptionsMessage : Str := b!".google.protobuf.MessageOptions"
def registryOptionsMessageField : Str := b!".google.protobuf.FieldOptions"
def registryOptionsEnum : Str := b!".google.protobuf.EnumOptions"
def registryOptionsEnumValue : Str := b!".google.protobuf.EnumValueOptions"
def registryOptionsOneof : Str := b!".google.protobuf.OneofOptions"
def registryOptionsService : Str := b!".google.protobuf.ServiceOptions"
def registryOptionsMethod : Str := b!".google.protobuf.MethodOptions"

/-- `r.registry[className].(*proto.Message)` (internal/core/ast_option.go:75,93 and internal/core/registry.go:106-136). -/
def optionClass (className : Str) : M Ptr := do
  let r ← M.get
  match r.registry className with
  | some p =>
    match r.kind p with
    | some (.message _ _) => pure p
    | _ => M.panic .typeAssertion
  | none => M.panic .typeAssertion

/-- internal/core/ast_option.go:26-38: the first normal field of the class called exactly like the option. -/
def builtinOptionField (r : Reg) (cls : Ptr) (name : Str) : Option Ptr :=
  ((r.kids cls).find? fun (_, e) => match e.kind with
    | .normalField n _ _ _ _ => n == name
    | _ => false).map Prod.fst

/-- internal/core/ast_option.go:18-51 `newOption`. `opt` points to the `*proto.Option`. -/
def newOption (scope : Str) (cls opt : Ptr) : M Node := do
  let r ← M.get
  match r.kind opt with
  | some (.option oname _) =>
    match resolveNameRaw r.defined scope (stripParens oname) with
    | (resolved, true) =>
      match r.registry resolved with
      | some f =>
        match r.kind f with
        | some (.normalField _ _ _ _ _) => do
          let a ← M.alloc
          pure (.option a opt cls f)
        | _ => M.panic .typeAssertion
      | none => M.panic .typeAssertion
    | (_, false) =>
      match builtinOptionField r cls oname with
      | some f => do
        let a ← M.alloc
        pure (.option a opt cls f)
      | none => M.panic .optionFieldNotFound
  | _ => M.panic .illTyped

/-- internal/core/registry_types.go:209-211 `wrapOption`: the scope is whatever is recorded for the option element
    itself. -/
def wrapOption (opt cls : Ptr) : M Node := do
  let r ← M.get
  newOption (r.scope (.at opt)) cls opt

/-- One step of an `Everything` iterator (internal/core/ast_file.go:182-192, internal/core/ast_message.go:207-217,
    internal/core/ast_enum.go:69-80, internal/core/ast_service.go:64-74). -/
def everythingStep (className : Str) (q : Ptr) (k : Kind) : Option (M (Option Node)) :=
  match k with
  | .option _ _ => some do
      let cls ← optionClass className
      let o ← wrapOption q cls
      pure (some o)
  | _ => some (wrap (.at q))

/-- internal/core/ast_file.go:180-194 `File.Everything`. -/
def File.everything (p : Ptr) : Seq (Option Node) := overKids p (everythingStep registryOptionsFile)
/-- internal/core/ast_message.go:205-219 `Message.Everything`. -/
def Message.everything (p : Ptr) : Seq (Option Node) :=
  overKids p (everythingStep registryOptionsMessage)
/-- internal/core/ast_enum.go:67-82 `Enum.Everything`. -/
def Enum.everything (p : Ptr) : Seq (Option Node) := overKids p (everythingStep registryOptionsEnum)
/-- internal/core/ast_service.go:62-76 `Service.Everything`. -/
def Service.everything (p : Ptr) : Seq (Option Node) :=
  overKids p (everythingStep registryOptionsService)

/-- internal/core/ast_service.go:95-108 `Method.Options`. -/
def Method.options (p : Ptr) : Seq Node :=
  overKids p fun q k => match k with
    | .option _ _ => some do
        let cls ← optionClass registryOptionsMethod
        wrapOption q cls
    | _ => none

/-- internal/core/ast_option.go:74-90 `seqOptions`; the class is looked up when the iterator is created. -/
def seqOptions (scope className : Str) (p : Ptr) : M (Seq Node) := do
  let cls ← optionClass className
  pure (overKids p fun q k => match k with
    | .option _ _ => some (newOption scope cls q)
    | _ => none)

/-- internal/core/ast_option.go:92-110 `namedOption`. -/
def namedOption (name scope className : Str) (p : Ptr) : M (Option Node) := do
  let cls ← optionClass className
  let r ← M.get
  match (r.kids p).find? fun (_, e) => match e.kind with
      | .option n _ => n == name
      | _ => false with
  | some (q, _) => do let o ← newOption scope cls q; pure (some o)
  | none => pure none

/-- internal/core/registry_meta.go:246-282 `Options`. -/
def options : Node → M (Seq Node)
  | .wrapped _ k p => do
    let r ← M.get
    match k with
    | .file => seqOptions (firstPackage ((r.children p).getD [])) registryOptionsFile p
    | .message => seqOptions (r.scope (.at p)) registryOptionsMessage p
    | .messageField =>
      match r.kind p with
      | some (.normalField _ _ _ _ _) => seqOptions (r.scope (.at p)) registryOptionsMessageField p
      | some (.oneof _) => seqOptions (r.scope (.at p)) registryOptionsOneof p
      | some (.mapField _ _ _ _) => seqOptions (r.scope (.at p)) registryOptionsMessageField p
      | _ => M.panic .unsupportedNode
    | .enum => seqOptions (r.scope (.at p)) registryOptionsEnum p
    | .enumValue => seqOptions (r.scope (.at p)) registryOptionsEnumValue p
    | .service => seqOptions (r.scope (.at p)) registryOptionsService p
    | .method => seqOptions (r.scope (.at p)) registryOptionsMethod p
    | _ => M.panic .unsupportedNode
  | .oneof _ p => do
    let r ← M.get
    seqOptions (r.scope (.at p)) registryOptionsOneof p
  | _ => M.panic .unsupportedNode

/-- internal/core/registry_meta.go:284-320 `OptionNamed`. The case for fields lists `*proto.Message` where
    `Options` lists `*proto.NormalField`, so a normal field ends in the panicking default. -/
def optionNamed (node : Node) (name : Str) : M (Option Node) :=
  match node with
  | .wrapped _ k p => do
    let r ← M.get
    match k with
    | .file => namedOption name (firstPackage ((r.children p).getD [])) registryOptionsFile p
    | .message => namedOption name (r.scope (.at p)) registryOptionsMessage p
    | .messageField =>
      match r.kind p with
      | some (.message _ _) => namedOption name (r.scope (.at p)) registryOptionsMessageField p
      | some (.oneof _) => namedOption name (r.scope (.at p)) registryOptionsOneof p
      | some (.mapField _ _ _ _) => namedOption name (r.scope (.at p)) registryOptionsMessageField p
      | _ => M.panic .unsupportedNode
    | .enum => namedOption name (r.scope (.at p)) registryOptionsEnum p
    | .enumValue => namedOption name (r.scope (.at p)) registryOptionsEnumValue p
    | .service => namedOption name (r.scope (.at p)) registryOptionsService p
    | .method => namedOption name (r.scope (.at p)) registryOptionsMethod p
    | _ => M.panic .unsupportedNode
  | .oneof _ p => do
    let r ← M.get
    namedOption name (r.scope (.at p)) registryOptionsOneof p
  | _ => M.panic .unsupportedNode

/-- internal/core/ast_option.go:53-63 `Option.Name`. -/
def Option.name (opt cls field : Ptr) : M Str := do
  let r ← M.get
  if field.parent = .at cls then
    match r.kind field with
    | some (.normalField n _ _ _ _) => pure (b!"(" ++ r.scope (.at cls) ++ b!")." ++ n)
    | _ => M.panic .illTyped
  else
    match r.kind opt with
    | some (.option n _) => pure n
    | _ => M.panic .illTyped

/-! ### Option values (internal/core/ast_option_value.go) -/

/-- `strconv.ParseFloat(s, 64)` and `strconv.FormatFloat(v, 'f', -1, 64)`: parameters of the model,
    nothing is assumed about them. -/
structure FloatOps where
  parse : Str → Option UInt64
  format : UInt64 → Str

/-- The outcome of the first switch of internal/core/ast_option_value.go:28-93 on the field type. -/
inductive ScalarClass where
  | bool | int | uint | float | string | bytes | named
deriving DecidableEq, Repr

/-- The case labels of internal/core/ast_option_value.go:28-93, including the misspelled `uin32` and `uin64`. -/
def scalarClass (t : Str) : ScalarClass :=
  if t = b!"bool" then .bool
  else if t = b!"int32" ∨ t = b!"sint32" ∨ t = b!"sfixed32" ∨ t = b!"int64" ∨ t = b!"sint64" ∨
    t = b!"sfixed64" then .int
  else if t = b!"uin32" ∨ t = b!"fixed32" ∨ t = b!"uin64" ∨ t = b!"fixed64" then .uint
  else if t = b!"float" ∨ t = b!"double" then .float
  else if t = b!"string" then .string
  else if t = b!"bytes" then .bytes
  else .named

mutual
/-- internal/core/ast_option_value.go:14-131 `buildFromLiteral`. -/
def buildFromLiteral (F : FloatOps) (option : Option Ptr) (field : Ptr) (ignoreRepeat : Bool) :
    Literal → M OptVal
  | .mk pos source array orderedMap => do
    let lit := Literal.mk pos source array orderedMap
    let r ← M.get
    match r.kind field with
    | some (.normalField _ typ _ isRepeated _) =>
      if isRepeated && !ignoreRepeat then do
        let vs ← buildArray F field array
        pure (.array option vs)
      else
        match scalarClass typ with
        | .bool =>
          match parseBool source with
          | some v => pure (.bool option lit v)
          | none => M.panic .badLiteral
        | .int =>
          match atoi source with
          | some v => pure (.int option lit v)
          | none => M.panic .badLiteral
        | .uint =>
          match parseUint source with
          | some v => pure (.uint option lit v)
          | none => M.panic .badLiteral
        | .float =>
          match F.parse source with
          | some v => pure (.float option lit v)
          | none => M.panic .badLiteral
        | .string => pure (.string option lit source)
        | .bytes => pure (.bytes option lit source)
        | .named => do
          match ← getTypeByName field typ with
          | some (.wrapped _ .enum ep) => do
            match ← Enum.value ep source with
            | some (.wrapped a _ vp) => pure (.enum option lit a vp)
            | _ => M.panic .unknownEnumValue
          | some (.wrapped _ .message mp) => do
            let items ← buildItems F mp orderedMap
            pure (.map option lit items)
          | _ => M.panic .unknownFieldType
    | _ => M.panic .illTyped
/-- The array loop internal/core/ast_option_value.go:16-19. -/
def buildArray (F : FloatOps) (field : Ptr) : List Literal → M (List OptVal)
  | [] => pure []
  | l :: ls => do
    let v ← buildFromLiteral F none field true l
    let vs ← buildArray F field ls
    pure (v :: vs)
/-- The loop over message literals internal/core/ast_option_value.go:109-120. -/
def buildItems (F : FloatOps) (msg : Ptr) : List (Str × Literal) → M (List (Str × OptVal))
  | [] => pure []
  | nl :: rest => do
    let item ← buildItem F msg nl
    let items ← buildItems F msg rest
    pure (item :: items)
/-- One iteration of that loop, internal/core/ast_option_value.go:111-119. -/
def buildItem (F : FloatOps) (msg : Ptr) : Str × Literal → M (Str × OptVal)
  | (name, lit) => do
    match ← Message.field msg name with
    | some (.wrapped _ _ fp) => do
      let r ← M.get
      match r.kind fp with
      | some (.normalField _ _ _ _ _) => do
        let v ← buildFromLiteral F none fp false lit
        pure (name, v)
      | _ => M.panic .typeAssertion
    | _ => M.panic .unknownField
end

/-- internal/core/ast_option.go:65-67 `Option.Value`. -/
def Option.value (F : FloatOps) (opt field : Ptr) : M OptVal := do
  let r ← M.get
  match r.kind opt with
  | some (.option _ constant) => buildFromLiteral F (some opt) field false constant
  | _ => M.panic .illTyped

/-- `fmt.Sprint` of a byte slice (internal/core/ast_option_value.go:241): `[104 105]`. -/
def sprintBytes (s : Str) : Str :=
  b!"[" ++ (List.intersperse b!" " (s.map fun c => formatUint c.toNat)).flatten ++ b!"]"

/-- Concatenate with `, ` between the parts (the loops internal/core/ast_option_value.go:251-256,265-273). -/
def joinComma : List Str → Str
  | [] => []
  | [s] => s
  | s :: t :: rest => s ++ b!", " ++ joinComma (t :: rest)

mutual
/-- The `String` methods of option values, internal/core/ast_option_value.go:220-277. An enum constant needs the
    registry for its parsed parent. -/
def OptVal.toStr (F : FloatOps) (r : Reg) : OptVal → Str
  | .bool _ _ v => formatBool v
  | .int _ _ v => itoa v
  | .uint _ _ v => formatUint v
  | .float _ _ v => F.format v
  | .string _ _ v => v
  | .bytes _ _ v => sprintBytes v
  | .enum _ _ _ p =>
    (match r.kind ⟨p.file, p.path.tail⟩ with
      | some (.enum n) => n
      | _ => []) ++ b!"." ++
    (match r.kind p with
      | some (.enumField n _) => n
      | _ => [])
  | .array _ vs => b!"[" ++ joinComma (OptVal.toStrs F r vs) ++ b!"]"
  | .map _ _ items => b!"{" ++ joinComma (OptVal.toStrItems F r items) ++ b!"}"
def OptVal.toStrs (F : FloatOps) (r : Reg) : List OptVal → List Str
  | [] => []
  | v :: vs => v.toStr F r :: OptVal.toStrs F r vs
def OptVal.toStrItems (F : FloatOps) (r : Reg) : List (Str × OptVal) → List Str
  | [] => []
  | kv :: rest => OptVal.toStrItem F r kv :: OptVal.toStrItems F r rest
def OptVal.toStrItem (F : FloatOps) (r : Reg) : Str × OptVal → Str
  | (k, v) => k ++ b!": " ++ v.toStr F r
end

end Protoast
