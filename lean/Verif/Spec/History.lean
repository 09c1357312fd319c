import Verif.Model.Meta
/-
  Clients of the library: a client owns a registry and a pool of handles it received, and performs
  any sequence of API calls with arguments from the pool.  A panic of a call is recovered by the
  client, so the history goes on from the state the panic left behind.  The file system may change
  between calls, which is why every `Proto` call brings its own `World`.
-/
namespace Protoast

/-- The `i`-th element of an iterator. A loop over an iterator is a sequence of these calls with the
    calls of the loop body in between. -/
def Seq.nth {α : Type} (seq : Seq α) (i : Nat) : M (Option α) := do
  let steps ← seq
  match steps[i]? with
  | some m => do let a ← m; pure (some a)
  | none => pure none

/-- Iterators. -/
inductive IterQ where
  | fileImports | fileMessages | fileEnums | fileTypes | fileServices | fileEverything
  | messageFields | messageMessages | messageTypes | messageEverything
  | enumValues | enumEnums | enumEverything
  | oneofBranches | serviceMethods | serviceEverything | methodOptions | options

/-- Lookups by name. -/
inductive NamedQ where
  | fileMessage | fileEnum | fileType | fileService
  | messageField | messageMessage | messageType
  | enumValue | enumEnum | oneofBranch | serviceMethod | optionNamed

/-- All other calls on a handle. `F` is the floating-point library, `fuel` the step budget of the
    functions that climb to the file. -/
inductive PlainQ where
  | fieldType | branchType | methodInput | methodOutput | mapKey | mapValue
  | repeatedElem | optionValue (F : FloatOps) | valueParts
  | parent | hierarchy (fuel : Nat) | file | pos (fuel : Nat)
  | index | description | comment | typeName | typeIsDefined (ref : Str)
  | goPackage | goPackageOption | optionIs (name : Str) | optionName
  | name | package | isExtension | number | optional | importPath | syntaxValue | reservedValues

/-- A call on a handle. -/
inductive Query where
  | iter (q : IterQ) (i : Nat)
  | named (q : NamedQ) (name : Str)
  | plain (q : PlainQ)

/-- Forget that a possibly-nil element came from a possibly-ended iteration. -/
def flatOpt : Option (Option Node) → Option Node
  | some n => n
  | none => none

/-- The iterator element call, by static type of the receiver. A receiver of the wrong static type
    cannot be written in Go; the model then does nothing. -/
def IterQ.run (q : IterQ) (n : Node) (i : Nat) : M (Option Node) :=
  match q, n with
  | .fileImports, .wrapped _ .file p => (File.imports p).nth i
  | .fileMessages, .wrapped _ .file p => (File.messages p).nth i
  | .fileEnums, .wrapped _ .file p => (File.enums p).nth i
  | .fileTypes, .wrapped _ .file p => (File.types p).nth i
  | .fileServices, .wrapped _ .file p => (File.services p).nth i
  | .fileEverything, .wrapped _ .file p => do let x ← (File.everything p).nth i; pure (flatOpt x)
  | .messageFields, .wrapped _ .message p => (Message.fields p).nth i
  | .messageMessages, .wrapped _ .message p => (Message.messages p).nth i
  | .messageTypes, .wrapped _ .message p => (Message.types p).nth i
  | .messageEverything, .wrapped _ .message p => do
    let x ← (Message.everything p).nth i; pure (flatOpt x)
  | .enumValues, .wrapped _ .enum p => (Enum.values p).nth i
  | .enumEnums, .wrapped _ .enum p => (Enum.enums p).nth i
  | .enumEverything, .wrapped _ .enum p => do let x ← (Enum.everything p).nth i; pure (flatOpt x)
  | .oneofBranches, .oneof _ p => (OneOf.branches p).nth i
  | .serviceMethods, .wrapped _ .service p => (Service.methods p).nth i
  | .serviceEverything, .wrapped _ .service p => do
    let x ← (Service.everything p).nth i; pure (flatOpt x)
  | .methodOptions, .wrapped _ .method p => (Method.options p).nth i
  | .options, n => do let s ← Protoast.options n; s.nth i
  | _, _ => pure none

/-- The lookup-by-name call. -/
def NamedQ.run (q : NamedQ) (n : Node) (name : Str) : M (Option Node) :=
  match q, n with
  | .fileMessage, .wrapped _ .file p => File.message p name
  | .fileEnum, .wrapped _ .file p => File.enum p name
  | .fileType, .wrapped _ .file p => File.type p name
  | .fileService, .wrapped _ .file p => File.service p name
  | .messageField, .wrapped _ .message p => Message.field p name
  | .messageMessage, .wrapped _ .message p => Message.message p name
  | .messageType, .wrapped _ .message p => Message.type p name
  | .enumValue, .wrapped _ .enum p => Enum.value p name
  | .enumEnum, .wrapped _ .enum p => Enum.enum p name
  | .oneofBranch, .oneof _ p => OneOf.branch p name
  | .serviceMethod, .wrapped _ .service p => Service.method p name
  | .optionNamed, n => Protoast.optionNamed n name
  | _, _ => pure none

/-- The nodes a client can read from the exported fields of an option value
    (ast_option_value.go:191-218). -/
def OptVal.parts : OptVal → List Node
  | .enum _ _ a p => [.wrapped a .enumValue p]
  | .array _ vs => vs.map .value
  | .map _ _ items => items.map fun kv => .mapItem kv.1 kv.2
  | _ => []

/-- The remaining calls; the result lists the handles received. -/
def PlainQ.run (q : PlainQ) (n : Node) : M (List Node) :=
  match q, n with
  | .fieldType, .wrapped a .messageField p => do let t ← MessageField.type a p; pure t.toList
  | .branchType, .wrapped _ .oneofBranch p => do let t ← OneOfBranch.type p; pure t.toList
  | .methodInput, .wrapped _ .method p => do let x ← Method.input p; pure [x.2]
  | .methodOutput, .wrapped _ .method p => do let x ← Method.output p; pure [x.2]
  | .mapKey, .map _ p => do let x ← Map.key p; pure [x]
  | .mapValue, .map _ p => do let x ← Map.value p; pure [x]
  | .repeatedElem, .repeated _ t => pure t.toList
  | .optionValue F, .option _ p _ f => do let v ← Option.value F p f; pure [.value v]
  | .valueParts, .value v => pure v.parts
  | .valueParts, .mapItem _ v => pure [.value v]
  | .parent, n => do let x ← nodeParent n; pure x.toList
  | .hierarchy fuel, n => nodeHierarchy fuel (some n)
  | .file, n => do let x ← nodeFile n; pure x.toList
  | .pos fuel, n => do let _ ← Protoast.pos fuel n; pure []
  | .index, n => do let _ ← nodeIndex n; pure []
  | .description, n => do let _ ← nodeDescription n; pure []
  | .comment, n => do let _ ← Protoast.comment n; pure []
  | .typeName, n => do let _ ← Protoast.typeName n; pure []
  | .typeIsDefined ref, n => do let _ ← Protoast.typeIsDefined n ref; pure []
  | .goPackage, n => do let _ ← Protoast.goPackage n; pure []
  | .goPackageOption, n => do let _ ← Protoast.goPackageOption n; pure []
  | .optionIs nm, .option _ _ _ f => do let _ ← Option.is f nm; pure []
  | .optionName, .option _ p c f => do let _ ← Option.name p c f; pure []
  | .name, .wrapped _ .file p => do let _ ← File.name p; pure []
  | .name, .wrapped _ .message p => do let _ ← Message.name p; pure []
  | .name, .wrapped _ .enum p => do let _ ← Enum.name p; pure []
  | .name, .wrapped _ .enumValue p => do let _ ← EnumValue.name p; pure []
  | .name, .wrapped _ .messageField p => do let _ ← MessageField.name p; pure []
  | .name, .wrapped _ .oneofBranch p => do let _ ← OneOfBranch.name p; pure []
  | .name, .wrapped _ .service p => do let _ ← Service.name p; pure []
  | .name, .wrapped _ .method p => do let _ ← Method.name p; pure []
  | .package, .wrapped _ .file p => do let _ ← File.package p; pure []
  | .package, .wrapped _ .packageW p => do let _ ← Package.package p; pure []
  | .isExtension, .wrapped _ .message p => do let _ ← Message.isExtension p; pure []
  | .number, .wrapped _ .messageField p => do let _ ← MessageField.value p; pure []
  | .number, .wrapped _ .enumValue p => do let _ ← EnumValue.value p; pure []
  | .number, .wrapped _ .oneofBranch p => do let _ ← OneOfBranch.value p; pure []
  | .optional, .wrapped _ .messageField p => do let _ ← MessageField.optional p; pure []
  | .importPath, .wrapped _ .importW p => do let _ ← Import.path p; pure []
  | .syntaxValue, .wrapped _ .syntaxW p => do let _ ← Syntax.value p; pure []
  | .reservedValues, .wrapped _ .reserved p => do let _ ← Reserved.values p; pure []
  | _, _ => pure []

/-- A call on a handle, returning the handles received. -/
def Query.run (q : Query) (n : Node) : M (List Node) :=
  match q with
  | .iter q i => do let x ← q.run n i; pure x.toList
  | .named q name => do let x ← q.run n name; pure x.toList
  | .plain q => q.run n

/-- API calls. A handle argument is an index into the pool. -/
inductive Op where
  | proto (W : World) (fuel : Nat) (path : Str)
  | byName (name : Str)
  | query (h : Nat) (q : Query)

/-- The computation of a call, returning the handles received. -/
def Op.run (pool : List Node) : Op → M (List Node)
  | .proto W fuel path => do
    match ← Protoast.proto W fuel path with
    | .ok f => pure [f]
    | .error _ => pure []
  | .byName name => do let x ← nodeByFullName name; pure x.toList
  | .query h q =>
    match pool[h]? with
    | some n => q.run n
    | none => pure []

/-- The state of a client. -/
structure Client where
  reg : Reg
  pool : List Node

/-- One call; after a panic the client continues with what it has. -/
def Client.step (c : Client) (op : Op) : Client :=
  match op.run c.pool c.reg with
  | (.ok ns, r) => ⟨r, c.pool ++ ns⟩
  | (.panic _, r) => ⟨r, c.pool⟩
  | (.timeout, r) => ⟨r, c.pool⟩

/-- A history of calls. -/
def Client.exec (c : Client) (ops : List Op) : Client := ops.foldl Client.step c

/-- What is assumed about the trees the parser returns; see Spec/Names.lean for instances. -/
def World.Sat (P : Str → List Elem → Prop) (W : World) : Prop :=
  ∀ name path elems, W.load name path = .ok elems → P path elems

/-- All files read in a call satisfy `P`. -/
def Op.Sat (P : Str → List Elem → Prop) : Op → Prop
  | .proto W _ _ => W.Sat P
  | _ => True

/-- Client states reachable from a successful `NewRegistry` by any history of calls, when every parsed
    file satisfies `P` (given its path). -/
def Reachable (P : Str → List Elem → Prop) (c : Client) : Prop :=
  ∃ W fuel r ops, W.Sat P ∧ newRegistry W fuel = (.ok (.ok ()), r) ∧ (∀ op ∈ ops, Op.Sat P op) ∧
    c = Client.exec ⟨r, []⟩ ops

/-- No assumption about the parser. -/
def AnyTree (_ : Str) (_ : List Elem) : Prop := True

end Protoast
