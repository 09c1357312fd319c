import Verif.OptExamples
/-
  The project's own test, run against the model.

  This is a test of the model, not a property of the library: it shows that on the schema of /repo/testdata
  the model gives the answers protoast_test.go expects of the Go code.  The two schema files are transcribed
  from /repo/testdata/data.proto and /repo/testdata/meta.proto with their line numbers;
  google/protobuf/descriptor.proto and any.proto come with protoc and are cut down to what the test needs.
  The body of the test is transcribed call by call; a failed assertion is a panic.
-/
namespace Protoast.Conformance
open Protoast Protoast.Ex

/-- google/protobuf/any.proto, cut down. -/
def anyPath : Str := b!"google/protobuf/any.proto"
def anyFile : List Elem :=
  let f := anyPath
  [el f 1 (.syntaxK b!"proto3"), el f 2 (.packageK b!"google.protobuf"),
   el f 3 (.message b!"Any" false) [fld f 4 b!"type_url" b!"string" 1, fld f 5 b!"value" b!"bytes" 2]]

def dataPath : Str := b!"data.proto"
def metaPath : Str := b!"meta.proto"

/-- /repo/testdata/data.proto. -/
def dataFile : List Elem :=
  let f := dataPath
  [el f 1 (.syntaxK b!"proto3"), el f 3 (.packageK b!"pb"),
   el f 5 (.option b!"go_package" (lit f b!"gopkg/pb;pb")),
   el f 7 (.importK metaPath), el f 8 (.importK anyPath),
   el f 10 (.option b!"(pb.file_tag)" (lit f b!"file.tag")),
   el f 13 (.message b!"Message" false)
     [el f 14 (.option b!"(pb.msg_tag)" (lit f b!"message.tag")),
      fld f 16 b!"i32" b!"int32" 1 false [el f 16 (.option b!"(pb.field_tag)" (lit f b!"true"))],
      fld f 17 b!"si32" b!"sint32" 2, fld f 18 b!"sf32" b!"sfixed32" 3,
      fld f 21 b!"i64" b!"int64" 11, fld f 22 b!"si64" b!"sint64" 12, fld f 23 b!"sf64" b!"sfixed64" 13,
      fld f 25 b!"u32" b!"uint32" 21, fld f 26 b!"uf32" b!"fixed32" 22,
      fld f 28 b!"u64" b!"uint64" 31, fld f 29 b!"uf64" b!"fixed64" 32,
      fld f 31 b!"f32" b!"float" 41, fld f 32 b!"f64" b!"double" 42,
      fld f 34 b!"b" b!"bool" 51, fld f 36 b!"str" b!"string" 61, fld f 38 b!"raw" b!"bytes" 62,
      fld f 39 b!"bools" b!"bool" 63 true,
      fld f 41 b!"any" b!"google.protobuf.Any" 101, fld f 42 b!"local_msg" b!"EnumValuePayload" 102,
      fld f 43 b!"inner_msg" b!"InnerMessage" 103, fld f 44 b!"local_enum" b!"Enum" 104,
      fld f 45 b!"inner_enum" b!"InnerEnum" 105,
      el f 47 (.mapField b!"map_field" b!"string" b!"bool" 111),
      el f 48 (.oneof b!"payload")
        [el f 49 (.oneofField b!"branch1" b!"string" 112), el f 50 (.oneofField b!"branch2" b!"bool" 113)],
      el f 53 (.message b!"InnerMessage" false) [fld f 54 b!"field" b!"bool" 1],
      el f 57 (.enum b!"InnerEnum")
        [el f 58 (.enumField b!"INNER_ENUM_UNSPECIFIED" 0), el f 59 (.enumField b!"INNER_ENUM_VALUE" 1)]],
   el f 63 (.service b!"Service")
     [el f 64 (.option b!"(pb.service_tag)" (lit f b!"true")),
      el f 66 (.rpc b!"MethodUU" b!"Message" b!"Message.InnerMessage" false false)
        [el f 67 (.option b!"(pb.method_tag)" (lit f b!"false"))],
      el f 70 (.rpc b!"MethodUS" b!"EnumValuePayload" b!"Message" false true),
      el f 71 (.rpc b!"MethodSU" b!"Message.InnerMessage" b!"EnumValuePayload" true false),
      el f 72 (.rpc b!"MethodSS" b!"Message.InnerMessage" b!"Message.InnerMessage" true true)],
   el f 75 (.message b!"EnumValuePayload" false) [fld f 76 b!"a" b!"int32" 1],
   el f 79 (.enum b!"Enum")
     [el f 80 (.option b!"(pb.enum_tag)" (arr f [lit f b!"true", lit f b!"false"])),
      el f 82 (.enumField b!"ENUM_UNSPECIFIED" 0),
      el f 83 (.enumField b!"ENUM_VALUE_1" 1)
        [el f 83 (.option b!"(pb.enum_value_tag)" (msg f [(b!"a", lit f b!"5")]))],
      el f 84 (.enumField b!"ENUM_VALUE_2" 2)]]

/-- /repo/testdata/meta.proto. -/
def metaFile : List Elem :=
  let f := metaPath
  [el f 1 (.syntaxK b!"proto3"), el f 3 (.packageK b!"pb"),
   el f 5 (.option b!"go_package" (lit f b!"gopkg/pb;pb")),
   el f 7 (.importK descriptorPath), el f 8 (.importK dataPath),
   el f 10 (.message b!"google.protobuf.FileOptions" true) [fld f 11 b!"file_tag" b!"string" 51111],
   el f 14 (.message b!"google.protobuf.MessageOptions" true) [fld f 15 b!"msg_tag" b!"string" 51111],
   el f 18 (.message b!"google.protobuf.FieldOptions" true) [fld f 19 b!"field_tag" b!"bool" 51234],
   el f 22 (.message b!"google.protobuf.EnumOptions" true) [fld f 23 b!"enum_tag" b!"bool" 51111 true],
   el f 26 (.message b!"google.protobuf.EnumValueOptions" true)
     [fld f 27 b!"enum_value_tag" b!"EnumValuePayload" 51111],
   el f 30 (.message b!"google.protobuf.OneofOptions" true) [fld f 31 b!"oo_tag" b!"bool" 51111],
   el f 34 (.message b!"google.protobuf.ServiceOptions" true) [fld f 35 b!"service_tag" b!"bool" 51111],
   el f 38 (.message b!"google.protobuf.MethodOptions" true) [fld f 39 b!"method_tag" b!"bool" 51111]]

def WT : World :=
  worldOf [(descriptorPath, descriptor), (anyPath, anyFile), (dataPath, dataFile), (metaPath, metaFile)]

/-! ### testing helpers -/

/-- `assert.True`: a failed assertion is a panic. -/
def check (b : Bool) : M Unit := if b then pure () else M.panic .illTyped

/-- A node that must not be nil. -/
def need : Option Node → M Node
  | some n => pure n
  | none => M.panic .nilDeref

/-- `for i, x := range enumerate(seq) { body }`. -/
def forEach {α : Type} (seq : Seq α) (body : Nat → α → M Unit) : M Nat :=
  seq.run (fun i a => do body i a; pure (i + 1, true)) 0

def noFloats : FloatOps := ⟨fun _ => none, fun _ => []⟩

/-- Go `==` on two interface values holding nodes. -/
def same : Option Node → Option Node → Bool
  | none, none => true
  | some (.wrapped a k p), some (.wrapped a' k' p') => decide (a = a' ∧ k = k' ∧ p = p')
  | some (.builtin b), some (.builtin b') => decide (b = b')
  | _, _ => false

/-- The element a node wraps; the methods take it. -/
def target : Node → M Ptr
  | .wrapped _ _ p => pure p
  | .oneof _ p => pure p
  | .map _ p => pure p
  | _ => M.panic .illTyped

def optName : Node → M Str
  | .option _ p c f => Option.name p c f
  | _ => M.panic .illTyped

def optValue : Node → M OptVal
  | .option _ p _ f => Option.value noFloats p f
  | _ => M.panic .illTyped

def optIs (n : Node) (name : Str) : M Bool :=
  match n with
  | .option _ _ _ f => Option.is f name
  | _ => M.panic .illTyped

def isStr (s : Str) : OptVal → Bool
  | .string _ _ v => v == s
  | _ => false

def isBool (b : Bool) : OptVal → Bool
  | .bool _ _ v => v == b
  | _ => false

def isInt (i : Int) : OptVal → Bool
  | .int _ _ v => v == i
  | _ => false

/-- `r.Options(n)`. -/
def optionsOf (n : Node) : Seq Node :=
  (do let s ← options n; s : M (List (M Node)))

/-- `field.Type(r)`. -/
def typeOf : Node → M (Option Node)
  | .wrapped a .messageField p => MessageField.type a p
  | .wrapped _ .oneofBranch p => OneOfBranch.type p
  | _ => M.panic .illTyped

def isBuiltin (b : Builtin) : Option Node → Bool
  | some (.builtin b') => decide (b = b')
  | _ => false

/-- protoast_test.go `assertField` for a builtin type. -/
def assertField (b : Builtin) (f : Node) (n : Int) : M Unit := do
  check (isBuiltin b (← typeOf f))
  check ((← MessageField.value (← target f)) == n)

/-- protoast_test.go `assertFieldExact`. -/
def assertFieldExact (f : Node) (name : Str) (n : Int) : M Unit := do
  let t ← nodeByFullName name
  check (same (← typeOf f) t)
  check t.isSome
  check ((← MessageField.value (← target f)) == n)

/-- protoast_test.go `assertBranch`. -/
def assertBranch (b : Builtin) (f : Node) (n : Int) : M Unit := do
  check (isBuiltin b (← typeOf f))
  check ((← OneOfBranch.value (← target f)) == n)

/-- The scalar rows of the switch in `checkMessage`. -/
def scalars : List (Str × Builtin × Int) :=
  [(b!"i32", .int32, 1), (b!"si32", .sint32, 2), (b!"sf32", .sfixed32, 3), (b!"i64", .int64, 11),
   (b!"si64", .sint64, 12), (b!"sf64", .sfixed64, 13), (b!"u32", .uint32, 21), (b!"uf32", .fixed32, 22),
   (b!"u64", .uint64, 31), (b!"uf64", .fixed64, 32), (b!"f32", .float, 41), (b!"f64", .double, 42),
   (b!"b", .bool, 51), (b!"str", .string, 61), (b!"raw", .bytes, 62)]

/-- The rows of the switch in `checkMessage` that use `assertFieldExact`. -/
def exacts : List (Str × Str × Int) :=
  [(b!"any", b!".google.protobuf.Any", 101), (b!"local_msg", b!".pb.EnumValuePayload", 102),
   (b!"inner_msg", b!".pb.Message.InnerMessage", 103), (b!"local_enum", b!".pb.Enum", 104),
   (b!"inner_enum", b!".pb.Message.InnerEnum", 105)]

def requiredFields : List Str :=
  [b!"i32", b!"si32", b!"sf32", b!"i64", b!"si64", b!"sf64", b!"u32", b!"uf32", b!"u64", b!"uf64", b!"f32",
   b!"f64", b!"b", b!"str", b!"raw", b!"bools", b!"any", b!"local_msg", b!"inner_msg", b!"local_enum",
   b!"inner_enum", b!"map_field", b!"payload", b!"payload.branch1", b!"payload.branch2"]

/-- One round of the loop of `checkMessage`; returns the names seen. -/
def checkField (f : Node) : M (List Str) := do
  let name ← MessageField.name (← target f)
  if name == b!"i32" then
    let n ← forEach (optionsOf f) fun _ o => do
      check ((← optName o) == b!"(pb.field_tag)")
      check (isBool true (← optValue o))
    check (n == 1)
  match scalars.find? (·.1 == name) with
  | some (_, b, n) => assertField b f n; pure [name]
  | none =>
  match exacts.find? (·.1 == name) with
  | some (_, t, n) => assertFieldExact f t n; pure [name]
  | none =>
    if name == b!"bools" then
      check ((← MessageField.value (← target f)) == 63)
      match ← typeOf f with
      | some (.repeated _ e) => check (isBuiltin .bool e); pure [name]
      | _ => M.panic .illTyped
    else if name == b!"map_field" then
      check ((← MessageField.value (← target f)) == 111)
      match ← typeOf f with
      | some (.map _ q) =>
        check (isBuiltin .string (some (← Map.key q)))
        check (isBuiltin .bool (some (← Map.value q)))
        pure [name]
      | _ => M.panic .illTyped
    else if name == b!"payload" then
      match ← typeOf f with
      | some (.oneof _ q) =>
        (OneOf.branches q).run (fun names br => do
          let bn ← OneOfBranch.name (← target br)
          if bn == b!"branch1" then assertBranch .string br 112
          else if bn == b!"branch2" then assertBranch .bool br 113
          else M.panic .illTyped
          pure (names ++ [name ++ dot :: bn], true)) [name]
      | _ => M.panic .illTyped
    else M.panic .illTyped

/-- protoast_test.go `checkMessage`. -/
def checkMessage (m : Node) : M Unit := do
  let names ← (Message.fields (← target m)).run (fun names f => do
    pure (names ++ (← checkField f), true)) []
  check (requiredFields.all names.contains)
  let n ← forEach (optionsOf m) fun _ o => do
    check ((← optName o) == b!"(pb.msg_tag)")
    check (isStr b!"message.tag" (← optValue o))
  check (n == 1)

def wantServiceData : List (Str × Bool × Str × Bool × Str) :=
  [(b!"MethodUU", false, b!"Message", false, b!"InnerMessage"),
   (b!"MethodUS", false, b!"EnumValuePayload", true, b!"Message"),
   (b!"MethodSU", true, b!"InnerMessage", false, b!"EnumValuePayload"),
   (b!"MethodSS", true, b!"InnerMessage", true, b!"InnerMessage")]

/-- protoast_test.go `TestProtoAST`, after `NewRegistry`. -/
def testProtoAST : M Unit := do
  let file ← match ← proto WT 9 dataPath with
    | .ok f => pure f
    | .error _ => M.panic .illTyped
  let data ← target file
  -- imports
  let n ← forEach (File.imports data) fun i imp => do
    let path ← Import.path (← target imp)
    match i with
    | 0 => check (path == b!"meta.proto")
    | 1 => check (path == b!"google/protobuf/any.proto")
    | _ => M.panic .illTyped
  check (n == 2)
  -- file options
  let n ← forEach (optionsOf file) fun i o =>
    match i with
    | 0 => do
      check (← optIs o b!".google.protobuf.FileOptions.go_package")
      check (isStr b!"gopkg/pb;pb" (← optValue o))
    | 1 => do
      check (← optIs o b!".pb.file_tag")
      check (isStr b!"file.tag" (← optValue o))
      let p ← pos 9 o
      check (b!"data.proto".isSuffixOf p.filename)
      check (p.line == 10)
    | _ => M.panic .illTyped
  check (n == 2)
  -- messages
  check ((← forEach (File.messages data) fun _ _ => pure ()) == 2)
  let localMsg ← need (← File.message data b!"EnumValuePayload")
  check ((← forEach (Message.everything (← target localMsg)) fun _ _ => pure ()) == 1)
  check ((← forEach (Message.fields (← target localMsg)) fun _ _ => pure ()) == 1)
  let m ← need (← File.message data b!"Message")
  checkMessage m
  -- enum
  let enum ← need (← File.enum data b!"Enum")
  let n ← forEach (optionsOf enum) fun _ o => do
    check ((← optName o) == b!"(pb.enum_tag)")
    match ← optValue o with
    | .array _ [a, b] => check (isBool true a && isBool false b)
    | _ => M.panic .illTyped
  check (n == 1)
  let n ← forEach (Enum.values (← target enum)) fun _ v => do
    let q ← target v
    let name ← EnumValue.name q
    match ← EnumValue.value q with
    | 0 => check (name == b!"ENUM_UNSPECIFIED")
    | 1 => do
      check (name == b!"ENUM_VALUE_1")
      match ← (optionsOf v).collect with
      | [o] =>
        check ((← optName o) == b!"(pb.enum_value_tag)")
        match ← optValue o with
        | .map _ _ [(k, x)] => check (k == b!"a" && isInt 5 x)
        | _ => M.panic .illTyped
      | _ => M.panic .illTyped
    | 2 => check (name == b!"ENUM_VALUE_2")
    | _ => M.panic .illTyped
  check (n == 3)
  -- service
  let s ← need (← File.service data b!"Service")
  let n ← forEach (optionsOf s) fun _ o => do
    check ((← optName o) == b!"(pb.service_tag)")
    check (isBool true (← optValue o))
  check (n == 1)
  let sigs ← (Service.methods (← target s)).run (fun acc meth => do
    let q ← target meth
    let name ← Method.name q
    if name == b!"MethodUU" then
      let n ← forEach (optionsOf meth) fun _ o => do
        check ((← optName o) == b!"(pb.method_tag)")
        check (isBool false (← optValue o))
      check (n == 1)
    let (si, mi) ← Method.input q
    let (so, mo) ← Method.output q
    let ni ← Message.name (← target mi)
    let no ← Message.name (← target mo)
    pure (acc ++ [(name, si, ni, so, no)], true)) []
  check (sigs == wantServiceData)

/-- `NewRegistry` succeeds on the test schema. -/
example : okOk (newRegistry WT 9).1 = true := by decide +kernel

/-- The test passes. -/
example : isOk (testProtoAST (newRegistry WT 9).2).1 = true := by decide +kernel

end Protoast.Conformance
