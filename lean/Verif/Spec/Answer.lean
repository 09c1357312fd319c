import Verif.Spec.Attr
import Verif.Spec.Names
import Verif.Spec.Identity
/-
  What a client learns from a call apart from the handles it receives, and when two clients hold the same
  handles.
-/
namespace Protoast

/-- Answers. -/
inductive Answer where
  | nothing
  | attr (v : AttrVal)
  | position (p : Position)
  | flag (b : Bool)
  | text (t : Str)
  | goPackage (g : Option GoPackageInfo)
  | failed (e : Err)

/-- The answer of a call on a handle; calls that return nothing but handles answer nothing. The index of a
    file is left out (it depends on how the file was loaded, C65). -/
def PlainQ.answer (q : PlainQ) (n : Node) : M Answer :=
  match q, n with
  | .methodInput, .wrapped _ .method p => do let x ← Method.input p; pure (.flag x.1)
  | .methodOutput, .wrapped _ .method p => do let x ← Method.output p; pure (.flag x.1)
  | .pos fuel, n => do let x ← Protoast.pos fuel n; pure (.position x)
  | .index, .wrapped _ .file _ => pure .nothing
  | .index, n => do let x ← Attr.index.read n; pure (.attr x)
  | .description, n => do let x ← Attr.description.read n; pure (.attr x)
  | .comment, n => do let x ← Attr.comment.read n; pure (.attr x)
  | .typeName, n => do let x ← Attr.typeName.read n; pure (.attr x)
  | .typeIsDefined ref, n => do let x ← Protoast.typeIsDefined n ref; pure (.flag x)
  | .goPackage, n => do let x ← Protoast.goPackage n; pure (.goPackage x)
  | .goPackageOption, n => do let x ← Protoast.goPackageOption n; pure (.goPackage x)
  | .optionIs nm, .option _ _ _ f => do let x ← Option.is f nm; pure (.flag x)
  | .optionName, .option _ p c f => do let x ← Option.name p c f; pure (.text x)
  | .name, n => do let x ← Attr.name.read n; pure (.attr x)
  | .package, n => do let x ← Attr.package.read n; pure (.attr x)
  | .isExtension, n => do let x ← Attr.isExtension.read n; pure (.attr x)
  | .number, n => do let x ← Attr.number.read n; pure (.attr x)
  | .optional, n => do let x ← Attr.optional.read n; pure (.attr x)
  | .importPath, n => do let x ← Attr.importPath.read n; pure (.attr x)
  | .syntaxValue, n => do let x ← Attr.syntaxValue.read n; pure (.attr x)
  | .reservedValues, n => do let x ← Attr.reservedValues.read n; pure (.attr x)
  | q, n => do let _ ← q.run n; pure .nothing

/-- The answer of a call on a handle. -/
def Query.answer (q : Query) (n : Node) : M Answer :=
  match q with
  | .iter q i => do let _ ← q.run n i; pure .nothing
  | .named q name => do let _ ← q.run n name; pure .nothing
  | .plain q => q.answer n

/-- The answer of a call. -/
def Op.answer (pool : List Node) : Op → M Answer
  | .proto W fuel path => do
    match ← Protoast.proto W fuel path with
    | .ok _ => pure .nothing
    | .error e => pure (.failed e)
  | .byName name => do let _ ← nodeByFullName name; pure .nothing
  | .query h q =>
    match pool[h]? with
    | some n => q.answer n
    | none => pure .nothing

/-- The option elements correspond, or both are missing. -/
def SameOption (r1 r2 : Reg) : Option Ptr → Option Ptr → Prop
  | none, none => True
  | some p, some q => Corresponds r1 r2 p q
  | _, _ => False

/-- The same option value in two registries: the same kind, the same constant, the same literal, the same
    place of the option; for enum constants the same place of the constant. -/
inductive SameVal (r1 r2 : Reg) : OptVal → OptVal → Prop where
  | bool {o o' l v} : SameOption r1 r2 o o' → SameVal r1 r2 (.bool o l v) (.bool o' l v)
  | int {o o' l v} : SameOption r1 r2 o o' → SameVal r1 r2 (.int o l v) (.int o' l v)
  | uint {o o' l v} : SameOption r1 r2 o o' → SameVal r1 r2 (.uint o l v) (.uint o' l v)
  | float {o o' l v} : SameOption r1 r2 o o' → SameVal r1 r2 (.float o l v) (.float o' l v)
  | string {o o' l v} : SameOption r1 r2 o o' → SameVal r1 r2 (.string o l v) (.string o' l v)
  | bytes {o o' l v} : SameOption r1 r2 o o' → SameVal r1 r2 (.bytes o l v) (.bytes o' l v)
  | enum {o o' l a a' p p'} : SameOption r1 r2 o o' → Corresponds r1 r2 p p' →
      SameVal r1 r2 (.enum o l a p) (.enum o' l a' p')
  | array {o o' vs vs'} : SameOption r1 r2 o o' → vs.length = vs'.length →
      (∀ (i : Nat) (v v' : OptVal), vs[i]? = some v → vs'[i]? = some v' → SameVal r1 r2 v v') →
      SameVal r1 r2 (.array o vs) (.array o' vs')
  | map {o o' l kvs kvs'} : SameOption r1 r2 o o' → kvs.length = kvs'.length →
      (∀ (i : Nat) k v k' v', kvs[i]? = some (k, v) → kvs'[i]? = some (k', v') → k = k') →
      (∀ (i : Nat) k v k' v', kvs[i]? = some (k, v) → kvs'[i]? = some (k', v') → SameVal r1 r2 v v') →
      SameVal r1 r2 (.map o l kvs) (.map o' l kvs')

/-- The same node in two registries: the same kind of node for the same place of the same file; a repeated
    type with the same element type, the same builtin type, the same option value. -/
inductive SameNode (r1 r2 : Reg) : Node → Node → Prop where
  | wrapped {a b k p q} : Corresponds r1 r2 p q → SameNode r1 r2 (.wrapped a k p) (.wrapped b k q)
  | option {a b p q c d f g} : Corresponds r1 r2 p q → Corresponds r1 r2 c d → Corresponds r1 r2 f g →
      SameNode r1 r2 (.option a p c f) (.option b q d g)
  | oneof {a b p q} : Corresponds r1 r2 p q → SameNode r1 r2 (.oneof a p) (.oneof b q)
  | map {a b p q} : Corresponds r1 r2 p q → SameNode r1 r2 (.map a p) (.map b q)
  | repeatedNil {a b} : SameNode r1 r2 (.repeated a none) (.repeated b none)
  | repeated {a b t u} : SameNode r1 r2 t u → SameNode r1 r2 (.repeated a (some t)) (.repeated b (some u))
  | builtin {x} : SameNode r1 r2 (.builtin x) (.builtin x)
  | value {v w} : SameVal r1 r2 v w → SameNode r1 r2 (.value v) (.value w)
  | mapItem {k v w} : SameVal r1 r2 v w → SameNode r1 r2 (.mapItem k v) (.mapItem k w)

/-- Two clients hold the same handles: as many, the same nodes one by one, and two handles of one client are
    identical exactly if the corresponding handles of the other are. -/
structure SameHandles (c1 c2 : Client) : Prop where
  length : c1.pool.length = c2.pool.length
  same : ∀ (i : Nat) (n1 n2 : Node), c1.pool[i]? = some n1 → c2.pool[i]? = some n2 → SameNode c1.reg c2.reg n1 n2
  identical : ∀ (i j : Nat) (n1 n2 m1 m2 : Node), c1.pool[i]? = some n1 → c2.pool[i]? = some n2 → c1.pool[j]? = some m1 →
    c2.pool[j]? = some m2 → (GoEq n1 m1 ↔ GoEq n2 m2)

/-- Registries in which nothing was done but loading files, each load without panic. -/
def OnlyLoads (P : Str → List Elem → Prop) (r : Reg) : Prop :=
  ∃ W fuel r0 ops, W.Sat P ∧ newRegistry W fuel = (.ok (.ok ()), r0) ∧
    (∀ op ∈ ops, Op.Sat P op ∧ ∃ W fuel path, op = .proto W fuel path) ∧
    LoadsOK ⟨r0, []⟩ ops ∧ r = (Client.exec ⟨r0, []⟩ ops).reg

end Protoast
