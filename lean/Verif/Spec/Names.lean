import Verif.Spec.History
import Verif.Spec.Imports
/-
  Fully qualified protobuf names, read off the parsed files, independent of the library's visitor.
-/
namespace Protoast

/-- The package name an element states. -/
def Kind.statedPackage : Kind → Option Str
  | .packageK n => some n
  | _ => none

/-- The name in the package statement of a file (in the first, should there be several); empty if there is none. -/
def packageOf (elems : List Elem) : Str := (elems.findSome? (·.kind.statedPackage)).getD []

/-- The package of a file as a scope: `.a.b`, or empty when the file has no package. -/
def packageDot (elems : List Elem) : Str :=
  match packageOf elems with
  | [] => []
  | c :: cs => dot :: c :: cs

/-- The name an element declares. Extend blocks declare nothing themselves. Groups are not supported by
    the library and are left out here. -/
def Kind.declName : Kind → Option Str
  | .message n false => some n
  | .service n => some n
  | .normalField n _ _ _ _ => some n
  | .mapField n _ _ _ => some n
  | .oneof n => some n
  | .oneofField n _ _ => some n
  | .enum n => some n
  | .enumField n _ => some n
  | .rpc n _ _ _ _ => some n
  | _ => none

/-- The scope in which the members of an element declared in scope `s` live: messages and services open a
    scope; extend blocks, enums and oneofs do not; other elements have no members. -/
def Kind.memberScope (s : Str) : Kind → Option Str
  | .message n false => some (s ++ dot :: n)
  | .message _ true => some s
  | .service n => some (s ++ dot :: n)
  | .enum _ => some s
  | .oneof _ => some s
  | _ => none

/-- The scope the members of the object at `path` live in. -/
def ProtoFile.scopeAt (f : ProtoFile) : List Nat → Option Str
  | [] => some (packageDot f.elems)
  | i :: rest =>
    match f.scopeAt rest, f.elemAt (i :: rest) with
    | some s, some e => e.kind.memberScope s
    | _, _ => none

/-- The fully qualified name of the declaration at `path`. -/
def ProtoFile.fqn (f : ProtoFile) : List Nat → Option Str
  | [] => none
  | i :: rest =>
    match f.scopeAt rest, (f.elemAt (i :: rest)).bind (·.kind.declName) with
    | some s, some n => some (s ++ dot :: n)
    | _, _ => none

/-- `p` points to a declaration of a loaded file whose fully qualified name is `name`. -/
def Declared (r : Reg) (name : Str) (p : Ptr) : Prop :=
  ∃ f, r.heap[p.file]? = some f ∧ f.fqn p.path = some name

/-- The declaration a handle stands for. -/
def Node.decl : Node → Option Ptr
  | .wrapped _ _ p => some p
  | .oneof _ p => some p
  | .map _ p => some p
  | _ => none

/-- No two declarations of the loaded files have the same fully qualified name. -/
def UniqueNames (r : Reg) : Prop := ∀ name p q, Declared r name p → Declared r name q → p = q

/-- The paths a file imports. -/
def topImports (elems : List Elem) : List Str :=
  elems.filterMap fun e => match e.kind with
    | .importK f => some f
    | _ => none

/-- The loaded file bound to `path` imports `q`. -/
def Imports (r : Reg) (path q : Str) : Prop :=
  ∃ i f, r.protos path = some i ∧ r.heap[i]? = some f ∧ q ∈ topImports f.elems

/-- `q` is reachable from `path` through imports of loaded files, in any number of steps. -/
inductive ImportReach (r : Reg) : Str → Str → Prop where
  | refl (path) : ImportReach r path path
  | step {path m q} : ImportReach r path m → Imports r m q → ImportReach r path q

/-- The contents `path` has for a `Proto` call: those already loaded, or else those the world gives. -/
def Contents (r : Reg) (W : World) (path : Str) (elems : List Elem) : Prop :=
  (∃ i f, r.protos path = some i ∧ r.heap[i]? = some f ∧ f.elems = elems) ∨
  (r.protos path = none ∧ Readable W path elems)

/-- `q` is reachable from `path` through imports, in the loaded files and in those the world has. -/
inductive WorldReach (r : Reg) (W : World) : Str → Str → Prop where
  | refl (path) : WorldReach r W path path
  | step {path m q elems} : WorldReach r W path m → Contents r W m elems → q ∈ topImports elems →
      WorldReach r W path q

/-- The two registries have loaded the same paths with the same contents. -/
def SameFiles (r1 r2 : Reg) : Prop :=
  ∀ path elems, (∃ i f, r1.protos path = some i ∧ r1.heap[i]? = some f ∧ f.elems = elems) ↔
    (∃ i f, r2.protos path = some i ∧ r2.heap[i]? = some f ∧ f.elems = elems)

/-- The element at `p1` of the first registry and the one at `p2` of the second are the same place of the
    same file. -/
def Corresponds (r1 r2 : Reg) (p1 p2 : Ptr) : Prop :=
  p1.path = p2.path ∧
    ∃ f, r1.heap[p1.file]? = some f ∧ r2.heap[p2.file]? = some f

/-! ### What is assumed about the parser -/

mutual
/-- No package or import statement inside an element (protobuf allows them at top level only). -/
def Elem.flat : Elem → Bool
  | .mk _ _ _ cs => flatAll cs
def flatAll : List Elem → Bool
  | [] => true
  | e :: es => (match e.kind with
      | .packageK _ => false
      | .importK _ => false
      | _ => true) && e.flat && flatAll es
end

/-- The elements that may precede the package statement. -/
def Kind.preamble : Kind → Bool
  | .syntaxK _ => true
  | .edition => true
  | .importK _ => true
  | .option _ _ => true
  | .comment => true
  | _ => false

/-- Not a package statement. -/
def Kind.notPackage : Kind → Bool
  | .packageK _ => false
  | _ => true

/-- The assumption about parsed files for the theorems on names: package and import statements only at
    top level, at most one package statement, with a proper name, and before the declarations.  (The
    position of the package statement is the style the language guide prescribes; what happens otherwise
    is C18.) -/
def WFFile (_path : Str) (elems : List Elem) : Prop :=
  (∀ e ∈ elems, e.flat = true) ∧
  ((∀ e ∈ elems, e.kind.notPackage = true) ∨
    ∃ pre pos cm n cs post, elems = pre ++ .mk pos cm (.packageK n) cs :: post ∧
      n ≠ [] ∧ hasDotPrefix n = false ∧
      (∀ e ∈ pre, e.kind.preamble = true) ∧ (∀ e ∈ post, e.kind.notPackage = true))

/-! ### Histories without panics while loading -/

/-- No `Proto` call of the history panics or runs out of its step budget (queries may panic). -/
def LoadsOK : Client → List Op → Prop
  | _, [] => True
  | c, op :: ops =>
    (match op with
      | .proto W fuel path => ∃ x, (proto W fuel path c.reg).1 = .ok x
      | _ => True) ∧ LoadsOK (c.step op) ops

/-- Client states reachable when loading never panics. -/
def CleanReachable (P : Str → List Elem → Prop) (c : Client) : Prop :=
  ∃ W fuel r ops, W.Sat P ∧ newRegistry W fuel = (.ok (.ok ()), r) ∧ (∀ op ∈ ops, Op.Sat P op) ∧
    LoadsOK ⟨r, []⟩ ops ∧ c = Client.exec ⟨r, []⟩ ops

end Protoast
