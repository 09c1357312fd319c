import Verif.Spec.Types
import Verif.Spec.Names
import Verif.Model.Options
/-
  What an option of a declaration denotes.
-/
namespace Protoast

/-- The name an option is written with, without the parentheses around extension names. -/
def optionRef (written : Str) : Str := written.filter fun c => c != 40 && c != 41

/-- `f` is the first normal field called `name` of the message at `cls`. -/
def FieldNamed (r : Reg) (cls : Ptr) (name : Str) (f : Ptr) : Prop :=
  ∃ es i e b c d g, r.children cls = some es ∧ f = ⟨cls.file, i :: cls.path⟩ ∧ es[i]? = some e ∧
    e.kind = .normalField name b c d g ∧
    ∀ j e', j < i → es[j]? = some e' → ∀ b c d g, e'.kind ≠ .normalField name b c d g

/-- The message at `cls` has no normal field called `name`. -/
def NoFieldNamed (r : Reg) (cls : Ptr) (name : Str) : Prop :=
  ∀ e ∈ (r.children cls).getD [], ∀ b c d g, e.kind ≠ .normalField name b c d g

/-- An option written `written`, interpreted in `scope`, for a declaration whose option class is the message at
    `cls`, is bound to the field at `f`: the registered field the name refers to, or, if it refers to nothing,
    the like-named field of the class. -/
def Binds (r : Reg) (scope : Str) (cls : Ptr) (written : Str) (f : Ptr) : Prop :=
  (Refers r scope (optionRef written) f ∧ ∃ a b c d e, r.kind f = some (.normalField a b c d e)) ∨
  (Unresolved r scope (optionRef written) ∧ FieldNamed r cls written f)

/-- The registered name `className` denotes the message at `cls`. -/
def ClassAt (r : Reg) (className : Str) (cls : Ptr) : Prop :=
  r.registry className = some cls ∧ ∃ n e, r.kind cls = some (.message n e)

/-- The kinds of elements the library has a node type for, options aside. -/
def Kind.hasNode : Kind → Bool
  | .option _ _ | .edition | .extensions | .group _ | .comment => false
  | _ => true

/-- The element is of a supported kind, or an option bound at top level in the option class. -/
def Representable (r : Reg) (className : Str) (e : Elem) : Prop :=
  e.kind.hasNode = true ∨
  (∃ written lit cls f, e.kind = .option written lit ∧ ClassAt r className cls ∧ Binds r [] cls written f)

/-! ### The options of a declaration -/

/-- The two lists have the same length and corresponding elements are related. -/
inductive Matching {α β : Type} (R : α → β → Prop) : List α → List β → Prop where
  | nil : Matching R [] []
  | cons {a b as bs} : R a b → Matching R as bs → Matching R (a :: as) (b :: bs)

/-- The option statements of the object at `p` in source order: place and name as written. -/
def optionsOf (r : Reg) (p : Ptr) : List (Ptr × Str) :=
  ((r.children p).getD []).zipIdx.filterMap fun x => match x.1.kind with
    | .option written _ => some (⟨p.file, x.2 :: p.path⟩, written)
    | _ => none

/-- The nodes that can have options, with the place of their declaration and the name of the descriptor message
    that lists the predefined ones. -/
def optionClassOf (r : Reg) : Node → Option (Ptr × Str)
  | .wrapped _ .file p => some (p, b!".google.protobuf.FileOptions")
  | .wrapped _ .message p => some (p, b!".google.protobuf.MessageOptions")
  | .wrapped _ .messageField p =>
    match r.kind p with
    | some (.oneof _) => some (p, b!".google.protobuf.OneofOptions")
    | _ => some (p, b!".google.protobuf.FieldOptions")
  | .wrapped _ .enum p => some (p, b!".google.protobuf.EnumOptions")
  | .wrapped _ .enumValue p => some (p, b!".google.protobuf.EnumValueOptions")
  | .wrapped _ .service p => some (p, b!".google.protobuf.ServiceOptions")
  | .wrapped _ .method p => some (p, b!".google.protobuf.MethodOptions")
  | .oneof _ p => some (p, b!".google.protobuf.OneofOptions")
  | _ => none

/-- The scope in which the options of a node are interpreted: the package for a file, the fully qualified name of
    the declaration otherwise. -/
def OptionScope (r : Reg) (n : Node) (s : Str) : Prop :=
  match n with
  | .wrapped _ .file p => ∃ es, r.children p = some es ∧ s = packageDot es
  | n => ∃ p, n.decl = some p ∧ Declared r s p

/-- The option node stands for the option statement `x`, bound in scope `s`. -/
def OptionFor (r : Reg) (s : Str) (cls : Ptr) (x : Ptr × Str) (o : Node) : Prop :=
  ∃ a f, o = .option a x.1 cls f ∧ Binds r s cls x.2 f

/-- `slices.Collect(registry.Options(n))`. -/
def collectOptions (n : Node) : M (List Node) := do
  let seq ← options n
  seq.collect

/-- What `Options` should do for a node whose options have the class at `cls` and the scope `s`. -/
def OptionsExact (r : Reg) (n : Node) (p : Ptr) (s : Str) (cls : Ptr) : Prop :=
  (∀ ns r', collectOptions n r = (.ok ns, r') → Matching (OptionFor r s cls) (optionsOf r p) ns) ∧
  ((∀ x ∈ optionsOf r p, ∃ f, Binds r s cls x.2 f) → ∃ ns r', collectOptions n r = (.ok ns, r'))

/-- No scope but the outermost one declares the name. -/
def OutermostOnly (r : Reg) (s name : Str) : Prop :=
  hasDotPrefix name = true ∨ ∀ s', Encloses s' (dotted s) → s' ≠ [] → r.registry (s' ++ dot :: name) = none

/-- The place and the field of an option node. -/
def Node.optionField : Node → Option (Ptr × Ptr)
  | .option _ p _ f => some (p, f)
  | _ => none

/-- `res` is the first option of the list whose field has the fully qualified name `name`, nil if there is none. -/
def FirstNamed (r : Reg) (os : List Node) (name : Str) (res : Option Node) : Prop :=
  (res = none ∧ ∀ o ∈ os, ∀ q f, o.optionField = some (q, f) → ¬ Declared r name f) ∨
  (∃ pre o post o' q f, res = some o' ∧ os = pre ++ o :: post ∧ o.optionField = some (q, f) ∧
    o'.optionField = some (q, f) ∧ Declared r name f ∧
    ∀ x ∈ pre, ∀ q f, x.optionField = some (q, f) → ¬ Declared r name f)

/-- The same options with the same fields, in the same order. -/
def SameOptions (ns ms : List Node) : Prop := ns.filterMap Node.optionField = ms.filterMap Node.optionField

end Protoast
