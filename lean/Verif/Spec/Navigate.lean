import Verif.Spec.Iter
/-
  Which declarations a client finds by walking down from a file with iterators.
-/
namespace Protoast

/-- A declaration of kind `k` directly inside an object (`none`: a file) is offered by an iterator. Not offered are
    extend blocks, groups, and declarations inside a group or directly inside a field. -/
def Offered : Option Kind → Kind → Bool
  | none, .importK _ | none, .message _ false | none, .enum _ | none, .service _ => true
  | some (.message _ _), .message _ false | some (.message _ _), .enum _ | some (.message _ _), .normalField _ _ _ _ _
  | some (.message _ _), .mapField _ _ _ _ | some (.message _ _), .oneof _ => true
  | some (.oneof _), .oneofField _ _ _ => true
  | some (.enum _), .enumField _ _ => true
  | some (.service _), .rpc _ _ _ _ _ => true
  | _, _ => false

/-- The declaration at `p` and all those around it are offered by the iterators of what they are in. -/
inductive Visible (r : Reg) : Ptr → Prop where
  | top {i j k} : r.kind ⟨i, [j]⟩ = some k → Offered none k = true → Visible r ⟨i, [j]⟩
  | inside {i j path k k'} : Visible r ⟨i, path⟩ → r.kind ⟨i, path⟩ = some k → r.kind ⟨i, j :: path⟩ = some k' →
      Offered (some k) k' = true → Visible r ⟨i, j :: path⟩

/-- The kind of handle for a declaration. -/
def Kind.handleKind : Kind → Option WKind
  | .importK _ => some .importW
  | .message _ _ => some .message
  | .enum _ => some .enum
  | .enumField _ _ => some .enumValue
  | .normalField _ _ _ _ _ | .mapField _ _ _ _ | .oneof _ => some .messageField
  | .oneofField _ _ _ => some .oneofBranch
  | .service _ => some .service
  | .rpc _ _ _ _ _ => some .method
  | _ => none

/-- Steps of a walk: the elements of an iterator over declarations, and `Type` (to go from a oneof field to its
    oneof). -/
inductive WalkOp : Op → Prop where
  | iter {h i q} : q ∈ [IterQ.fileImports, .fileMessages, .fileTypes, .fileServices, .messageFields, .messageMessages,
      .messageTypes, .enumValues, .oneofBranches, .serviceMethods] → WalkOp (.query h (.iter q i))
  | type {h} : WalkOp (.query h (.plain .fieldType))

end Protoast
