import Verif.Spec.Values
/-
  When two option values are the same, and which elements may contain which.
-/
namespace Protoast

mutual
/-- The value with the identity of its enum nodes left out: what remains is the option and the literals it was read
    from, its variant, its data, and for enum constants the declaration they stand for. -/
def OptVal.bare : OptVal → OptVal
  | .enum op l _ p => .enum op l 0 p
  | .array op vs => .array op (OptVal.bareAll vs)
  | .map op l items => .map op l (OptVal.bareItems items)
  | .bool op l v => .bool op l v
  | .int op l v => .int op l v
  | .uint op l v => .uint op l v
  | .float op l v => .float op l v
  | .string op l v => .string op l v
  | .bytes op l v => .bytes op l v
def OptVal.bareAll : List OptVal → List OptVal
  | [] => []
  | v :: vs => v.bare :: OptVal.bareAll vs
def OptVal.bareItems : List (Str × OptVal) → List (Str × OptVal)
  | [] => []
  | kv :: kvs => OptVal.bareItem kv :: OptVal.bareItems kvs
def OptVal.bareItem : Str × OptVal → Str × OptVal
  | (k, v) => (k, v.bare)
end

/-- Two values that differ at most in the identity of their enum nodes. -/
def SameData (v w : OptVal) : Prop := v.bare = w.bare

mutual
/-- The enum constants inside a value: the identity of the node and the declaration it stands for. -/
def OptVal.consts : OptVal → List (Nat × Ptr)
  | .enum _ _ a p => [(a, p)]
  | .array _ vs => OptVal.constsAll vs
  | .map _ _ items => OptVal.constsItems items
  | .bool _ _ _ => []
  | .int _ _ _ => []
  | .uint _ _ _ => []
  | .float _ _ _ => []
  | .string _ _ _ => []
  | .bytes _ _ _ => []
def OptVal.constsAll : List OptVal → List (Nat × Ptr)
  | [] => []
  | v :: vs => v.consts ++ OptVal.constsAll vs
def OptVal.constsItems : List (Str × OptVal) → List (Nat × Ptr)
  | [] => []
  | kv :: kvs => OptVal.constsItem kv ++ OptVal.constsItems kvs
def OptVal.constsItem : Str × OptVal → List (Nat × Ptr)
  | (_, v) => v.consts
end

/-- The elements that have members: messages and extend blocks, services, enums, oneofs and groups. -/
def Kind.hasMembers : Kind → Bool
  | .message _ _ => true
  | .service _ => true
  | .enum _ => true
  | .oneof _ => true
  | .group _ => true
  | _ => false

/-- An option. -/
def Kind.isOption : Kind → Bool
  | .option _ _ => true
  | _ => false

mutual
/-- Elements without members contain nothing but options. -/
def Elem.nests : Elem → Bool
  | .mk _ _ k cs => (k.hasMembers || cs.all (fun e => e.kind.isOption)) && nestsAll cs
def nestsAll : List Elem → Bool
  | [] => true
  | e :: es => e.nests && nestsAll es
end

/-- A file the parser can produce, as far as nesting goes. -/
def NestedFile (_path : Str) (elems : List Elem) : Prop := ∀ e ∈ elems, e.nests = true

end Protoast
