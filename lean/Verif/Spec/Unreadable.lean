import Verif.Spec.Options
import Verif.Spec.Navigate
/-
  Which option statements a client can read.
-/
namespace Protoast

/-- By the protobuf language, the declarations that can have options, with the descriptor message that lists the
    predefined ones. Branches of oneofs are fields. -/
def Kind.optionsMessage : Kind → Option Str
  | .message _ false => some b!".google.protobuf.MessageOptions"
  | .normalField _ _ _ _ _ | .mapField _ _ _ _ | .oneofField _ _ _ => some b!".google.protobuf.FieldOptions"
  | .oneof _ => some b!".google.protobuf.OneofOptions"
  | .enum _ => some b!".google.protobuf.EnumOptions"
  | .enumField _ _ => some b!".google.protobuf.EnumValueOptions"
  | .service _ => some b!".google.protobuf.ServiceOptions"
  | .rpc _ _ _ _ _ => some b!".google.protobuf.MethodOptions"
  | _ => none

/-- The scope in which names of options of the declaration at `p` are looked up by the library: the fully qualified name
    of the declaration, but the outermost scope for enum values. -/
def OptionsLookedUpIn (r : Reg) (p : Ptr) (kd : Kind) (s : Str) : Prop :=
  match kd with
  | .enumField _ _ => s = []
  | _ => Declared r s p

/-- The option statement at `opt` can be read by a client in state `c`: with some walk down from the handles it has (steps
    of iterators over declarations and `Type` calls) it gets a handle whose `Options` come to the end and yield the
    statement. -/
def CanRead (c : Client) (opt : Ptr) : Prop :=
  ∃ ops n ns r', (∀ op ∈ ops, WalkOp op) ∧ n ∈ (c.exec ops).pool ∧
    collectOptions n (c.exec ops).reg = (.ok ns, r') ∧ ∃ a cls f, Node.option a opt cls f ∈ ns

/-- The object at `p` is of a sort whose options the library hands out: a file, or a message or extend block, a field
    outside a oneof, a map field, a oneof, an enum, an enum value, a service or an rpc. -/
def HandsOutOptions (r : Reg) (p : Ptr) : Prop :=
  p.path = [] ∨ ∃ kd, r.kind p = some kd ∧ match kd with
    | .message _ _ | .normalField _ _ _ _ _ | .mapField _ _ _ _ | .oneof _ | .enum _ | .enumField _ _ | .service _
    | .rpc _ _ _ _ _ => True
    | _ => False

end Protoast
