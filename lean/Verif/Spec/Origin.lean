import Verif.Spec.History
import Verif.Spec.Options
/-
  Where option handles come from.
-/
namespace Protoast

/-- The scope in which the library looks up the names of the options of a node: the outermost one for enum values,
    else the package for a file and the fully qualified name for other declarations; the outermost one for what has no
    fully qualified name (extend blocks). -/
def NameScope (r : Reg) (n : Node) (s : Str) : Prop :=
  match n with
  | .wrapped _ .enumValue _ => s = []
  | n => OptionScope r n s ∨ (s = [] ∧ ∀ s', ¬ OptionScope r n s')

/-- The call makes handles of the options of its receiver `n`, with names looked up in scope `s`: `Options` and
    `OptionNamed` use the scope of the node, `Everything` and `Method.Options` the outermost one. No other call makes
    handles of options. -/
def Query.LooksUpIn (r : Reg) (n : Node) (s : Str) : Query → Prop
  | .iter .options _ => NameScope r n s
  | .named .optionNamed _ => NameScope r n s
  | .iter .fileEverything _ | .iter .messageEverything _ | .iter .enumEverything _ | .iter .serviceEverything _
  | .iter .methodOptions _ => s = []
  | _ => False

/-- In state `c0` the call number `h q` makes a handle of the option statement at `opt`, with the message at `cls` as its
    class and the field at `field` as its definition: the receiver is a declaration that has this statement among its
    options, `cls` is the descriptor message for this kind of declaration, and the name as written is bound to `field` by
    the protobuf rules in the scope of the call. -/
def MadeBy (c0 : Client) (h : Nat) (q : Query) (opt cls field : Ptr) : Prop :=
  ∃ n p className w s, c0.pool[h]? = some n ∧ optionClassOf c0.reg n = some (p, className) ∧
    ClassAt c0.reg className cls ∧ (opt, w) ∈ optionsOf c0.reg p ∧ q.LooksUpIn c0.reg n s ∧
    Binds c0.reg s cls w field

end Protoast
