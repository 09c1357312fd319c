import Verif.Model.Process
import Verif.Spec.Answer
/-
  Programs with several registries: what registry `i` is asked, and when two clients cannot be told apart.
-/
namespace Protoast

/-- The calls that a program makes with registry `i`, in order. -/
def callsOn (i : Nat) : List Action → List Op
  | [] => []
  | .create _ _ _ :: as => callsOn i as
  | .call j _ op :: as => if j = i then op :: callsOn i as else callsOn i as

/-- The action does not create registry `i`, and if it is a call with registry `i` then its handle came from registry
    `i`. -/
def Action.OwnHandles (i : Nat) : Action → Prop
  | .create j _ _ => j ≠ i
  | .call j k _ => j = i → k = i

/-- Two clients that hold the same handles and to which every call answers the same; the texts of option values and the
    indices of all handles are the same as well. -/
structure Alike (c1 c2 : Client) : Prop where
  handles : SameHandles c1 c2
  answers : ∀ op : Op, (op.answer c1.pool c1.reg).1 = (op.answer c2.pool c2.reg).1
  texts : ∀ (F : FloatOps) (i : Nat) (v1 v2 : OptVal), c1.pool[i]? = some (.value v1) → c2.pool[i]? = some (.value v2) →
    v1.toStr F c1.reg = v2.toStr F c2.reg
  indices : ∀ (i : Nat) (n1 n2 : Node), c1.pool[i]? = some n1 → c2.pool[i]? = some n2 →
    (nodeIndex n1 c1.reg).1 = (nodeIndex n2 c2.reg).1

/-- The file at place `x` of the heap is one that registry `i` has loaded. -/
def LoadedBy (p : Process) (i x : Nat) : Prop := ∃ path, (p.regs i).protos path = some x

mutual
/-- The option that the value was read from, and the enum constants in the value, are in files that registry `i` has
    loaded. -/
def ValueBelongs (p : Process) (i : Nat) : OptVal → Prop
  | .bool q _ _ | .int q _ _ | .uint q _ _ | .float q _ _ | .string q _ _ | .bytes q _ _ => ∀ x, q = some x → LoadedBy p i x.file
  | .enum q _ _ c => (∀ x, q = some x → LoadedBy p i x.file) ∧ LoadedBy p i c.file
  | .array q vs => (∀ x, q = some x → LoadedBy p i x.file) ∧ ValuesBelong p i vs
  | .map q _ vs => (∀ x, q = some x → LoadedBy p i x.file) ∧ ItemsBelong p i vs
def ValuesBelong (p : Process) (i : Nat) : List OptVal → Prop
  | [] => True
  | v :: vs => ValueBelongs p i v ∧ ValuesBelong p i vs
def ItemsBelong (p : Process) (i : Nat) : List (Str × OptVal) → Prop
  | [] => True
  | v :: vs => ItemBelongs p i v ∧ ItemsBelong p i vs
def ItemBelongs (p : Process) (i : Nat) : Str × OptVal → Prop
  | (_, v) => ValueBelongs p i v
end

/-- The handle represents something in a file that registry `i` has loaded. -/
def BelongsTo (p : Process) (i : Nat) : Node → Prop
  | .wrapped _ _ q => LoadedBy p i q.file
  | .option _ q c f => LoadedBy p i q.file ∧ LoadedBy p i c.file ∧ LoadedBy p i f.file
  | .oneof _ q => LoadedBy p i q.file
  | .map _ q => LoadedBy p i q.file
  | .repeated _ (some t) => BelongsTo p i t
  | .repeated _ none => True
  | .builtin _ => True
  | .value v => ValueBelongs p i v
  | .mapItem _ v => ValueBelongs p i v

/-- The name under which a type reference is looked up from no scope: as it is if it starts with a dot, otherwise with a
    dot before it. -/
def outermost (ref : Str) : Str :=
  match ref with
  | 46 :: _ => ref
  | _ => 46 :: ref

end Protoast
