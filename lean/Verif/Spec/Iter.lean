import Verif.Spec.History
import Verif.Spec.Names
/-
  What iterators and lookups should return, read off the parsed file.
-/
namespace Protoast

/-- The members of the object at `p` that `sel` selects, in source order: the kind of node that should
    represent the member and the place of the member. -/
def membersOf (r : Reg) (p : Ptr) (sel : Kind → Option WKind) : List (WKind × Ptr) :=
  ((r.children p).getD []).zipIdx.filterMap fun x => (sel x.1.kind).map fun k => (k, ⟨p.file, x.2 :: p.path⟩)

/-- The kind and place of the element a node represents. -/
def Node.handle : Node → Option (WKind × Ptr)
  | .wrapped _ k p => some (k, p)
  | _ => none

/-! ### The members each iterator should enumerate -/

def importSel : Kind → Option WKind
  | .importK _ => some .importW
  | _ => none
/-- Messages, extend blocks excluded. -/
def messageSel : Kind → Option WKind
  | .message _ false => some .message
  | _ => none
def enumSel : Kind → Option WKind
  | .enum _ => some .enum
  | _ => none
/-- Messages and enums, extend blocks excluded. -/
def typeSel : Kind → Option WKind
  | .message _ false => some .message
  | .enum _ => some .enum
  | _ => none
def serviceSel : Kind → Option WKind
  | .service _ => some .service
  | _ => none
/-- Fields, map fields and oneofs. -/
def fieldSel : Kind → Option WKind
  | .normalField _ _ _ _ _ => some .messageField
  | .mapField _ _ _ _ => some .messageField
  | .oneof _ => some .messageField
  | _ => none
def valueSel : Kind → Option WKind
  | .enumField _ _ => some .enumValue
  | _ => none
def branchSel : Kind → Option WKind
  | .oneofField _ _ _ => some .oneofBranch
  | _ => none
def methodSel : Kind → Option WKind
  | .rpc _ _ _ _ _ => some .method
  | _ => none

/-- `slices.Collect(seq)` succeeds and gives exactly the selected members of `p`, in source order, none of
    them twice. -/
def Exact (r : Reg) (seq : Seq Node) (p : Ptr) (sel : Kind → Option WKind) : Prop :=
  ∃ ns r', seq.collect r = (.ok ns, r') ∧ ns.map Node.handle = (membersOf r p sel).map some ∧
    (ns.map Node.handle).Nodup

/-- The name the declaration behind a node has in the source; the extend blocks have none. -/
def Node.sourceName (r : Reg) (n : Node) : Option Str := (n.decl.bind r.kind).bind Kind.declName

/-- The lookup of every name in `names` succeeds; right after an iteration it returns the identical node
    the iteration gave first for that name, and nil iff there was none. -/
def AgreesFor (names : Str → Prop) (r : Reg) (seq : Seq Node) (look : Str → M (Option Node)) : Prop :=
  ∃ ns r1, seq.collect r = (.ok ns, r1) ∧
    ∀ name, names name → ∃ r2, look name r1 = (.ok (ns.find? fun n => n.sourceName r == some name), r2)

/-- The same for all names. -/
def Agrees (r : Reg) (seq : Seq Node) (look : Str → M (Option Node)) : Prop :=
  AgreesFor (fun _ => True) r seq look

/-- The file has no extend block that extends something called `name`. -/
def NotExtended (r : Reg) (p : Ptr) (name : Str) : Prop :=
  ∀ e ∈ (r.children p).getD [], e.kind ≠ .message name true

/-- The place of the element a node represents, options included. -/
def Node.place : Node → Option Ptr
  | .wrapped _ _ p => some p
  | .option _ p _ _ => some p
  | _ => none

/-- `slices.Collect` of an `Everything` iterator succeeds and gives one node per element of `p`, in source
    order. -/
def EnumeratesAll (r : Reg) (seq : Seq (Option Node)) (p : Ptr) : Prop :=
  ∃ ns r', seq.collect r = (.ok ns, r') ∧
    ns.map (fun n => n.bind Node.place) =
      ((r.children p).getD []).zipIdx.map fun x => some ⟨p.file, x.2 :: p.path⟩

/-- The `Everything` iterators with the class of options of each kind of node. -/
def everythingOf : Node → Option (Seq (Option Node) × Str × Ptr)
  | .wrapped _ .file p => some (File.everything p, b!".google.protobuf.FileOptions", p)
  | .wrapped _ .message p => some (Message.everything p, b!".google.protobuf.MessageOptions", p)
  | .wrapped _ .enum p => some (Enum.everything p, b!".google.protobuf.EnumOptions", p)
  | .wrapped _ .service p => some (Service.everything p, b!".google.protobuf.ServiceOptions", p)
  | _ => none

/-- The iterators over declarations, with what they should enumerate. -/
def IterQ.declSeq : IterQ → Node → Option (Seq Node × Ptr × (Kind → Option WKind))
  | .fileImports, .wrapped _ .file p => some (File.imports p, p, importSel)
  | .fileMessages, .wrapped _ .file p => some (File.messages p, p, messageSel)
  | .fileEnums, .wrapped _ .file p => some (File.enums p, p, enumSel)
  | .fileTypes, .wrapped _ .file p => some (File.types p, p, typeSel)
  | .fileServices, .wrapped _ .file p => some (File.services p, p, serviceSel)
  | .messageFields, .wrapped _ .message p => some (Message.fields p, p, fieldSel)
  | .messageMessages, .wrapped _ .message p => some (Message.messages p, p, messageSel)
  | .messageTypes, .wrapped _ .message p => some (Message.types p, p, typeSel)
  | .enumValues, .wrapped _ .enum p => some (Enum.values p, p, valueSel)
  | .oneofBranches, .oneof _ p => some (OneOf.branches p, p, branchSel)
  | .serviceMethods, .wrapped _ .service p => some (Service.methods p, p, methodSel)
  | _, _ => none

/-! ### Loops that stop on demand -/

/-- A loop body that counts, does whatever it likes, and leaves the loop after `k` elements. -/
def stopAfter {α σ : Type} (k : Nat) (body : σ → α → M σ) (s : Nat × σ) (a : α) :
    M ((Nat × σ) × Bool) := do
  let s' ← body s.2 a
  pure ((s.1 + 1, s'), decide (s.1 + 1 < k))

/-- The iterator cut after its first `k` elements. -/
def Seq.take {α : Type} (seq : Seq α) (k : Nat) : M (List (M α)) := do
  let steps ← seq
  pure (List.take k steps)

/-- A loop body of a client: it records the element, puts it into the pool and makes the calls `act` tells
    it to make, which may depend on everything seen so far. Panics of these calls are recovered. -/
def clientBody (act : List Node → List Op) (s : List Node × List Node) (a : Node) :
    M (List Node × List Node) := fun r =>
  let c := Client.exec ⟨r, s.2 ++ [a]⟩ (act (s.1 ++ [a]))
  (.ok (s.1 ++ [a], c.pool), c.reg)

end Protoast
