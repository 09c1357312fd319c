import Verif.Model.QuickStart
import Verif.Spec.Iter
import Verif.Spec.Options
import Verif.Spec.Values
/-
  What the program of the README's "Quick Start" should print, read off the loaded files.
-/
namespace Protoast.QuickStart
open Protoast

/-- The field at `f` stands directly in the message at `cls`. -/
def FieldOf (cls f : Ptr) : Prop := ∃ i, f = ⟨cls.file, i :: cls.path⟩

/-- What is called by `n` at `p`. -/
def Called (r : Reg) (p : Ptr) (n : Str) : Prop := ∃ kd, r.kind p = some kd ∧ kd.declName = some n

/-- The name printed for an option written `w` that sets the field at `f`: for a field of the option message `C` itself
    `(C).field`, else what is written. -/
def PrintedName (r : Reg) (C : Str) (cls f : Ptr) (w name : Str) : Prop :=
  (FieldOf cls f ∧ ∃ n, Called r f n ∧ name = b!"(" ++ C ++ b!")." ++ n) ∨ (¬ FieldOf cls f ∧ name = w)

/-- The statement `x = (place, name as written)` sets the field at `f` and its literal has the value `v` (in the dialect
    of literals that the library accepts, see C49). -/
def Sets (F : FloatOps) (r : Reg) (s : Str) (cls : Ptr) (x : Ptr × Str) (f : Ptr) (v : OptVal) : Prop :=
  Binds r s cls x.2 f ∧ ∃ lit, r.kind x.1 = some (.option x.2 lit) ∧ FieldValue .accepted F r (some x.1) f lit v

/-- The line printed for a file option. -/
def OptionLine (F : FloatOps) (r : Reg) (s : Str) (cls : Ptr) (x : Ptr × Str) (l : Line) : Prop :=
  ∃ f v name, Sets F r s cls x f v ∧ PrintedName r b!".google.protobuf.FileOptions" cls f x.2 name ∧ l = .option name v

/-- The lines printed for a message: its own, and one for each of its fields. -/
def MessageLines (r : Reg) (m : Ptr) (ls : List Line) : Prop :=
  ∃ mn names, Called r m mn ∧ Matching (Called r) ((membersOf r m fieldSel).map (·.2)) names ∧
    ls = .message mn :: names.map (Line.field mn)

/-- Every option of the file sets a field to some value. -/
def Printable (F : FloatOps) (r : Reg) (i : Nat) : Prop :=
  ∃ cls es, ClassAt r b!".google.protobuf.FileOptions" cls ∧ r.children ⟨i, []⟩ = some es ∧
    ∀ x ∈ optionsOf r ⟨i, []⟩, ∃ f v, Sets F r (packageDot es) cls x f v

/-- All that is printed for the file loaded as `path`. -/
def Printout (F : FloatOps) (r : Reg) (path : Str) (ls : List Line) : Prop :=
  ∃ i es cls ols mls, r.protos path = some i ∧ r.children ⟨i, []⟩ = some es ∧
    ClassAt r b!".google.protobuf.FileOptions" cls ∧
    Matching (OptionLine F r (packageDot es) cls) (optionsOf r ⟨i, []⟩) ols ∧
    Matching (MessageLines r) ((membersOf r ⟨i, []⟩ messageSel).map (·.2)) mls ∧
    ls = .file path (packageOf es) :: ols ++ mls.flatten

end Protoast.QuickStart
