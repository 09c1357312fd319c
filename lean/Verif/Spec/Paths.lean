import Verif.Model.Paths
/-
  What paths mean and what the builder is told, independent of how the code computes.
-/
namespace Protoast

/-- The components of a path: the strings between its slashes. -/
inductive Components : Str → List Str → Prop where
  | last {w} : (47 : UInt8) ∉ w → Components w [w]
  | cons {w path ws} : (47 : UInt8) ∉ w → Components path ws → Components (w ++ 47 :: path) (w :: ws)

/-- One step through a directory tree without symbolic links. A place is the list of names leading from the root
    directory to it. -/
def stepInto (place : List Str) (c : Str) : List Str :=
  if c = [] ∨ c = b!"." then place
  else if c = b!".." then place.dropLast
  else place ++ [c]

/-- The place a sequence of components leads to from a place. -/
def walkFrom (place : List Str) (cs : List Str) : List Str := cs.foldl stepInto place

/-- A path, read in the working directory `cwd`, denotes `place`. -/
def Denotes (cwd : List Str) (path : Str) (place : List Str) : Prop :=
  ∃ cs, Components path cs ∧ place = walkFrom (if path.head? = some 47 then [] else cwd) cs

/-- Walking these components never leaves the directory one starts in; `depth` is how deep inside one is. -/
def StaysInside : Nat → List Str → Prop
  | _, [] => True
  | depth, c :: cs =>
    if c = [] ∨ c = b!"." then StaysInside depth cs
    else if c = b!".." then 0 < depth ∧ StaysInside (depth - 1) cs
    else StaysInside (depth + 1) cs

/-- A call on the builder. -/
inductive BuilderCall where
  | withProtoc
  | withRoot (roots : List Str)

/-- The builder after a sequence of calls on a new one. -/
def builderAfter (calls : List BuilderCall) : Builder :=
  calls.foldl (fun b c => match c with | .withProtoc => b.withProtoc | .withRoot rs => b.withRoot rs) {}

/-- Whether protoc was requested. -/
def wantsProtoc (calls : List BuilderCall) : Prop := BuilderCall.withProtoc ∈ calls

/-- The roots given, in the order given. -/
def rootsGiven (calls : List BuilderCall) : List Str :=
  calls.flatMap fun c => match c with | .withProtoc => [] | .withRoot rs => rs

/-- One resolver per root, in lexicographic byte order (`<` on lists of bytes). -/
def RootResolvers (roots : List Str) (rs : List PathResolver) : Prop :=
  ∃ l : List Str, l.Pairwise (· < ·) ∧ (∀ x, x ∈ l ↔ x ∈ roots) ∧ rs = l.map .root

/-- `os.Stat("")` fails, as it does on every Unix. -/
def OS.Unix (os : OS) : Prop := ∃ e, os.stat [] = .error e

/-- The directories searched after these calls, in order: protoc's include directory, if it was asked for, then the
    roots in lexicographic byte order. -/
def SearchDirs (os : OS) (calls : List BuilderCall) (dirs : List Str) : Prop :=
  ∃ l : List Str, l.Pairwise (· < ·) ∧ (∀ x, x ∈ l ↔ x ∈ rootsGiven calls) ∧
    ((wantsProtoc calls ∧ ∃ incl, protocRoot os = .ok incl ∧ dirs = incl :: l) ∨ (¬ wantsProtoc calls ∧ dirs = l))

/-- `full` is a way to where `path` leads from the directory `dir`, in every working directory. -/
def LeadsTo (dir path full : Str) : Prop :=
  ∀ cwd d cs, Denotes cwd dir d → Components path cs → Denotes cwd full (walkFrom d cs)

/-- Nothing exists at the path. -/
def Absent (os : OS) (full : Str) : Prop := ∃ e, os.stat full = .error e ∧ e.isNotExist = true

end Protoast
