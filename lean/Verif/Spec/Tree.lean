import Verif.Spec.Paths
/-
  A disk as a tree of directories and files, and the part of it the operating system shows to the library.
-/
namespace Protoast

/-- What is found at a place: a directory or a file. A file is given by what reading and parsing it yields, under the
    import path it is read for. -/
inductive Entry where
  | dir
  | file (contents : Str → Except Err (List Elem))

/-- A working directory and what exists where. A place is the list of names leading to it from the root directory. -/
structure Tree where
  cwd : List Str
  entry : List Str → Option Entry

/-- The path goes up (`..`) only at its beginning, before it enters anything. -/
def UpFirst (p : Str) : Prop :=
  ∀ cs, Components p cs → ∀ pre post, cs = pre ++ b!".." :: post → ∀ c ∈ pre, c = [] ∨ c = b!"." ∨ c = b!".."

/-- `os.Stat` and reading see the tree (which has no symbolic links): for every non-empty path that goes up only at its
    beginning. (A path such as `x/../y` need not lead anywhere if there is no `x`; nothing is said about those.) -/
structure OnTree (T : Tree) (os : OS) (load : Str → Str → Except Err (List Elem)) : Prop where
  empty : ∃ e, os.stat [] = .error e
  absent : ∀ p place, p ≠ [] → UpFirst p → Denotes T.cwd p place → T.entry place = none →
    ∃ e, os.stat p = .error e ∧ e.isNotExist = true
  dir : ∀ p place, p ≠ [] → UpFirst p → Denotes T.cwd p place → T.entry place = some .dir →
    os.stat p = .ok true ∧ ∀ path, ∃ e, load p path = .error e
  file : ∀ p place contents, p ≠ [] → UpFirst p → Denotes T.cwd p place → T.entry place = some (.file contents) →
    os.stat p = .ok false ∧ ∀ path, load p path = contents path

/-- Where the library looks for protoc's include directory if the binary was found at `loc`: beside the directory the
    binary is in, if `loc` has the form `dir/bin/name`; otherwise in the working directory. -/
inductive IncludePlace (cwd : List Str) : Str → List Str → Prop where
  | beside {dir bin name d} : (47 : UInt8) ∉ bin → (47 : UInt8) ∉ name → Denotes cwd (dir ++ [47]) d →
      IncludePlace cwd (dir ++ 47 :: (bin ++ 47 :: name)) (d ++ [b!"include"])
  | flat {name} : (47 : UInt8) ∉ name → IncludePlace cwd name (cwd ++ [b!"include"])
  | top {bin name} : (47 : UInt8) ∉ bin → (47 : UInt8) ∉ name →
      IncludePlace cwd (bin ++ 47 :: name) (cwd ++ [b!"include"])

/-- Protoc's include directory is at `incl`, and there is a `google/protobuf/any.proto` in it. -/
def HasInclude (T : Tree) (os : OS) (incl : List Str) : Prop :=
  ∃ loc, os.lookPath = .ok loc ∧ IncludePlace T.cwd loc incl ∧
    T.entry (incl ++ [b!"google", b!"protobuf", b!"any.proto"]) ≠ none

/-- The places searched after these calls on the builder, in order: protoc's include directory, if asked for, then the
    roots in lexicographic byte order of their spelling. -/
def SearchPlaces (T : Tree) (os : OS) (calls : List BuilderCall) (places : List (List Str)) : Prop :=
  ∃ roots : List (Str × List Str), (roots.map Prod.fst).Pairwise (· < ·) ∧
    (∀ x, x ∈ roots.map Prod.fst ↔ x ∈ rootsGiven calls) ∧ (∀ x ∈ roots, Denotes T.cwd x.1 x.2) ∧
    ((wantsProtoc calls ∧ ∃ incl, HasInclude T os incl ∧ places = incl :: roots.map Prod.snd) ∨
      (¬ wantsProtoc calls ∧ places = roots.map Prod.snd))

end Protoast
