import Verif.Model.Load
/-
  internal/core/path_resolvers.go: path resolvers and their builder.
-/
namespace Protoast

/-- What the builder and the resolvers ask of the operating system: `exec.LookPath("protoc")` and
    `os.Stat`; a successful stat is reduced to `IsDir()`. -/
structure OS where
  lookPath : Except Err Str
  stat : Str → Except Err Bool

/-- Byte `/`. -/
abbrev slash : UInt8 := 47

/-- Split at every `/`. -/
def splitSlash : Str → List Str
  | [] => [[]]
  | c :: cs =>
    if c = slash then [] :: splitSlash cs
    else
      match splitSlash cs with
      | [] => [[c]]
      | w :: ws => (c :: w) :: ws

/-- Join with `/`. -/
def joinSlash : List Str → Str
  | [] => []
  | [w] => w
  | w :: v :: ws => w ++ slash :: joinSlash (v :: ws)

/-- One component of `filepath.Clean` (Unix): `out` is the output so far, innermost first. -/
def cleanStep (rooted : Bool) (out : List Str) (c : Str) : List Str :=
  if c = [] ∨ c = b!"." then out
  else if c = b!".." then
    match out with
    | [] => if rooted then [] else [c]
    | d :: ds => if d = b!".." then c :: d :: ds else ds
  else c :: out

/-- `filepath.Clean` on Unix, in component form (standard library, modelled from its documentation). -/
def clean (path : Str) : Str :=
  if path = [] then b!"."
  else
    let rooted := path.head? == some slash
    let out := ((splitSlash path).foldl (cleanStep rooted) []).reverse
    if rooted then slash :: joinSlash out
    else if out = [] then b!"."
    else joinSlash out

/-- `filepath.Join(elem...)` on Unix: leading empty elements are dropped. -/
def joinPath : List Str → Str
  | [] => []
  | [] :: rest => joinPath rest
  | (c :: cs) :: rest => clean (joinSlash ((c :: cs) :: rest))

/-- `dir, _ := filepath.Split(path)`: everything up to and including the last `/`. -/
def splitDir (path : Str) : Str :=
  match lastIndex slash path with
  | none => []
  | some i => path.take (i + 1)

/-- `strings.TrimSuffix(s, "/")`. -/
def trimSlash (s : Str) : Str :=
  match s.getLast? with
  | some c => if c = slash then s.dropLast else s
  | none => s

/-- The `Resolve` method shared by both resolver types (internal/core/path_resolvers.go:51-59,82-89). -/
def rootResolve (os : OS) (root path : Str) : Except Err Str :=
  let full := joinPath [root, path]
  match os.stat full with
  | .error e => .error (.wrap b!"check computed path" e)
  | .ok _ => .ok full

/-- internal/core/path_resolvers.go:25-45 `newPathResolverProtoc`; the result is the `root` field. -/
def protocRoot (os : OS) : Except Err Str :=
  match os.lookPath with
  | .error e => .error (.wrap b!"look for protoc binary" e)
  | .ok protocPath =>
    let dir := splitDir (trimSlash (splitDir protocPath))
    let incl := joinPath [dir, b!"include"]
    match os.stat (joinPath [incl, b!"google", b!"protobuf", b!"any.proto"]) with
    | .error e => .error (.wrap (b!"check for google/protobuf/any.proto near the protoc in " ++ incl) e)
    | .ok _ => .ok incl

/-- internal/core/path_resolvers.go:65-76 `newPathResolverRoot`; the result is the `root` field. -/
def checkRoot (os : OS) (root : Str) : Except Err Str :=
  match os.stat root with
  | .error e => .error (.wrap b!"check root path" e)
  | .ok isDir => if isDir then .ok root else .error .notDir

/-- `pathResolverProtoc` or `pathResolverRoot` (internal/core/path_resolvers.go:21-23,61-63). -/
inductive PathResolver where
  | protoc (root : Str)
  | root (root : Str)
deriving DecidableEq, Repr

/-- The `root` field. -/
def PathResolver.dir : PathResolver → Str
  | .protoc r => r
  | .root r => r

/-- A built resolver as the registry sees it. The names (internal/core/path_resolvers.go:47-49,78-80) only occur in
    error texts. -/
def PathResolver.toResolver (os : OS) : PathResolver → Resolver
  | .protoc r => { name := b!"protoc distribution", resolve := rootResolve os r }
  | .root r => { name := b!"schema at " ++ r, resolve := rootResolve os r }

/-- `PathResolversBuilder` (internal/core/path_resolvers.go:91-94). -/
structure Builder where
  isProtoc : Bool := false
  roots : List Str := []
deriving DecidableEq, Repr

/-- internal/core/path_resolvers.go:105-108 `WithProtoc`. -/
def Builder.withProtoc (b : Builder) : Builder := { b with isProtoc := true }

/-- internal/core/path_resolvers.go:110-113 `WithRoot`. -/
def Builder.withRoot (b : Builder) (roots : List Str) : Builder := { b with roots := b.roots ++ roots }

/-- Byte-wise string order `a <= b` used by `sort.Strings`. -/
def leStr : Str → Str → Bool
  | [], _ => true
  | _ :: _, [] => false
  | a :: as, b :: bs => if a.toNat < b.toNat then true else if a = b then leStr as bs else false

/-- Insertion into a sorted list. -/
def insertStr (s : Str) : List Str → List Str
  | [] => [s]
  | t :: ts => if leStr s t then s :: t :: ts else t :: insertStr s ts

/-- `sort.Strings` (internal/core/path_resolvers.go:117): equal strings are indistinguishable, so any sorting
    algorithm gives the same slice. -/
def sortStrs : List Str → List Str
  | [] => []
  | s :: ss => insertStr s (sortStrs ss)

/-- The kept elements of `slices.Compact`: runs of equal elements are replaced by one. -/
def compactKeep : List Str → List Str
  | [] => []
  | [s] => [s]
  | s :: t :: rest => if s = t then compactKeep (t :: rest) else s :: compactKeep (t :: rest)

/-- The effect of the statement `slices.Compact(roots)` (internal/core/path_resolvers.go:118) on `roots` itself, whose
    result is discarded: the kept elements move to the front and, since Go 1.22 (go.mod says 1.26), the
    tail is zeroed, so `roots` keeps its length and ends in empty strings. -/
def compactInPlace (ss : List Str) : List Str :=
  compactKeep ss ++ List.replicate (ss.length - (compactKeep ss).length) []

/-- The loop internal/core/path_resolvers.go:131-138. -/
def checkRoots (os : OS) : List Str → Except Err (List PathResolver)
  | [] => .ok []
  | root :: rest =>
    match checkRoot os root with
    | .error e => .error (.wrap (b!"setup schema resolver over " ++ root) e)
    | .ok r =>
      match checkRoots os rest with
      | .error e => .error e
      | .ok rs => .ok (.root r :: rs)

/-- internal/core/path_resolvers.go:115-141 `Build`. -/
def Builder.build (os : OS) (b : Builder) : Except Err (List PathResolver) :=
  let roots := compactInPlace (sortStrs b.roots)
  if b.isProtoc then
    match protocRoot os with
    | .error e => .error (.wrap b!"setup protoc distribution resolver" e)
    | .ok root =>
      match checkRoots os roots with
      | .error e => .error e
      | .ok rs => .ok (.protoc root :: rs)
  else checkRoots os roots

end Protoast
