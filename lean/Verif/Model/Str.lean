/-
  Go strings.

  Go strings are byte strings, so the model uses `List UInt8`.  Everything in /repo that looks inside
  a string does so with the byte-level helpers modelled here (`strings.HasPrefix`,
  `strings.LastIndex`, `strings.IndexByte`, `strings.NewReplacer` with empty replacements).
-/
namespace Protoast

/-- A Go string: a finite sequence of bytes. -/
abbrev Str := List UInt8

/-- `b!"text"` is the list of bytes of `text`, expanded when the file is elaborated. -/
macro:max "b!" s:str : term => do
  let ts ← s.getString.toUTF8.toList.toArray.mapM fun b =>
    `(($(Lean.quote b.toNat) : UInt8))
  `(([$ts,*] : Str))

/-- The byte `.`. -/
abbrev dot : UInt8 := 46

/-- `strings.HasPrefix(s, ".")`, used in internal/core/registry_name_resolver.go:15,19, internal/core/visitor_demark.go:56 and
    internal/core/ast_map.go:36. -/
def hasDotPrefix : Str → Bool
  | c :: _ => c == dot
  | [] => false

/-- `strings.LastIndex(s, ".")` restricted to one-byte needles (internal/core/registry_name_resolver.go:30);
    `none` is Go's -1. -/
def lastIndex (b : UInt8) : Str → Option Nat
  | [] => none
  | c :: cs =>
    match lastIndex b cs with
    | some i => some (i + 1)
    | none => if c = b then some 0 else none

/-- `strings.IndexByte(s, b)` (internal/core/registry_simple.go:52); `none` is Go's -1. -/
def indexByte (b : UInt8) : Str → Option Nat
  | [] => none
  | c :: cs => if c = b then some 0 else (indexByte b cs).map (· + 1)

/-- `parenthesisReplacer.Replace` (internal/core/ast_option.go:19,123): every `(` and `)` is dropped. -/
def stripParens (s : Str) : Str := s.filter (fun c => c != 40 && c != 41)

/-- A Go map write `m[k] = v`; Go maps are modelled as partial functions because the code never
    ranges over a map. -/
def upd {K V : Type} [DecidableEq K] (m : K → Option V) (k : K) (v : V) : K → Option V :=
  fun k' => if k' = k then some v else m k'

end Protoast
