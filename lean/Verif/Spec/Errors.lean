import Verif.Spec.Imports
/-
  What an error says: the chain `errors.Is` walks, the text, and the possible causes of a failed load.
-/
namespace Protoast

/-- `errors.Is` reaches `t` from the error: the error itself, or what it wraps. -/
inductive Unwraps : Err → Err → Prop where
  | here (e) : Unwraps e e
  | inside {c e t} : Unwraps e t → Unwraps (.wrap c e) t

/-- `err.Error()` (internal/errors/wrap.go:6-14 joins with a colon and a blank); `leaf` gives the texts of the errors
    that wrap nothing. -/
def Err.text (leaf : Err → Str) : Err → Str
  | .wrap c e => c ++ b!": " ++ e.text leaf
  | e => leaf e

/-- An error inside annotations, the outermost first. -/
def annotated : List Str → Err → Err
  | [], e => e
  | c :: cs, e => .wrap c (annotated cs e)

/-- Why a file that is not loaded yet cannot be loaded: the error at the bottom, and what is said about it. -/
inductive Cause (W : World) (path : Str) : List Str → Err → Prop where
  /-- no resolver knows the path -/
  | unknown : (∀ R ∈ W.resolvers, ∃ e, R.resolve path = .error e ∧ e.isNotExist = true) → Cause W path [] .notFound
  /-- the first resolver that does not deny the path gives an empty location -/
  | nowhere {R} : FirstHit W.resolvers path R → R.resolve path = .ok [] → Cause W path [] .notFound
  /-- that resolver fails: its name and its error -/
  | resolver {R e} : FirstHit W.resolvers path R → R.resolve path = .error e →
      Cause W path [b!"resolve proto file path with " ++ R.name] e
  /-- the located file cannot be read or parsed: the location and the error -/
  | content {R loc e} : FirstHit W.resolvers path R → R.resolve path = .ok loc → loc ≠ [] →
      W.load loc path = .error e → Cause W path [b!"get proto definition from resolved file " ++ loc] e

end Protoast
