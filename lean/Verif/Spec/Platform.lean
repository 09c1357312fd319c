import Verif.Model.Platform
import Verif.Spec.Values
/-
  What the option value of another platform is.
-/
namespace Protoast

/-- The number is a value of the Go type `int` of 32 bits. -/
def FitsInt32 (v : Int) : Prop := -(2 ^ 31) ≤ v ∧ v < 2 ^ 31

mutual
/-- The value with every unsigned number reduced modulo 2^32. -/
def OptVal.cut : OptVal → OptVal
  | .uint o l v => .uint o l (v % 2 ^ 32)
  | .array o vs => .array o (OptVal.cutAll vs)
  | .map o l items => .map o l (OptVal.cutItems items)
  | .bool o l v => .bool o l v
  | .int o l v => .int o l v
  | .float o l v => .float o l v
  | .string o l v => .string o l v
  | .bytes o l v => .bytes o l v
  | .enum o l a p => .enum o l a p
def OptVal.cutAll : List OptVal → List OptVal
  | [] => []
  | v :: vs => v.cut :: OptVal.cutAll vs
def OptVal.cutItems : List (Str × OptVal) → List (Str × OptVal)
  | [] => []
  | kv :: rest => OptVal.cutItem kv :: OptVal.cutItems rest
def OptVal.cutItem : Str × OptVal → Str × OptVal
  | (k, v) => (k, v.cut)
end

/-- `PartOf x v`: `x` is the value `v` or a part of it, at any depth. -/
inductive PartOf : OptVal → OptVal → Prop where
  | self {v} : PartOf v v
  | array {x v o vs} : v ∈ vs → PartOf x v → PartOf x (.array o vs)
  | map {x k v o l items} : (k, v) ∈ items → PartOf x v → PartOf x (.map o l items)

/-- All signed numbers in the value have at most 32 bits. -/
def IntsFit (v : OptVal) : Prop := ∀ o l n, PartOf (.int o l n) v → FitsInt32 n
/-- All unsigned numbers in the value have at most 32 bits. -/
def UintsFit (v : OptVal) : Prop := ∀ o l n, PartOf (.uint o l n) v → n < 2 ^ 32

end Protoast
