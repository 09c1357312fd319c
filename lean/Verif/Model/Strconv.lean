import Verif.Model.Str
/-
  The parts of Go's strconv that internal/core/ast_option_value.go uses, for base 10 and a 64-bit `int`.
-/
namespace Protoast

/-- Value of one ASCII digit. -/
def digitVal (c : UInt8) : Option Nat :=
  if 48 ≤ c.toNat ∧ c.toNat ≤ 57 then some (c.toNat - 48) else none

/-- Value of a digit string, most significant first, continuing from `acc`; `none` when some byte is
    not a digit. -/
def digitsVal : Nat → Str → Option Nat
  | acc, [] => some acc
  | acc, c :: cs =>
    match digitVal c with
    | some d => digitsVal (acc * 10 + d) cs
    | none => none

/-- `strconv.ParseUint(s, 10, 64)` (internal/core/ast_option_value.go:54); `none` is an error. -/
def parseUint (s : Str) : Option Nat :=
  if s = [] then none
  else
    match digitsVal 0 s with
    | some v => if v < 2 ^ 64 then some v else none
    | none => none

/-- `strconv.Atoi(s)` (internal/core/ast_option_value.go:42) on a platform with 64-bit `int`; `none` is an error. -/
def atoi (s : Str) : Option Int :=
  match s with
  | [] => none
  | 45 :: ds =>
    match parseUint ds with
    | some v => if v ≤ 2 ^ 63 then some (-(v : Int)) else none
    | none => none
  | 43 :: ds =>
    match parseUint ds with
    | some v => if v < 2 ^ 63 then some (v : Int) else none
    | none => none
  | s =>
    match parseUint s with
    | some v => if v < 2 ^ 63 then some (v : Int) else none
    | none => none

/-- `strconv.ParseBool(s)` (internal/core/ast_option_value.go:30); `none` is an error. -/
def parseBool (s : Str) : Option Bool :=
  if s = b!"1" ∨ s = b!"t" ∨ s = b!"T" ∨ s = b!"true" ∨ s = b!"TRUE" ∨ s = b!"True" then some true
  else if s = b!"0" ∨ s = b!"f" ∨ s = b!"F" ∨ s = b!"false" ∨ s = b!"FALSE" ∨ s = b!"False" then
    some false
  else none

/-- Decimal digits of `n`, with an iteration bound that `formatUint` sets high enough. -/
def decimal : Nat → Nat → Str
  | 0, _ => []
  | fuel + 1, n =>
    if n < 10 then [UInt8.ofNat (48 + n)]
    else decimal fuel (n / 10) ++ [UInt8.ofNat (48 + n % 10)]

/-- `strconv.FormatUint(v, 10)` (internal/core/ast_option_value.go:229). -/
def formatUint (n : Nat) : Str := decimal (n + 1) n

/-- `strconv.Itoa(v)` (internal/core/ast_option_value.go:225). -/
def itoa (v : Int) : Str :=
  if v < 0 then 45 :: formatUint v.natAbs else formatUint v.natAbs

/-- `strconv.FormatBool(v)` (internal/core/ast_option_value.go:221). -/
def formatBool : Bool → Str
  | true => b!"true"
  | false => b!"false"

end Protoast
