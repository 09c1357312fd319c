import Verif.Spec.Values
import Mathlib.Data.Rat.Defs
import Mathlib.Algebra.Order.Field.Rat
import Mathlib.Algebra.Order.Group.Unbundled.Abs
/-
  Floating-point literals and IEEE 754 doubles.
-/
namespace Protoast

/-! ### Doubles: sign bit, 11 bits of exponent, 52 bits of fraction -/

def Double.negative (b : UInt64) : Bool := decide (b.toNat / 2 ^ 63 = 1)
def Double.exponent (b : UInt64) : Nat := b.toNat / 2 ^ 52 % 2 ^ 11
def Double.fraction (b : UInt64) : Nat := b.toNat % 2 ^ 52
/-- Neither infinite nor NaN. -/
def Double.Finite (b : UInt64) : Prop := Double.exponent b ≠ 2047
/-- The number a finite double stands for. -/
def Double.value (b : UInt64) : ℚ :=
  (if Double.negative b then -1 else 1) *
    (if Double.exponent b = 0 then (Double.fraction b : ℚ) * 2 ^ (-1074 : ℤ)
     else ((2 : ℚ) ^ 52 + Double.fraction b) * 2 ^ ((Double.exponent b : ℤ) - 1075))

def Double.posInf : UInt64 := 0x7FF0000000000000
def Double.negInf : UInt64 := 0xFFF0000000000000
/-- Not a number: the exponent is the largest, the fraction is not 0. -/
def Double.IsNaN (b : UInt64) : Prop := Double.exponent b = 2047 ∧ Double.fraction b ≠ 0

/-- The double `b` is the number `q` rounded to the nearest, ties to even. -/
structure Double.Nearest (q : ℚ) (b : UInt64) : Prop where
  finite : Double.Finite b
  nearest : ∀ b', Double.Finite b' → |Double.value b - q| ≤ |Double.value b' - q|
  even : ∀ b', Double.Finite b' → Double.value b' ≠ Double.value b → |Double.value b - q| = |Double.value b' - q| →
    Double.fraction b % 2 = 0

/-- Too large in magnitude: at least half way from the largest double to the next power of two. -/
def Double.OutOfRange (q : ℚ) : Prop := 2 ^ 1024 - 2 ^ 970 ≤ |q|

/-! ### Literals -/

/-- Digits with at most one point among them: the number without the point, and how many digits are behind it. -/
inductive Pointed : Str → Nat → Nat → Prop where
  | whole {s n} : Numeral s n → Pointed s n 0
  | dot {s n} : Numeral s n → Pointed (s ++ [46]) n 0
  | behind {s n} : Numeral s n → Pointed (46 :: s) n s.length
  | both {s t n} : s ≠ [] → t ≠ [] → Numeral (s ++ t) n → Pointed (s ++ 46 :: t) n t.length

/-- The same with hexadecimal digits. -/
inductive HexPointed : Str → Nat → Nat → Prop where
  | whole {s n} : HexDigits s n → HexPointed s n 0
  | dot {s n} : HexDigits s n → HexPointed (s ++ [46]) n 0
  | behind {s n} : HexDigits s n → HexPointed (46 :: s) n s.length
  | both {s t n} : s ≠ [] → t ≠ [] → HexDigits (s ++ t) n → HexPointed (s ++ 46 :: t) n t.length

/-- The exponent part, possibly empty. -/
inductive ExponentPart : Str → Int → Prop where
  | none : ExponentPart [] 0
  | some {c s e} : c = 101 ∨ c = 69 → SignedBy Numeral s e → ExponentPart (c :: s) e

/-- Unsigned decimal numbers as the protobuf language writes them (`floatLit`, and `decimalLit`), with their value; the
    exponent has at most five digits, leading zeros aside, or the digits before it are at most 9000. -/
inductive DecimalNumber : Str → ℚ → Prop where
  | mk {s p n k e} : Pointed s n k → ExponentPart p e → |e| < 100000 ∨ s.length ≤ 9000 → DecimalNumber (s ++ p) ((n : ℚ) * 10 ^ (e - k))

/-- Hexadecimal numbers with a binary exponent as Go writes them, which the protobuf language does not have, with their
    value; the exponent has at most five digits, leading zeros aside. -/
inductive HexNumber : Str → ℚ → Prop where
  | mk {x s n k c p e} : x = 120 ∨ x = 88 → HexPointed s n k → c = 112 ∨ c = 80 → SignedBy Numeral p e → |e| < 100000 →
      HexNumber (48 :: x :: s ++ c :: p) ((n : ℚ) * 2 ^ (e - 4 * k))

/-- The text `t` (in lower case letters), with any of its letters in upper case. -/
def AnyCase (t s : Str) : Prop := s.length = t.length ∧ ∀ (i : Nat) (c d : UInt8), t[i]? = some c → s[i]? = some d → d = c ∨ d.toNat + 32 = c.toNat

/-- Unsigned floating-point numbers, whatever their exponent: decimal, hexadecimal, or infinite. -/
inductive FloatText : Str → Prop where
  | decimal {s p n k e} : Pointed s n k → ExponentPart p e → FloatText (s ++ p)
  | hex {x s n k c p e} : x = 120 ∨ x = 88 → HexPointed s n k → c = 112 ∨ c = 80 → SignedBy Numeral p e →
      FloatText (48 :: x :: s ++ c :: p)
  | inf {s} : AnyCase b!"inf" s → FloatText s
  | infinity {s} : AnyCase b!"infinity" s → FloatText s

/-- What can be read as a floating-point number: with an optional sign, or not a number. -/
inductive FloatConstant : Str → Prop where
  | plain {s} : FloatText s → FloatConstant s
  | plus {s} : FloatText s → FloatConstant (43 :: s)
  | minus {s} : FloatText s → FloatConstant (45 :: s)
  | nan {s} : AnyCase b!"nan" s → FloatConstant s

/-- Numbers with an optional sign: is there a minus, and the value. -/
inductive SignedNumber (num : Str → ℚ → Prop) : Str → Bool → ℚ → Prop where
  | plain {s q} : num s q → SignedNumber num s false q
  | plus {s q} : num s q → SignedNumber num (43 :: s) false q
  | minus {s q} : num s q → SignedNumber num (45 :: s) true (-q)

abbrev DecimalFloat := SignedNumber DecimalNumber

/-- The numeric constants of the protobuf language, without a sign: `intLit` and `floatLit`. -/
inductive ProtoNumber : Str → ℚ → Prop where
  | int {s n} : IntLit s n → ProtoNumber s n
  | float {s p n k e} : Pointed s n k → ExponentPart p e → (46 ∈ s ∨ p ≠ []) → ProtoNumber (s ++ p) ((n : ℚ) * 10 ^ (e - k))

/-- A number of this sign; zero has both. -/
def SignIs (neg : Bool) (q : ℚ) : Prop := if neg then q ≤ 0 else 0 ≤ q

/-- Positional notation without an exponent and without superfluous zeros: the number `q`. -/
inductive PlainDecimal : Str → ℚ → Prop where
  | whole {s n} : Decimal s n → PlainDecimal s n
  | fraction {s n t m} : Decimal s n → Numeral t m → m % 10 ≠ 0 → PlainDecimal (s ++ 46 :: t) ((n : ℚ) + m / 10 ^ t.length)

/-- `q` can be written with `k` significant decimal digits. -/
def HasDigits (q : ℚ) (k : Nat) : Prop := ∃ (n : Nat) (x : ℤ), n < 10 ^ k ∧ |q| = (n : ℚ) * 10 ^ x

end Protoast
