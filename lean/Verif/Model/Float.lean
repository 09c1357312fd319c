import Verif.Model.Options
/-
  The two functions of Go's strconv that internal/core/ast_option_value.go uses for floating-point options:
  `strconv.ParseFloat(s, 64)` (:67) and `strconv.FormatFloat(v, 'f', -1, 64)` (:233). They are part of the Go standard
  library, not of the repository; elsewhere in the model they are parameters (`FloatOps`), here they are spelled out.
  A `float64` is its bit pattern. The finite non-negative ones are the numbers below 2047·2^52; measured in units of
  2^-1074 their values are natural numbers.
-/
namespace Protoast

/-- Division rounded to the nearest, ties to even. -/
def divHalfEven (n d : Nat) : Nat :=
  if 2 * (n % d) < d then n / d
  else if d < 2 * (n % d) then n / d + 1
  else n / d + n / d % 2

/-- The bit pattern of the double for the number `n / d`, in units of 2^-1074: a significand of 53 bits, or fewer if the
    exponent would get too small. (strconv/atof.go `atof64`, strconv/eisel_lemire.go, strconv/decimal.go: different ways to
    compute the same, here with exact arithmetic.) What is out of range gives a pattern that is not that of a finite
    number. -/
def roundBits (n d : Nat) : Nat :=
  (Nat.log2 (n / d) - 52) * 2 ^ 52 + divHalfEven n (d * 2 ^ (Nat.log2 (n / d) - 52))

/-- The bit pattern of +Inf. -/
def infBits : Nat := 2047 * 2 ^ 52

/-- `lower(c)` (strconv/atoi.go): sets the bit that distinguishes lower case letters. -/
def lowerBit (c : UInt8) : UInt8 := c ||| 32

/-- A digit of base 10 or 16 in `readFloat`. -/
def floatDigit (hex : Bool) (c : UInt8) : Option Nat :=
  match digitVal c with
  | some d => some d
  | none => if hex && decide (97 ≤ (lowerBit c).toNat ∧ (lowerBit c).toNat ≤ 102) then some ((lowerBit c).toNat - 87) else none

/-- What the loop over the mantissa has seen: value of the digits, number of digits behind the point, was there a point,
    a digit, an underscore. -/
structure Mantissa where
  value : Nat := 0
  behind : Nat := 0
  dot : Bool := false
  digits : Bool := false
  underscores : Bool := false

/-- The loop over the mantissa in strconv/atof.go `readFloat`; returns the rest of the text as well. -/
def readMantissa (hex : Bool) : Mantissa → Str → Mantissa × Str
  | m, [] => (m, [])
  | m, c :: cs =>
    if c = 95 then readMantissa hex { m with underscores := true } cs
    else if c = 46 then
      if m.dot then (m, c :: cs) else readMantissa hex { m with dot := true } cs
    else
      match floatDigit hex c with
      | some d =>
        readMantissa hex { m with
          value := m.value * (if hex then 16 else 10) + d
          behind := if m.dot then m.behind + 1 else m.behind
          digits := true } cs
      | none => (m, c :: cs)

/-- The loop over the digits of the exponent in `readFloat`: value (which stops growing at five digits), was there an
    underscore, rest. -/
def readExponent : Nat → Bool → Str → Nat × Bool × Str
  | e, us, [] => (e, us, [])
  | e, us, c :: cs =>
    if c = 95 then readExponent e true cs
    else
      match digitVal c with
      | some d => readExponent (if e < 10000 then e * 10 + d else e) us cs
      | none => (e, us, c :: cs)

/-- The loop of strconv/atoi.go `underscoreOK` (`prev` is `'0'` after a digit, `'_'` after an underscore, else something
    else). -/
def underscoresOK (hex : Bool) : UInt8 → Str → Bool
  | prev, [] => prev != 95
  | prev, c :: cs =>
    if (floatDigit hex c).isSome then underscoresOK hex 48 cs
    else if c = 95 then if prev != 48 then false else underscoresOK hex 95 cs
    else if prev = 95 then false
    else underscoresOK hex 33 cs

/-- A read number: mantissa, exponent, base of the exponent. -/
structure ReadFloat where
  mantissa : Nat
  exponent : Int
  base : Nat

/-- The prefix of hexadecimal numbers in `readFloat`: is it there, and what follows. -/
def floatPrefix : Str → Bool × Str
  | 48 :: x :: y :: rest => if lowerBit x = 120 then (true, y :: rest) else (false, 48 :: x :: y :: rest)
  | s => (false, s)

/-- The sign of the exponent in `readFloat`. -/
def exponentSign : Str → Bool × Str
  | 43 :: ds => (false, ds)
  | 45 :: ds => (true, ds)
  | ds => (false, ds)

/-- `readFloat` behind the mantissa: the exponent (required for hexadecimal numbers), the end of the text, and the check of
    the underscores. -/
def finishFloat (hex : Bool) (body : Str) (m : Mantissa) (rest : Str) : Option ReadFloat :=
  let shift : Int := if hex then 4 * (m.behind : Int) else (m.behind : Int)
  let ok (us : Bool) : Bool := !us || underscoresOK hex (if hex then 48 else 94) body
  if !m.digits then none
  else match rest with
    | [] => if hex then none
      else if ok m.underscores then some ⟨m.value, -shift, 10⟩ else none
    | c :: cs =>
      if lowerBit c = (if hex then 112 else 101) then
        match (exponentSign cs).2 with
        | [] => none
        | d :: ds =>
          if (digitVal d).isNone then none
          else
            let (e, us, rest') := readExponent 0 m.underscores (d :: ds)
            if rest' ≠ [] then none
            else if ok us then
              some ⟨m.value, (if (exponentSign cs).1 then -(e : Int) else (e : Int)) - shift, if hex then 2 else 10⟩
            else none
      else none

/-- strconv/atof.go `readFloat` after the sign, for a text that has to be read completely. -/
def readFloat (s : Str) : Option ReadFloat :=
  let (hex, body) := floatPrefix s
  let (m, rest) := readMantissa hex {} body
  finishFloat hex body m rest

/-- The numerator and denominator, in units of 2^-1074, of what was read. -/
def ReadFloat.ratio (x : ReadFloat) : Nat × Nat :=
  if 0 ≤ x.exponent then (x.mantissa * x.base ^ x.exponent.toNat * 2 ^ 1074, 1)
  else (x.mantissa * 2 ^ 1074, x.base ^ (-x.exponent).toNat)

/-- The sign of a bit pattern. -/
def withSign (neg : Bool) (b : Nat) : UInt64 := UInt64.ofNat (if neg then 2 ^ 63 + b else b)

/-- strconv/atof.go `special`, after the sign: `inf` and `infinity`, in any case. -/
def isInfinity (s : Str) : Bool :=
  let l := s.map lowerBit
  l == b!"inf" || l == b!"infinity"

/-- `strconv.ParseFloat` after the sign; out of range is an error, too small is not. -/
def parseUnsigned (neg : Bool) (s : Str) : Option UInt64 :=
  if isInfinity s then some (withSign neg infBits)
  else
    match readFloat s with
    | some x =>
      let b := roundBits x.ratio.1 x.ratio.2
      if b < infBits then some (withSign neg b) else none
    | none => none

/-- `strconv.ParseFloat(s, 64)` (internal/core/ast_option_value.go:67); `none` is an error. -/
def parseFloat (s : Str) : Option UInt64 :=
  match s with
  | 43 :: rest => parseUnsigned false rest
  | 45 :: rest => parseUnsigned true rest
  | s => if s.map lowerBit == b!"nan" then some 0x7FF8000000000001 else parseUnsigned false s

/-- The value of a finite double, in units of 2^-1074. -/
def magnitude (b : Nat) : Nat :=
  if b / 2 ^ 52 = 0 then b % 2 ^ 52 else (2 ^ 52 + b % 2 ^ 52) * 2 ^ (b / 2 ^ 52 - 1)

/-- Does the number `d · 10^(t - 1074)` round to the double `b`? -/
def roundsTo (b d t : Nat) : Bool := roundBits (d * 10 ^ t * 2 ^ 1074) (10 ^ 1074) == b

/-- The shortest decimal for the double `b` (strconv/ftoa.go, precision -1), given its exact value `a` in units of
    10^-1074 and a number `t` of digits that may be dropped: drop as many as possible, rounding down or up, whichever is
    closer of those that give `b` again, the even one if both are equally close. The result are the digits left and the
    number of those dropped. -/
def shortest (b a : Nat) : Nat → Nat × Nat
  | 0 => (a, 0)
  | t + 1 =>
    let lo := a / 10 ^ (t + 1)
    let up := lo + 1
    if roundsTo b lo (t + 1) then
      if roundsTo b up (t + 1) && decide (2 * (a % 10 ^ (t + 1)) + lo % 2 > 10 ^ (t + 1)) then (up, t + 1) else (lo, t + 1)
    else if roundsTo b up (t + 1) then (up, t + 1)
    else shortest b a t

/-- Drop trailing zeros. -/
def dropZeros : Nat → Nat → Nat → Nat × Nat
  | 0, d, t => (d, t)
  | fuel + 1, d, t => if d % 10 = 0 ∧ d ≠ 0 then dropZeros fuel (d / 10) (t + 1) else (d, t)

/-- The last `k` decimal digits of `n`. -/
def fixedDigits : Nat → Nat → Str
  | 0, _ => []
  | k + 1, n => fixedDigits k (n / 10) ++ [UInt8.ofNat (48 + n % 10)]

/-- `%f` (strconv/ftoa.go `fmtF`) of `d · 10^(t - 1074)` with as many digits behind the point as there are. -/
def plainDecimal (d t : Nat) : Str :=
  if 1074 ≤ t then formatUint (d * 10 ^ (t - 1074))
  else formatUint (d / 10 ^ (1074 - t)) ++ 46 :: fixedDigits (1074 - t) d

/-- Number of decimal digits, for numbers below `10 ^ (fuel + 1)`. -/
def countDigits : Nat → Nat → Nat
  | 0, _ => 1
  | fuel + 1, a => if a < 10 then 1 else countDigits fuel (a / 10) + 1

/-- Number of decimal digits. -/
def numDigits (a : Nat) : Nat := countDigits (Nat.log2 a) a

/-- The digits of the double `b`, given its exact value `a` in units of 10^-1074. -/
def shortestText (b a : Nat) : Str :=
  let x := shortest b a (numDigits a - 1)
  let y := dropZeros (numDigits a) x.1 x.2
  plainDecimal y.1 y.2

/-- `strconv.FormatFloat(v, 'f', -1, 64)` of a finite number without its sign. -/
def formatMagnitude (b : Nat) : Str :=
  if b = 0 then b!"0" else shortestText b (magnitude b * 5 ^ 1074)

/-- `strconv.FormatFloat(v, 'f', -1, 64)` (internal/core/ast_option_value.go:233). -/
def formatFloat (v : UInt64) : Str :=
  let neg := decide (2 ^ 63 ≤ v.toNat)
  let b := v.toNat % 2 ^ 63
  if infBits < b then b!"NaN"
  else if b = infBits then (if neg then b!"-Inf" else b!"+Inf")
  else if neg then 45 :: formatMagnitude b else formatMagnitude b

/-- Go's floating-point conversions. -/
def goFloats : FloatOps := ⟨parseFloat, formatFloat⟩

end Protoast
