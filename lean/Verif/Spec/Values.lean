import Verif.Spec.Options
import Verif.Spec.Iter
/-
  Numerals, and what a literal means for a field.
-/
namespace Protoast

/-- `s` is a non-empty string of decimal digits, most significant first, with value `n`. -/
inductive Numeral : Str → Nat → Prop where
  | digit {d : Nat} : d < 10 → Numeral [UInt8.ofNat (48 + d)] d
  | snoc {s : Str} {n d : Nat} : Numeral s n → d < 10 → Numeral (s ++ [UInt8.ofNat (48 + d)]) (10 * n + d)

/-- `s` is the decimal rendering of `n`: decimal digits without superfluous leading zeros. -/
inductive Decimal : Str → Nat → Prop where
  | digit {d : Nat} : d < 10 → Decimal [UInt8.ofNat (48 + d)] d
  | snoc {s : Str} {n d : Nat} : Decimal s n → 0 < n → d < 10 → Decimal (s ++ [UInt8.ofNat (48 + d)]) (10 * n + d)

/-- `s` is the decimal rendering of the integer `v`: a minus sign for negative numbers, no plus sign. -/
def DecimalInt (s : Str) (v : Int) : Prop :=
  (0 ≤ v ∧ Decimal s v.toNat) ∨ (v < 0 ∧ ∃ ds, s = 45 :: ds ∧ Decimal ds (-v).toNat)

/-- `s` is a numeral with an optional sign and has value `v`. -/
inductive SignedBy (num : Str → Nat → Prop) : Str → Int → Prop where
  | plain {s n} : num s n → SignedBy num s n
  | plus {s n} : num s n → SignedBy num (43 :: s) n
  | minus {s n} : num s n → SignedBy num (45 :: s) (-(n : Int))

/-- `s` is a string of digits of the given base below 10, with value `n`. -/
inductive OctalDigits : Str → Nat → Prop where
  | digit {d : Nat} : d < 8 → OctalDigits [UInt8.ofNat (48 + d)] d
  | snoc {s : Str} {n d : Nat} : OctalDigits s n → d < 8 → OctalDigits (s ++ [UInt8.ofNat (48 + d)]) (8 * n + d)

/-- The value of a hexadecimal digit. -/
inductive HexDigit : UInt8 → Nat → Prop where
  | dec {d : Nat} : d < 10 → HexDigit (UInt8.ofNat (48 + d)) d
  | lower {d : Nat} : d < 6 → HexDigit (UInt8.ofNat (97 + d)) (10 + d)
  | upper {d : Nat} : d < 6 → HexDigit (UInt8.ofNat (65 + d)) (10 + d)

inductive HexDigits : Str → Nat → Prop where
  | digit {c d} : HexDigit c d → HexDigits [c] d
  | snoc {s n c d} : HexDigits s n → HexDigit c d → HexDigits (s ++ [c]) (16 * n + d)

/-- The integer literals of the protobuf language: `decimalLit | octalLit | hexLit`. -/
inductive IntLit : Str → Nat → Prop where
  | decimal {s n} : Decimal s n → IntLit s n
  | octal {s n} : OctalDigits s n → IntLit (48 :: s) n
  | hex {s n} : HexDigits s n → IntLit (48 :: 120 :: s) n
  | hexUpper {s n} : HexDigits s n → IntLit (48 :: 88 :: s) n

/-- The signed integer types. -/
def intTypes : List Str := [b!"int32", b!"sint32", b!"sfixed32", b!"int64", b!"sint64", b!"sfixed64"]
def intTypes32 : List Str := [b!"int32", b!"sint32", b!"sfixed32"]
/-- The floating-point types. -/
def floatTypes : List Str := [b!"float", b!"double"]

def Fits64 (v : Int) : Prop := -(2 ^ 63) ≤ v ∧ v < 2 ^ 63
/-- The number is a value of the signed integer type. -/
def FitsInt (typ : Str) (v : Int) : Prop := Fits64 v ∧ (typ ∈ intTypes32 → -(2 ^ 31) ≤ v ∧ v < 2 ^ 31)
/-- The number is a value of the unsigned integer type. -/
def FitsUint (typ : Str) (n : Nat) : Prop := n < 2 ^ 64 ∧ (typ ∈ [b!"uint32", b!"fixed32"] → n < 2 ^ 32)

/-- What counts as a literal of a type and which types there are. -/
structure Dialect where
  bool : Str → Bool → Prop
  int : Str → Str → Int → Prop
  uintTypes : List Str
  uint : Str → Str → Nat → Prop
  /-- may a field of this type name be read as an enum or message, given its label? -/
  named : Str → Bool → Prop
  /-- the literals that list the elements of a repeated field -/
  array : Literal → Prop
  /-- the literals that stand for the only element of a repeated field -/
  single : Literal → Prop

/-- The protobuf language. -/
def Dialect.protobuf : Dialect where
  bool s b := (s = b!"true" ∧ b = true) ∨ (s = b!"false" ∧ b = false)
  int t s v := SignedBy IntLit s v ∧ FitsInt t v
  uintTypes := [b!"uint32", b!"uint64", b!"fixed32", b!"fixed64"]
  uint t s n := IntLit s n ∧ FitsUint t n
  named t _ := ¬ IsKeyword t
  array l := l.source = [] ∧ l.orderedMap = []
  single l := l.source ≠ [] ∨ l.orderedMap ≠ []

/-- The fragment of the protobuf language the library reads correctly: integers written in decimal; no `uint32` and
    `uint64`; no message or enum called `uin32` or `uin64`; enum and message fields not repeated; repeated fields
    given by array literals. -/
def Dialect.supported : Dialect where
  bool s b := (s = b!"true" ∧ b = true) ∨ (s = b!"false" ∧ b = false)
  int t s v := SignedBy Decimal s v ∧ FitsInt t v
  uintTypes := [b!"fixed32", b!"fixed64"]
  uint t s n := Decimal s n ∧ FitsUint t n
  named t rep := ¬ IsKeyword t ∧ t ≠ b!"uin32" ∧ t ≠ b!"uin64" ∧ rep = false
  array l := l.source = [] ∧ l.orderedMap = []
  single _ := False

/-- What the library accepts. -/
def Dialect.accepted : Dialect where
  bool s b := (s ∈ [b!"1", b!"t", b!"T", b!"true", b!"TRUE", b!"True"] ∧ b = true) ∨
    (s ∈ [b!"0", b!"f", b!"F", b!"false", b!"FALSE", b!"False"] ∧ b = false)
  int _ s v := SignedBy Numeral s v ∧ Fits64 v
  uintTypes := [b!"uin32", b!"fixed32", b!"uin64", b!"fixed64"]
  uint _ s n := Numeral s n ∧ n < 2 ^ 64
  named t rep := ¬ IsKeyword t ∧ t ≠ b!"uin32" ∧ t ≠ b!"uin64" ∧ rep = false
  array _ := True
  single _ := False

/-- The field at `f` has the declared type `typ` and is repeated or not. -/
def FieldAt (r : Reg) (f : Ptr) (typ : Str) (rep : Bool) : Prop :=
  ∃ n s o, r.kind f = some (.normalField n typ s rep o)

/-- `q` is the first member of the object at `p` that `sel` selects and that is called `name`. -/
def FirstMember (r : Reg) (p : Ptr) (sel : Kind → Option WKind) (name : Str) (q : Ptr) : Prop :=
  ∃ es i e, r.children p = some es ∧ q = ⟨p.file, i :: p.path⟩ ∧ es[i]? = some e ∧
    (sel e.kind).isSome = true ∧ e.kind.declName = some name ∧
    ∀ j e', j < i → es[j]? = some e' → (sel e'.kind).isSome = true → e'.kind.declName ≠ some name

mutual
/-- `v` is the value of the literal as one value of the field at `f`, whatever its label. The first pointer is the
    option the value is remembered to belong to. -/
inductive ValueOf (D : Dialect) (F : FloatOps) (r : Reg) : Option Ptr → Ptr → Literal → OptVal → Prop where
  | bool {op f rep lit b} : FieldAt r f b!"bool" rep → D.bool lit.source b → ValueOf D F r op f lit (.bool op lit b)
  | int {op f typ rep lit v} : FieldAt r f typ rep → typ ∈ intTypes → D.int typ lit.source v →
      ValueOf D F r op f lit (.int op lit v)
  | uint {op f typ rep lit n} : FieldAt r f typ rep → typ ∈ D.uintTypes → D.uint typ lit.source n →
      ValueOf D F r op f lit (.uint op lit n)
  | float {op f typ rep lit x} : FieldAt r f typ rep → typ ∈ floatTypes → F.parse lit.source = some x →
      ValueOf D F r op f lit (.float op lit x)
  | string {op f rep lit} : FieldAt r f b!"string" rep → ValueOf D F r op f lit (.string op lit lit.source)
  | bytes {op f rep lit} : FieldAt r f b!"bytes" rep → ValueOf D F r op f lit (.bytes op lit lit.source)
  | enum {op f typ rep lit s q n a vp} : FieldAt r f typ rep → D.named typ rep → Declared r s f → Refers r s typ q →
      r.kind q = some (.enum n) → FirstMember r q valueSel lit.source vp →
      ValueOf D F r op f lit (.enum op lit a vp)
  | message {op f typ rep lit s q n e items} : FieldAt r f typ rep → D.named typ rep → Declared r s f →
      Refers r s typ q → r.kind q = some (.message n e) → ItemsOf D F r q lit.orderedMap items →
      ValueOf D F r op f lit (.map op lit items)
/-- `v` is the value of the literal for the field at `f`, its label taken into account. -/
inductive FieldValue (D : Dialect) (F : FloatOps) (r : Reg) : Option Ptr → Ptr → Literal → OptVal → Prop where
  | one {op f typ lit v} : FieldAt r f typ false → ValueOf D F r op f lit v → FieldValue D F r op f lit v
  | many {op f typ lit vs} : FieldAt r f typ true → D.array lit → ElemsOf D F r f lit.array vs →
      FieldValue D F r op f lit (.array op vs)
  | single {op f typ lit v} : FieldAt r f typ true → D.single lit → ValueOf D F r none f lit v →
      FieldValue D F r op f lit (.array op [v])
/-- The elements of an array. -/
inductive ElemsOf (D : Dialect) (F : FloatOps) (r : Reg) : Ptr → List Literal → List OptVal → Prop where
  | nil {f} : ElemsOf D F r f [] []
  | cons {f l v ls vs} : ValueOf D F r none f l v → ElemsOf D F r f ls vs → ElemsOf D F r f (l :: ls) (v :: vs)
/-- The items of a message literal: each one is read for the member of the message that has its name. -/
inductive ItemsOf (D : Dialect) (F : FloatOps) (r : Reg) : Ptr → List (Str × Literal) → List (Str × OptVal) → Prop where
  | nil {m} : ItemsOf D F r m [] []
  | cons {m name l v f ls vs} : FirstMember r m fieldSel name f → FieldValue D F r none f l v → ItemsOf D F r m ls vs →
      ItemsOf D F r m ((name, l) :: ls) ((name, v) :: vs)
end

/-! ### Printing -/

/-- The parts with the separator between them. -/
def joined (sep : Str) (parts : List Str) : Str := (parts.intersperse sep).flatten

/-- The element at `p` is the constant `value` of the enum `name`. -/
def EnumConst (r : Reg) (p : Ptr) (name value : Str) : Prop :=
  r.kind ⟨p.file, p.path.tail⟩ = some (.enum name) ∧ ∃ n, r.kind p = some (.enumField value n)

mutual
/-- How a value should print. -/
inductive Shows (F : FloatOps) (r : Reg) : OptVal → Str → Prop where
  | yes {op l} : Shows F r (.bool op l true) b!"true"
  | no {op l} : Shows F r (.bool op l false) b!"false"
  | int {op l v s} : DecimalInt s v → Shows F r (.int op l v) s
  | uint {op l n s} : Decimal s n → Shows F r (.uint op l n) s
  | float {op l x} : Shows F r (.float op l x) (F.format x)
  | string {op l s} : Shows F r (.string op l s) s
  | bytes {op l bs ts} : Matching (fun (c : UInt8) t => Decimal t c.toNat) bs ts →
      Shows F r (.bytes op l bs) (b!"[" ++ joined b!" " ts ++ b!"]")
  | enum {op l a p n v} : EnumConst r p n v → Shows F r (.enum op l a p) (n ++ b!"." ++ v)
  | array {op vs ts} : ShowsAll F r vs ts → Shows F r (.array op vs) (b!"[" ++ joined b!", " ts ++ b!"]")
  | map {op l items ts} : ShowsItems F r items ts → Shows F r (.map op l items) (b!"{" ++ joined b!", " ts ++ b!"}")
inductive ShowsAll (F : FloatOps) (r : Reg) : List OptVal → List Str → Prop where
  | nil : ShowsAll F r [] []
  | cons {v t vs ts} : Shows F r v t → ShowsAll F r vs ts → ShowsAll F r (v :: vs) (t :: ts)
inductive ShowsItems (F : FloatOps) (r : Reg) : List (Str × OptVal) → List Str → Prop where
  | nil : ShowsItems F r [] []
  | cons {k v t vs ts} : Shows F r v t → ShowsItems F r vs ts →
      ShowsItems F r ((k, v) :: vs) ((k ++ b!": " ++ t) :: ts)
end

end Protoast
