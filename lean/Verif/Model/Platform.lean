import Verif.Model.Options
/-
  Option values on platforms with another size of `int` and `uint` (32 bits on GOARCH=386, arm, mips, ...): the same code
  as in Model/Options.lean, with the size `w` as a parameter. Only internal/core/ast_option_value.go depends on it.
-/
namespace Protoast

/-- `strconv.ParseUint(s, 10, w)`, as called by `strconv.Atoi` through `ParseInt(s, 10, 0)`; `none` is an error. -/
def parseUintAt (w : Nat) (s : Str) : Option Nat :=
  if s = [] then none
  else
    match digitsVal 0 s with
    | some v => if v < 2 ^ w then some v else none
    | none => none

/-- `strconv.Atoi(s)` (internal/core/ast_option_value.go:42) where `int` has `w` bits; `none` is an error. -/
def atoiAt (w : Nat) (s : Str) : Option Int :=
  match s with
  | [] => none
  | 45 :: ds =>
    match parseUintAt w ds with
    | some v => if v ≤ 2 ^ (w - 1) then some (-(v : Int)) else none
    | none => none
  | 43 :: ds =>
    match parseUintAt w ds with
    | some v => if v < 2 ^ (w - 1) then some (v : Int) else none
    | none => none
  | s =>
    match parseUintAt w s with
    | some v => if v < 2 ^ (w - 1) then some (v : Int) else none
    | none => none

mutual
/-- internal/core/ast_option_value.go:14-131 `buildFromLiteral` where `int` and `uint` have `w` bits: `Atoi` (line 42)
    accepts `w` bits; `ParseUint(…, 10, 64)` (line 54) always accepts 64, and `uint(val)` (line 62) keeps `w` of them. -/
def buildFromLiteralAt (w : Nat) (F : FloatOps) (option : Option Ptr) (field : Ptr) (ignoreRepeat : Bool) :
    Literal → M OptVal
  | .mk pos source array orderedMap => do
    let lit := Literal.mk pos source array orderedMap
    let r ← M.get
    match r.kind field with
    | some (.normalField _ typ _ isRepeated _) =>
      if isRepeated && !ignoreRepeat then do
        let vs ← buildArrayAt w F field array
        pure (.array option vs)
      else
        match scalarClass typ with
        | .bool =>
          match parseBool source with
          | some v => pure (.bool option lit v)
          | none => M.panic .badLiteral
        | .int =>
          match atoiAt w source with
          | some v => pure (.int option lit v)
          | none => M.panic .badLiteral
        | .uint =>
          match parseUint source with
          | some v => pure (.uint option lit (v % 2 ^ w))
          | none => M.panic .badLiteral
        | .float =>
          match F.parse source with
          | some v => pure (.float option lit v)
          | none => M.panic .badLiteral
        | .string => pure (.string option lit source)
        | .bytes => pure (.bytes option lit source)
        | .named => do
          match ← getTypeByName field typ with
          | some (.wrapped _ .enum ep) => do
            match ← Enum.value ep source with
            | some (.wrapped a _ vp) => pure (.enum option lit a vp)
            | _ => M.panic .unknownEnumValue
          | some (.wrapped _ .message mp) => do
            let items ← buildItemsAt w F mp orderedMap
            pure (.map option lit items)
          | _ => M.panic .unknownFieldType
    | _ => M.panic .illTyped
/-- The array loop internal/core/ast_option_value.go:16-19. -/
def buildArrayAt (w : Nat) (F : FloatOps) (field : Ptr) : List Literal → M (List OptVal)
  | [] => pure []
  | l :: ls => do
    let v ← buildFromLiteralAt w F none field true l
    let vs ← buildArrayAt w F field ls
    pure (v :: vs)
/-- The loop over message literals internal/core/ast_option_value.go:109-120. -/
def buildItemsAt (w : Nat) (F : FloatOps) (msg : Ptr) : List (Str × Literal) → M (List (Str × OptVal))
  | [] => pure []
  | nl :: rest => do
    let item ← buildItemAt w F msg nl
    let items ← buildItemsAt w F msg rest
    pure (item :: items)
/-- One iteration of that loop, internal/core/ast_option_value.go:111-119. -/
def buildItemAt (w : Nat) (F : FloatOps) (msg : Ptr) : Str × Literal → M (Str × OptVal)
  | (name, lit) => do
    match ← Message.field msg name with
    | some (.wrapped _ _ fp) => do
      let r ← M.get
      match r.kind fp with
      | some (.normalField _ _ _ _ _) => do
        let v ← buildFromLiteralAt w F none fp false lit
        pure (name, v)
      | _ => M.panic .typeAssertion
    | _ => M.panic .unknownField
end

/-- internal/core/ast_option.go:65-67 `Option.Value` where `int` and `uint` have `w` bits. -/
def Option.valueAt (w : Nat) (F : FloatOps) (opt field : Ptr) : M OptVal := do
  let r ← M.get
  match r.kind opt with
  | some (.option _ constant) => buildFromLiteralAt w F (some opt) field false constant
  | _ => M.panic .illTyped

end Protoast
