import Verif.Spec.Answer
/-
  Files without their layout: the same tree, with every line, column, offset and attached comment erased.
-/
namespace Protoast

/-- A position of which only the file is left. -/
def Position.shorn (p : Position) : Position := { filename := p.filename }

mutual
/-- A literal without line, column and offset, and so all its parts. -/
def Literal.shorn : Literal → Literal
  | .mk pos source array orderedMap => .mk pos.shorn source (Literal.plains array) (Literal.plainItems orderedMap)
def Literal.plains : List Literal → List Literal
  | [] => []
  | l :: ls => l.shorn :: Literal.plains ls
def Literal.plainItems : List (Str × Literal) → List (Str × Literal)
  | [] => []
  | nl :: rest => Literal.plainItem nl :: Literal.plainItems rest
def Literal.plainItem : Str × Literal → Str × Literal
  | (name, l) => (name, l.shorn)
end

/-- The constant of an option statement is the only part of a kind that has positions. -/
def Kind.shorn : Kind → Kind
  | .option name constant => .option name constant.shorn
  | .syntaxK v => .syntaxK v
  | .edition => .edition
  | .packageK n => .packageK n
  | .importK f => .importK f
  | .message n x => .message n x
  | .normalField n t i r o => .normalField n t i r o
  | .mapField n k t i => .mapField n k t i
  | .oneof n => .oneof n
  | .oneofField n t i => .oneofField n t i
  | .enum n => .enum n
  | .enumField n i => .enumField n i
  | .service n => .service n
  | .rpc n q a s1 s2 => .rpc n q a s1 s2
  | .reserved rs ns => .reserved rs ns
  | .extensions => .extensions
  | .group n => .group n
  | .comment => .comment

mutual
/-- An element without its layout and without its attached comment, and so all elements in it. -/
def Elem.shorn : Elem → Elem
  | .mk pos _ kind children => .mk pos.shorn none kind.shorn (Elem.plains children)
def Elem.plains : List Elem → List Elem
  | [] => []
  | e :: es => e.shorn :: Elem.plains es
end

/-- What reading and parsing a file gives, without layout. -/
def plainLoad : Except Err (List Elem) → Except Err (List Elem)
  | .ok es => .ok (Elem.plains es)
  | .error e => .error e

/-- The two worlds hold the same files up to layout: paths resolve alike, and parsing a file fails alike or gives the
    same tree but for lines, columns, offsets and attached comments. -/
structure SameUpToLayout (W1 W2 : World) : Prop where
  resolvers : W1.resolvers = W2.resolvers
  load : ∀ name path, plainLoad (W1.load name path) = plainLoad (W2.load name path)

/-- The same call on the two sides; loads read from worlds that hold the same files up to layout. -/
inductive SameCall : Op → Op → Prop where
  | proto {W1 W2 : World} (fuel : Nat) (path : Str) (h : SameUpToLayout W1 W2) :
      SameCall (.proto W1 fuel path) (.proto W2 fuel path)
  | byName (name : Str) : SameCall (.byName name) (.byName name)
  | query (h : Nat) (q : Query) : SameCall (.query h q) (.query h q)

/-- The same calls one after the other. -/
inductive SameCalls : List Op → List Op → Prop where
  | nil : SameCalls [] []
  | cons {op1 op2 ops1 ops2} (h : SameCall op1 op2) (t : SameCalls ops1 ops2) :
      SameCalls (op1 :: ops1) (op2 :: ops2)

mutual
/-- An option value without the layout of the literals in it. -/
def OptVal.shorn : OptVal → OptVal
  | .bool o l v => .bool o l.shorn v
  | .int o l v => .int o l.shorn v
  | .uint o l v => .uint o l.shorn v
  | .float o l v => .float o l.shorn v
  | .string o l v => .string o l.shorn v
  | .bytes o l v => .bytes o l.shorn v
  | .enum o l a p => .enum o l.shorn a p
  | .array o vs => .array o (OptVal.plains vs)
  | .map o l items => .map o l.shorn (OptVal.plainItems items)
def OptVal.plains : List OptVal → List OptVal
  | [] => []
  | v :: vs => v.shorn :: OptVal.plains vs
def OptVal.plainItems : List (Str × OptVal) → List (Str × OptVal)
  | [] => []
  | kv :: rest => OptVal.plainItem kv :: OptVal.plainItems rest
def OptVal.plainItem : Str × OptVal → Str × OptVal
  | (k, v) => (k, v.shorn)
end

/-- A handle without the layout of the literals in it; only option values have any. -/
def Node.shorn : Node → Node
  | .wrapped a k p => .wrapped a k p
  | .option a p c f => .option a p c f
  | .oneof a p => .oneof a p
  | .map a p => .map a p
  | .repeated a none => .repeated a none
  | .repeated a (some t) => .repeated a (some t.shorn)
  | .builtin b => .builtin b
  | .value v => .value v.shorn
  | .mapItem k v => .mapItem k v.shorn

/-- An answer without layout: of a position only the file is left, and the lines of a comment are erased. -/
def Answer.shorn : Answer → Answer
  | .position p => .position p.shorn
  | .attr (.lines _) => .attr (.lines none)
  | a => a

/-- How a call ends, with an answer without layout. -/
def plainOutcome : Res Answer → Res Answer
  | .ok a => .ok a.shorn
  | .panic e => .panic e
  | .timeout => .timeout

end Protoast
