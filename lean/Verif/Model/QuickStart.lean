import Verif.Model.Meta
/-
  The program of README.md, "Quick Start / Usage" (README.md:41-95). internal/playground/main.go is the same program
  without the loop over the messages (and does not compile: it calls `Value` on an `OptionValueVariant`).

  Simplifications: as for the linter (Model/Readme.lean). The directories and the path of the file are parameters; a
  printed line is represented by the values handed to `Printf`, an option value by the variant `Value` returns; lines
  printed before a panic inside the library are not kept here (they are in Model/Output.lean).
-/
namespace Protoast.QuickStart
open Protoast

/-- A printed line. -/
inductive Line where
  /-- README.md:79, `Package: %s (%s)`: name and package of the file -/
  | file (name package : Str)
  /-- README.md:83, `File Option -> %s: %v`: name and value of the option -/
  | option (name : Str) (value : OptVal)
  /-- README.md:88, `Message: %s` -/
  | message (name : Str)
  /-- README.md:91, `Field: %s.%s`: names of message and field -/
  | field (message name : Str)

/-- The places where the program itself panics (README.md:70,76). -/
inductive Failure where
  | noRegistry (e : Err)
  | noFile (e : Err)
deriving DecidableEq, Repr

/-- README.md:82-84, the loop body over the options of the file. -/
def printOption (F : FloatOps) (lines : List Line) (option : Node) : M (List Line × Bool) :=
  match option with
  | .option _ q cls f => do
    let name ← Option.name q cls f
    let value ← Option.value F q f
    pure (lines ++ [.option name value], true)
  | _ => M.panic .illTyped

/-- README.md:90-92, the loop body over the fields of a message. -/
def printField (m : Ptr) (lines : List Line) (field : Node) : M (List Line × Bool) :=
  match field with
  | .wrapped _ .messageField p => do
    let mn ← Message.name m
    let fn ← MessageField.name p
    pure (lines ++ [.field mn fn], true)
  | _ => M.panic .illTyped

/-- README.md:87-93, the loop body over the messages of the file. -/
def printMessage (lines : List Line) (msg : Node) : M (List Line × Bool) :=
  match msg with
  | .wrapped _ .message m => do
    let mn ← Message.name m
    let lines ← (Message.fields m).run (printField m) (lines ++ [.message mn])
    pure (lines, true)
  | _ => M.panic .illTyped

/-- README.md:74-93, everything after the registry has been created. -/
def show_ (W : World) (fuel : Nat) (F : FloatOps) (path : Str) : M (Except Failure (List Line)) := do
  match ← proto W fuel path with
  | .error e => pure (.error (.noFile e))
  | .ok (.wrapped a .file f) => do
    let name ← File.name f
    let pkg ← File.package f
    let seq ← options (.wrapped a .file f)
    let lines ← seq.run (printOption F) [.file name pkg]
    let lines ← (File.messages f).run printMessage lines
    pure (.ok lines)
  | .ok _ => M.panic .illTyped

/-- README.md:56-94 `main`. -/
def main (W : World) (fuel : Nat) (F : FloatOps) (path : Str) : Res (Except Failure (List Line)) × Reg :=
  match newRegistry W fuel with
  | (.ok (.ok ()), r) => show_ W fuel F path r
  | (.ok (.error e), r) => (.ok (.error (.noRegistry e)), r)
  | (.panic p, r) => (.panic p, r)
  | (.timeout, r) => (.timeout, r)

end Protoast.QuickStart
