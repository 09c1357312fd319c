import Verif.Model.Readme
import Verif.Spec.Iter
import Verif.Spec.Options
import Verif.Spec.Parents
import Verif.Spec.Program
/-
  What the governance linter of the README should report, read off the source files alone.
-/
namespace Protoast.Readme
open Protoast

/-! What the README says (README.md:103-117 and the listing after it). The program has its own constants
    (Model/Readme.lean). -/

/-- The file that declares the status type. -/
def statusPath : Str := b!"meta/v1/status.proto"
/-- The name of the status type. -/
def statusName : Str := b!"ResponseStatus"
/-- The services to check: file and name. -/
def services : List (Str × Str) :=
  [(b!"service/storage/v1/service.proto", b!"Storage"), (b!"service/meta/v1/meta.proto", b!"Meta")]
/-- The full name of the option that exempts a method. -/
def exemption : Str := b!".meta.v1.non_standard_method"
/-- The name of the status field. -/
def statusField : Str := b!"response_status"

/-- `i` is the first index of the list with property `P`. -/
def FirstIn (l : List Elem) (P : Kind → Prop) (i : Nat) : Prop :=
  (∃ e, l[i]? = some e ∧ P e.kind) ∧ ∀ j, j < i → ∀ e, l[j]? = some e → ¬ P e.kind

/-- `p` is the first statement with property `P` in the file loaded as `path`. -/
def FirstOf (r : Reg) (path : Str) (P : Kind → Prop) (p : Ptr) : Prop :=
  ∃ i j, r.protos path = some i ∧ p = ⟨i, [j]⟩ ∧ FirstIn ((r.children ⟨i, []⟩).getD []) P j

/-- The type that stands for a response status is declared at `st`. -/
def StatusType (r : Reg) (st : Ptr) : Prop := FirstOf r statusPath (fun k => k = .message statusName false) st

/-- The service `x = (path, name)` is declared at `s`. -/
def ServiceAt (r : Reg) (x : Str × Str) (s : Ptr) : Prop := FirstOf r x.1 (fun k => k = .service x.2) s

/-- The file of `q` is the file of `p` or one it imports, directly or not. -/
def Visible (r : Reg) (p q : Ptr) : Prop :=
  ∃ f path, r.heap[p.file]? = some f ∧ ImportReach r f.filename path ∧ r.protos path = some q.file

/-- The loaded files form a program that protoc accepts, as far as it matters here: distinct full names, none of them
    that of a package; every type reference is a reference for protoc, to a declaration of an imported file; methods
    return messages; option names are written as the grammar demands. And, for one-component references, the proviso
    of C66: the name is not used for anything but types in the scopes around. -/
structure Valid (r : Reg) : Prop where
  unique : UniqueNames r
  clash : NoPackageClash r
  fields : ∀ p n t s rep opt D, r.kind p = some (.normalField n t s rep opt) → Declared r (D ++ dot :: n) p →
    ¬ IsKeyword t → (∃ q, ProtocType r D t q ∧ Visible r p q) ∧ (dot ∉ t → OnlyTypes r D t)
  methods : ∀ p n req ret sreq sret D, r.kind p = some (.rpc n req ret sreq sret) → Declared r (D ++ dot :: n) p →
    ¬ IsKeyword ret ∧ (∃ q m, ProtocType r D ret q ∧ r.kind q = some (.message m false) ∧ Visible r p q) ∧
    (dot ∉ ret → OnlyTypes r D ret)
  options : ∀ p w l, r.kind p = some (.option w l) → hasDotPrefix w = false
  status : ∀ i, r.protos statusPath = some i → NotExtended r ⟨i, []⟩ statusName
  methodOptions : ∃ cls n, r.protos b!"google/protobuf/descriptor.proto" = some cls.file ∧
    Declared r b!".google.protobuf.MethodOptions" cls ∧ r.kind cls = some (.message n false)

/-- The method at `m` does not stream its response. -/
def Unary (r : Reg) (m : Ptr) : Prop := ∃ n req ret sreq, r.kind m = some (.rpc n req ret sreq false)

/-- The response message of the method at `m` is declared at `q`. -/
def Responds (r : Reg) (m q : Ptr) : Prop :=
  ∃ n req ret sreq sret D, r.kind m = some (.rpc n req ret sreq sret) ∧ Declared r (D ++ dot :: n) m ∧
    ProtocType r D ret q

/-- The field at `p` is declared `T name = …;` or `optional T name = …;` with the type at `st` for `T`. -/
def OfType (r : Reg) (st p : Ptr) : Prop :=
  ∃ n t s opt D, r.kind p = some (.normalField n t s false opt) ∧ Declared r (D ++ dot :: n) p ∧ ¬ IsKeyword t ∧
    ProtocType r D t st

/-- The declared name. -/
def HasName (r : Reg) (p : Ptr) (n : Str) : Prop := ∃ kd, r.kind p = some kd ∧ kd.declName = some n

/-- The fields of a message, oneofs included, and the methods of a service. -/
def fieldsOf (r : Reg) (q : Ptr) : List Ptr := (membersOf r q fieldSel).map (·.2)
def methodsOf (r : Reg) (s : Ptr) : List Ptr := (membersOf r s methodSel).map (·.2)

/-- What is reported about the fields of a response: one line per field of the status type that is not called
    response_status, in source order. -/
inductive FieldLines (r : Reg) (st : Ptr) : List Ptr → List Line → Prop where
  | nil : FieldLines r st [] []
  | wrong {p ps ls x tn} : OfType r st p → ¬ HasName r p statusField → sourcePos r p = some x → Declared r tn st →
      FieldLines r st ps ls → FieldLines r st (p :: ps) (.onlyStatus x tn :: ls)
  | fine {p ps ls} : (OfType r st p → HasName r p statusField) → FieldLines r st ps ls → FieldLines r st (p :: ps) ls

/-- The response has the status field. -/
def HasStatus (r : Reg) (st q : Ptr) : Prop := ∃ p ∈ fieldsOf r q, OfType r st p ∧ HasName r p statusField

/-- What is reported about a method. -/
inductive MethodLines (r : Reg) (st m : Ptr) : List Line → Prop where
  | stream : ¬ Unary r m → MethodLines r st m []
  | good {q ls} : Unary r m → Responds r m q → FieldLines r st (fieldsOf r q) ls → HasStatus r st q →
      MethodLines r st m ls
  | bad {q ls x tn mn} : Unary r m → Responds r m q → FieldLines r st (fieldsOf r q) ls → ¬ HasStatus r st q →
      sourcePos r m = some x → Declared r tn st → Declared r mn m → MethodLines r st m (ls ++ [.missing x tn mn])

/-- What is reported about a service: method by method. -/
def ServiceLines (r : Reg) (st : Ptr) (x : Str × Str) (ls : List Line) : Prop :=
  ∃ s lss, ServiceAt r x s ∧ Matching (MethodLines r st) (methodsOf r s) lss ∧ ls = lss.flatten

/-- What is reported about a list of services. -/
def ReportOf (r : Reg) (st : Ptr) (svcs : List (Str × Str)) (ls : List Line) : Prop :=
  ∃ lss, Matching (ServiceLines r st) svcs lss ∧ ls = lss.flatten

/-- What the program in fact checks: every unary method responds with a message that has the status field, and no
    singular field of the status type with another name. -/
def Accepts (r : Reg) (st : Ptr) (svcs : List (Str × Str)) : Prop :=
  ∀ x ∈ svcs, ∀ s, ServiceAt r x s → ∀ m ∈ methodsOf r s, Unary r m → ∀ q, Responds r m q →
    HasStatus r st q ∧ ∀ p ∈ fieldsOf r q, OfType r st p → HasName r p statusField

/-- What is assumed about the parsed files: at most one package statement and imports only at the top of the tree,
    declared names without dots, positions that carry the path of the file. -/
def LintFile (path : Str) (elems : List Elem) : Prop := WFPlain path elems ∧ Positioned path elems

/-- In some state that the program can be in, loading `path` ends with `res`. -/
def LoadEnds (W : World) (fuel : Nat) (path : Str) (res : Res (Except Err Node)) : Prop :=
  ∃ c, CleanReachable LintFile c ∧ (proto W fuel path c.reg).1 = res

/-- How the program can end: with the report; with one of its own panics, for the reason it gives; or because loading a
    file (or the registry) panicked or ran out of steps. -/
def Outcome (W : World) (fuel : Nat) (r : Reg) (svcs : List (Str × Str)) : Res (Except Failure (List Line)) → Prop
  | .ok (.ok ls) => ∃ st, StatusType r st ∧ ReportOf r st svcs ls
  | .ok (.error .noStatusType) => (r.protos statusPath).isSome = true ∧ ∀ st, ¬ StatusType r st
  | .ok (.error .noService) => ∃ x ∈ svcs, (r.protos x.1).isSome = true ∧ ∀ s, ¬ ServiceAt r x s
  | .ok (.error (.noStatusFile e)) => LoadEnds W fuel statusPath (.ok (.error e))
  | .ok (.error (.noServiceFile e)) => ∃ x ∈ svcs, LoadEnds W fuel x.1 (.ok (.error e))
  | .ok (.error (.noRegistry e)) => (newRegistry W fuel).1 = .ok (.error e)
  | .panic e => (newRegistry W fuel).1 = .panic e ∨
      ∃ path ∈ statusPath :: svcs.map (·.1), LoadEnds W fuel path (.panic e)
  | .timeout => (newRegistry W fuel).1 = .timeout ∨
      ∃ path ∈ statusPath :: svcs.map (·.1), LoadEnds W fuel path .timeout

/-! ### The five criteria of README.md:103-117 -/

/-- The field at `p` uses the type at `st` in any way: as the type of the field, repeated or not, as the value type of
    a map, or as the type of a branch of a oneof. (The scope of a map value and of a branch is that of the message.) -/
def Uses (r : Reg) (st p : Ptr) : Prop :=
  (∃ n t s rep opt D, r.kind p = some (.normalField n t s rep opt) ∧ Declared r (D ++ dot :: n) p ∧ ¬ IsKeyword t ∧
    ProtocType r D t st) ∨
  (∃ n kt t s D, r.kind p = some (.mapField n kt t s) ∧ Declared r (D ++ dot :: n) p ∧ ¬ IsKeyword t ∧
    ProtocType r D t st) ∨
  (∃ o i n t s D, r.kind p = some (.oneof o) ∧ r.kind ⟨p.file, i :: p.path⟩ = some (.oneofField n t s) ∧
    Declared r (D ++ dot :: n) ⟨p.file, i :: p.path⟩ ∧ ¬ IsKeyword t ∧ ProtocType r D t st)

/-- The method carries the option that exempts it: one of its options is bound to the declaration of that name. -/
def Exempt (r : Reg) (m : Ptr) : Prop :=
  ∃ x ∈ optionsOf r m, ∃ D, Declared r D m ∧ ∃ f cls, ClassAt r b!".google.protobuf.MethodOptions" cls ∧
    Binds r D cls x.2 f ∧ Declared r exemption f

/-- The response at `q` satisfies the criteria 1-4. -/
def Conforms (r : Reg) (st q : Ptr) : Prop :=
  HasStatus r st q ∧ ∀ p ∈ fieldsOf r q, Uses r st p → OfType r st p ∧ HasName r p statusField

/-- The services stay clear of the two things the program gets wrong: methods marked as exempt, and response fields that
    use the status type in a repeated field, a map or a oneof. -/
def Plain (r : Reg) (st : Ptr) (svcs : List (Str × Str)) : Prop :=
  ∀ x ∈ svcs, ∀ s, ServiceAt r x s → ∀ m ∈ methodsOf r s, ¬ Exempt r m ∧
    ∀ q, Responds r m q → ∀ p ∈ fieldsOf r q, Uses r st p → OfType r st p

/-- All services satisfy the five criteria. -/
def AllConform (r : Reg) (st : Ptr) (svcs : List (Str × Str)) : Prop :=
  ∀ x ∈ svcs, ∀ s, ServiceAt r x s → ∀ m ∈ methodsOf r s, Unary r m → ¬ Exempt r m →
    ∀ q, Responds r m q → Conforms r st q

end Protoast.Readme
