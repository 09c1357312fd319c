import Verif.Proof.Platform
import Verif.Props.Values
/-
  C125: option values on platforms with a 32-bit `int`. C126: integer options out of the range of their type.
-/
namespace Protoast.Props
open Protoast

/-! ### C125 -/

/-- C125 as one expects it: an option has the same value on a 32-bit platform. -/
def C125_statement : Prop := ∀ (F : FloatOps) (c : Client) (a : Nat) (q cls f : Ptr) (v : OptVal) (r' : Reg),
  CleanReachable WFFile c → Node.option a q cls f ∈ c.pool → Option.value F q f c.reg = (.ok v, r') →
  Option.valueAt 32 F q f c.reg = (.ok v, r')

/-- The model with the platform as a parameter is the model of all other properties when `int` has 64 bits. -/
theorem C125_64 (F : FloatOps) (q f : Ptr) : Option.valueAt 64 F q f = Option.value F q f := valueAt_64 F q f

/-- C125, the exact relation, for every option, every literal at any nesting depth and every state of the registry: on a
    32-bit platform `Value` returns exactly if it returns on a 64-bit platform and every signed number in the value has at
    most 32 bits; it then returns the same value with every unsigned number reduced modulo 2^32, and leaves the registry in
    the same state. -/
theorem C125_exact {F : FloatOps} {q f : Ptr} {r r' : Reg} {w : OptVal} :
    Option.valueAt 32 F q f r = (.ok w, r') ↔ ∃ v, Option.value F q f r = (.ok v, r') ∧ IntsFit v ∧ w = v.cut :=
  cuts_value F q f r w r'

/-- C125 for values whose numbers have at most 32 bits. -/
theorem C125_partial {F : FloatOps} {q f : Ptr} {r r' : Reg} {v : OptVal} (h : Option.value F q f r = (.ok v, r'))
    (hi : IntsFit v) (hu : UintsFit v) : Option.valueAt 32 F q f r = (.ok v, r') :=
  C125_exact.mpr ⟨v, h, hi, (cut_fit v hu).symm⟩

/-- C125, in the other direction: whatever a 32-bit platform returns a 64-bit platform returns too, unless it has an unsigned
    number of more than 32 bits somewhere, and then it returns something else without any sign of it. -/
theorem C125_silent {F : FloatOps} {q f : Ptr} {r r' : Reg} {w : OptVal} (h : Option.valueAt 32 F q f r = (.ok w, r')) :
    ∃ v, Option.value F q f r = (.ok v, r') ∧ (UintsFit v → w = v) := by
  obtain ⟨v, h1, _, rfl⟩ := C125_exact.mp h
  exact ⟨v, h1, cut_fit v⟩

/-- The values of single numbers on a 32-bit platform. -/
theorem C125_numbers {F : FloatOps} {r : Reg} {q f : Ptr} {name : Str} {lit : Literal} {typ : Str}
    (hk : r.kind q = some (.option name lit)) (hf : FieldAt r f typ false) :
    (typ ∈ intTypes → ∀ v, DecimalInt lit.source v → Fits64 v →
      (FitsInt32 v → Option.valueAt 32 F q f r = (.ok (.int (some q) lit v), r)) ∧
      (¬ FitsInt32 v → ∀ w r', Option.valueAt 32 F q f r ≠ (.ok w, r'))) ∧
    (typ ∈ [b!"fixed32", b!"fixed64"] → ∀ n, Decimal lit.source n → n < 2 ^ 64 →
      Option.valueAt 32 F q f r = (.ok (.uint (some q) lit (n % 2 ^ 32)), r)) := by
  refine ⟨fun ht v hl hv => ?_, fun ht n hl hn => ?_⟩
  · have h : Option.value F q f r = (.ok (.int (some q) lit v), r) := by
      rw [value_int hk hf ht, atoi_iff.mpr ⟨decimalInt_signed hl, hv⟩]
    refine ⟨fun h3 => C125_exact.mpr ⟨_, h, intsFit_int.mpr h3, rfl⟩, fun h3 w r' hw => ?_⟩
    obtain ⟨v', h1, h2, _⟩ := C125_exact.mp hw
    rw [h] at h1
    cases h1
    exact h3 (intsFit_int.mp h2)
  · have h : Option.value F q f r = (.ok (.uint (some q) lit n), r) := by
      rw [value_uint hk hf ht, parseUint_iff.mpr ⟨decimal_numeral hl, hn⟩]
    exact C125_exact.mpr ⟨_, h, intsFit_leaf (by simp) (by simp) (by simp), rfl⟩

/-! ### A world with large numbers -/

def fileN : List Elem :=
  let f := b!"n.proto"
  [Ex.el f 1 (.packageK b!"n"), Ex.el f 2 (.importK descriptorPath),
   Ex.el f 3 (.message b!"google.protobuf.FieldOptions" true)
     [Ex.fld f 4 b!"big" b!"fixed64" 50001, Ex.fld f 5 b!"wide" b!"int64" 50002, Ex.fld f 6 b!"low" b!"int32" 50003,
      Ex.fld f 7 b!"lim" b!"Lim" 50004],
   Ex.el f 8 (.message b!"Lim" false) [Ex.fld f 9 b!"top" b!"fixed64" 1, Ex.fld f 10 b!"low" b!"int32" 2],
   Ex.el f 11 (.message b!"M" false)
     [Ex.fld f 12 b!"a" b!"string" 1 false [Ex.el f 12 (.option b!"(big)" (Ex.lit f b!"4294967301"))],
      Ex.fld f 13 b!"b" b!"string" 2 false [Ex.el f 13 (.option b!"(wide)" (Ex.lit f b!"-4294967301"))],
      Ex.fld f 14 b!"c" b!"string" 3 false [Ex.el f 14 (.option b!"(low)" (Ex.lit f b!"4294967301"))],
      Ex.fld f 15 b!"d" b!"string" 4 false [Ex.el f 15 (.option b!"(lim)" (Ex.msg f
        [(b!"top", Ex.lit f b!"4294967301"), (b!"low", Ex.lit f b!"-5")]))],
      Ex.fld f 16 b!"e" b!"string" 5 false [Ex.el f 16 (.option b!"(wide)" (Ex.lit f b!"-7"))]]]
def WN : World := Ex.worldOf [(descriptorPath, Ex.descriptor), (b!"n.proto", fileN)]
def rN : Reg := (newRegistry WN 5).2
/-- Pool: 0 file, 1 M, 2..6 its fields, 7..11 their options. -/
def opsN : List Op :=
  [.proto WN 5 b!"n.proto", .query 0 (.named .fileMessage b!"M"), .query 1 (.iter .messageFields 0),
   .query 1 (.iter .messageFields 1), .query 1 (.iter .messageFields 2), .query 1 (.iter .messageFields 3),
   .query 1 (.iter .messageFields 4), .query 2 (.iter .options 0), .query 3 (.iter .options 0),
   .query 4 (.iter .options 0), .query 5 (.iter .options 0), .query 6 (.iter .options 0)]
def cN : Client := Client.exec ⟨rN, []⟩ opsN

theorem WN_wf : WN.Sat WFFile := by
  apply Ex.worldOf_sat
  intro x hx
  apply Ex.wfb_spec
  simp only [List.mem_cons, List.not_mem_nil, or_false] at hx
  rcases hx with rfl | rfl <;> decide +kernel

theorem cN_clean : CleanReachable WFFile cN := by
  refine ⟨WN, 5, rN, opsN, WN_wf, Ex.ok_of_okOk (by decide +kernel), ?_, Ex.loadsB_spec (by decide +kernel), rfl⟩
  intro op hop
  simp only [opsN, List.mem_cons, List.not_mem_nil, or_false] at hop
  rcases hop with rfl | rfl | rfl | rfl | rfl | rfl | rfl | rfl | rfl | rfl | rfl | rfl <;> first | exact WN_wf | trivial

theorem cN_fields : FieldAt cN.reg ⟨1, [0, 2]⟩ b!"fixed64" false ∧ FieldAt cN.reg ⟨1, [1, 2]⟩ b!"int64" false ∧
    FieldAt cN.reg ⟨1, [2, 2]⟩ b!"int32" false ∧ FieldAt cN.reg ⟨1, [3, 2]⟩ b!"Lim" false :=
  ⟨fieldB_spec (by decide +kernel), fieldB_spec (by decide +kernel), fieldB_spec (by decide +kernel),
    fieldB_spec (by decide +kernel)⟩

theorem cN_handles : (∃ a, Node.option a ⟨1, [0, 0, 4]⟩ ⟨0, [4]⟩ ⟨1, [0, 2]⟩ ∈ cN.pool) ∧
    (∃ a, Node.option a ⟨1, [0, 1, 4]⟩ ⟨0, [4]⟩ ⟨1, [1, 2]⟩ ∈ cN.pool) ∧
    (∃ a, Node.option a ⟨1, [0, 2, 4]⟩ ⟨0, [4]⟩ ⟨1, [2, 2]⟩ ∈ cN.pool) ∧
    (∃ a, Node.option a ⟨1, [0, 3, 4]⟩ ⟨0, [4]⟩ ⟨1, [3, 2]⟩ ∈ cN.pool) ∧
    (∃ a, Node.option a ⟨1, [0, 4, 4]⟩ ⟨0, [4]⟩ ⟨1, [1, 2]⟩ ∈ cN.pool) :=
  ⟨hasOpt_spec (i := 7) (by decide +kernel), hasOpt_spec (i := 8) (by decide +kernel),
    hasOpt_spec (i := 9) (by decide +kernel), hasOpt_spec (i := 10) (by decide +kernel),
    hasOpt_spec (i := 11) (by decide +kernel)⟩

/-- The properties are about no floating-point numbers here. -/
def noF : FloatOps := ⟨fun _ => none, fun _ => []⟩

/-- What the two platforms print for the options `(big) = 4294967301`, `(wide) = -4294967301`,
    `(lim) = {top: 4294967301, low: -5}` and `(wide) = -7`; nothing is printed after a panic. -/
theorem C125_printed :
    shown (Option.valueAt 64 noF ⟨1, [0, 0, 4]⟩ ⟨1, [0, 2]⟩ cN.reg) = b!"4294967301" ∧
    shown (Option.valueAt 32 noF ⟨1, [0, 0, 4]⟩ ⟨1, [0, 2]⟩ cN.reg) = b!"5" ∧
    shown (Option.valueAt 64 noF ⟨1, [0, 1, 4]⟩ ⟨1, [1, 2]⟩ cN.reg) = b!"-4294967301" ∧
    shown (Option.valueAt 32 noF ⟨1, [0, 1, 4]⟩ ⟨1, [1, 2]⟩ cN.reg) = [] ∧
    shown (Option.valueAt 64 noF ⟨1, [0, 3, 4]⟩ ⟨1, [3, 2]⟩ cN.reg) = b!"{top: 4294967301, low: -5}" ∧
    shown (Option.valueAt 32 noF ⟨1, [0, 3, 4]⟩ ⟨1, [3, 2]⟩ cN.reg) = b!"{top: 5, low: -5}" ∧
    shown (Option.valueAt 32 noF ⟨1, [0, 4, 4]⟩ ⟨1, [1, 2]⟩ cN.reg) = b!"-7" := by
  refine ⟨?_, ?_, ?_, ?_, ?_, ?_, ?_⟩ <;> decide +kernel

/-- C125 is false of the code: `uint(val)` drops the upper half of a fixed64 number, silently. -/
theorem C125_false : ¬ C125_statement := by
  intro h
  obtain ⟨⟨a, hm⟩, _⟩ := cN_handles
  rcases hv : Option.value noF ⟨1, [0, 0, 4]⟩ ⟨1, [0, 2]⟩ cN.reg with ⟨(v | p | _), r'⟩
  · have h32 := h noF cN a _ _ _ v r' cN_clean hm hv
    have e : shown (Option.value noF ⟨1, [0, 0, 4]⟩ ⟨1, [0, 2]⟩ cN.reg) =
        shown (Option.valueAt 32 noF ⟨1, [0, 0, 4]⟩ ⟨1, [0, 2]⟩ cN.reg) := by rw [hv, h32]
    rw [← C125_64, C125_printed.1, C125_printed.2.1] at e
    cases e
  · have e := C125_printed.1
    rw [C125_64, hv] at e
    cases e
  · have e := C125_printed.1
    rw [C125_64, hv] at e
    cases e

/-- The hypotheses of `C125_partial` are met by the last option, a number that fits. -/
example : ∃ a v, Node.option a ⟨1, [0, 4, 4]⟩ ⟨0, [4]⟩ ⟨1, [1, 2]⟩ ∈ cN.pool ∧
    Option.value noF ⟨1, [0, 4, 4]⟩ ⟨1, [1, 2]⟩ cN.reg = (.ok v, cN.reg) ∧ IntsFit v ∧ UintsFit v := by
  obtain ⟨a, hm⟩ := cN_handles.2.2.2.2
  obtain ⟨n, l, hk, hl⟩ := optB_spec (r := cN.reg) (q := ⟨1, [0, 4, 4]⟩) (P := fun l => l.source == b!"-7")
    (by decide +kernel)
  rw [beq_iff_eq] at hl
  refine ⟨a, .int (some ⟨1, [0, 4, 4]⟩) l (-7), hm, ?_, intsFit_int.mpr (by decide), ?_⟩
  · rw [value_int hk cN_fields.2.1 (by decide), hl]
    rfl
  · intro o l n hs
    cases hs

/-! ### C126 -/

/-- C126 as one expects it: a number that is no value of the integer type of the option is rejected. -/
def C126_statement : Prop := ∀ (F : FloatOps) (c : Client) (a : Nat) (q cls f : Ptr) (name : Str) (lit : Literal) (typ : Str)
  (v : Int), CleanReachable WFFile c → Node.option a q cls f ∈ c.pool → c.reg.kind q = some (.option name lit) →
  FieldAt c.reg f typ false → typ ∈ intTypes → DecimalInt lit.source v → ¬ FitsInt typ v →
  ∃ p r', Option.value F q f c.reg = (.panic p, r')

/-- C126 for the types of 64 bits. -/
theorem C126_partial {F c a q cls f name lit typ} (hc : CleanReachable WFFile c) (ho : Node.option a q cls f ∈ c.pool)
    (hk : c.reg.kind q = some (.option name lit)) (hf : FieldAt c.reg f typ false) :
    (∀ v : Int, typ ∈ intTypes → typ ∉ intTypes32 → DecimalInt lit.source v → ¬ FitsInt typ v →
      Option.value F q f c.reg = (.panic .badLiteral, c.reg)) ∧
    (∀ n : Nat, typ = b!"fixed64" → Decimal lit.source n → ¬ FitsUint typ n →
      Option.value F q f c.reg = (.panic .badLiteral, c.reg)) := by
  refine ⟨fun v ht ht2 hl hv => C51_int_rejects hc ho hk hf ht fun u hu hfit => ?_, fun n ht hl hv => ?_⟩
  · have := signed_unique hu (decimalInt_signed hl)
    subst this
    exact hv ⟨hfit, fun h => absurd h ht2⟩
  · subst ht
    refine C51_uint_rejects hc ho hk hf (by decide) fun u hu hfit => ?_
    have := numeral_unique hu (decimal_numeral hl)
    subst this
    exact hv ⟨hfit, fun h => absurd h (by decide)⟩

/-- C126, what happens with the types of 32 bits: every number of 64 bits is accepted as it is written. -/
theorem C126_unchecked {F c a q cls f name lit typ} (hc : CleanReachable WFFile c) (ho : Node.option a q cls f ∈ c.pool)
    (hk : c.reg.kind q = some (.option name lit)) (hf : FieldAt c.reg f typ false) :
    (∀ v : Int, typ ∈ intTypes32 → DecimalInt lit.source v →
      (Fits64 v → Option.value F q f c.reg = (.ok (.int (some q) lit v), c.reg)) ∧
      (¬ Fits64 v → Option.value F q f c.reg = (.panic .badLiteral, c.reg))) ∧
    (∀ n : Nat, typ = b!"fixed32" → Decimal lit.source n →
      (n < 2 ^ 64 → Option.value F q f c.reg = (.ok (.uint (some q) lit n), c.reg)) ∧
      (¬ n < 2 ^ 64 → Option.value F q f c.reg = (.panic .badLiteral, c.reg))) := by
  refine ⟨fun v ht hl => ?_, fun n ht hl => ?_⟩
  · have ht : typ ∈ intTypes := by
      simp only [intTypes32, intTypes, List.mem_cons, List.not_mem_nil, or_false] at ht ⊢
      rcases ht with rfl | rfl | rfl <;> simp
    refine ⟨fun hv => (C51_int hc ho hk hf ht hv hl).1, fun hv => C51_int_rejects hc ho hk hf ht fun u hu hfit => ?_⟩
    have := signed_unique hu (decimalInt_signed hl)
    subst this
    exact hv hfit
  · subst ht
    refine ⟨fun hv => (C51_uint hc ho hk hf (by decide) hv hl).1, fun hv => C51_uint_rejects hc ho hk hf (by decide)
      fun u hu hfit => ?_⟩
    have := numeral_unique hu (decimal_numeral hl)
    subst this
    exact hv hfit

/-- The text 4294967301 is the number. -/
theorem big_decimal : Decimal b!"4294967301" 4294967301 := by
  exact .snoc (d := 1) (.snoc (d := 0) (.snoc (d := 3) (.snoc (d := 7) (.snoc (d := 6) (.snoc (d := 9) (.snoc (d := 4) (.snoc (d := 9) (.snoc (d := 2) (.digit (d := 4) (by omega)) (by omega) (by omega)) (by omega) (by omega)) (by omega) (by omega)) (by omega) (by omega)) (by omega) (by omega)) (by omega) (by omega)) (by omega) (by omega)) (by omega) (by omega)) (by omega) (by omega)

/-- C126 is false of the code: an option of type int32 has the value 4294967301. -/
theorem C126_false : ¬ C126_statement := by
  intro h
  obtain ⟨a, hm⟩ := cN_handles.2.2.1
  obtain ⟨n, l, hk, hl⟩ := optB_spec (r := cN.reg) (q := ⟨1, [0, 2, 4]⟩) (P := fun l => l.source == b!"4294967301")
    (by decide +kernel)
  rw [beq_iff_eq] at hl
  have hd : DecimalInt l.source 4294967301 := by
    rw [hl]
    exact .inl ⟨by omega, big_decimal⟩
  obtain ⟨p, r', e⟩ := h noF cN a _ _ _ n l b!"int32" 4294967301 cN_clean hm hk cN_fields.2.2.1 (by decide) hd
    (fun hf => absurd (hf.2 (by decide)) (by omega))
  have e2 := ((C126_unchecked (F := noF) cN_clean hm hk cN_fields.2.2.1).1 4294967301 (by decide) hd).1 ⟨by omega, by omega⟩
  rw [e] at e2
  cases e2

end Protoast.Props
