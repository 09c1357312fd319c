import Verif.Proof.Iter
import Verif.Proof.Options
import Verif.Examples
/-
  C29–C33: iterators and lookups by name.
-/
namespace Protoast.Props
open Protoast

/-- The handle refers to a parsed object. -/
def Live (r : Reg) (p : Ptr) : Prop := ∃ es, r.children p = some es

theorem live_target {r : Reg} {p : Ptr} {k : WKind} (h : r.wrapTarget (.at p) = some (k, p)) : Live r p := by
  unfold Reg.wrapTarget at h
  unfold Live Reg.children
  rcases p with ⟨pf, pp⟩
  cases pp with
  | nil =>
    simp only at h
    split at h
    · next hl => exact ⟨(r.heap[pf]).elems, by simp [List.getElem?_eq_getElem hl, ProtoFile.childrenAt]⟩
    · cases h
  | cons i rest =>
    simp only [Option.map_eq_some_iff] at h
    obtain ⟨k', hk, _⟩ := h
    rw [Option.bind_eq_some_iff] at hk
    obtain ⟨kd, h1, _⟩ := hk
    unfold Reg.kind at h1
    rw [Option.map_eq_some_iff] at h1
    obtain ⟨e, h2, _⟩ := h1
    unfold Reg.elem at h2
    cases hh : r.heap[pf]? with
    | none => rw [hh] at h2; cases h2
    | some f =>
      rw [hh] at h2
      simp only [Option.bind_some] at h2
      exact ⟨e.children, by simp only [Option.bind_some]; exact congrArg (Option.map Elem.children) h2⟩

theorem live_kind {r : Reg} {p : Ptr} {kd : Kind} {k : WKind} (h : r.kind p = some kd) (hk : wrapKind kd = some k) :
    Live r p := live_target (target_of_kind h hk)

/-- C29: the iterators of a file give exactly the top-level declarations of their kind, each once, in source
    order, and never fail; in every state of every client. -/
theorem C29_file {P c a p} (hr : Reachable P c) (hn : Node.wrapped a .file p ∈ c.pool) :
    Live c.reg p ∧
    Exact c.reg (File.imports p) p importSel ∧
    Exact c.reg (File.messages p) p messageSel ∧
    Exact c.reg (File.enums p) p enumSel ∧
    Exact c.reg (File.types p) p typeSel ∧
    Exact c.reg (File.services p) p serviceSel := by
  obtain ⟨o, hi, hg⟩ := reachable_inv hr
  exact ⟨live_target (hg _ hn).target, (shape_imports p).exact hi (GoodW.rooted (hg _ hn)), (shape_fileMessages p).exact hi (GoodW.rooted (hg _ hn)), (shape_fileEnums p).exact hi (GoodW.rooted (hg _ hn)),
    (shape_fileTypes p).exact hi (GoodW.rooted (hg _ hn)), (shape_services p).exact hi (GoodW.rooted (hg _ hn))⟩

/-- Non-vacuity of C29. -/
example : ∃ a p, Node.wrapped a .file p ∈ Ex.c2.pool ∧
    (membersOf Ex.c2.reg p messageSel).length = 1 ∧ (membersOf Ex.c2.reg p importSel).length = 1 := by
  obtain ⟨a, h⟩ := Ex.hasW_spec (c := Ex.c2) (i := 0) (k := .file) (p := ⟨1, []⟩) (by decide +kernel)
  exact ⟨a, _, h, by decide +kernel, by decide +kernel⟩

/-- C30: the same for messages. -/
theorem C30_message {P c a p} (hr : Reachable P c) (hn : Node.wrapped a .message p ∈ c.pool) :
    Live c.reg p ∧
    Exact c.reg (Message.fields p) p fieldSel ∧
    Exact c.reg (Message.messages p) p messageSel ∧
    Exact c.reg (Message.types p) p typeSel := by
  obtain ⟨o, hi, hg⟩ := reachable_inv hr
  exact ⟨live_target (hg _ hn).target, (shape_fields p).exact hi (GoodW.rooted (hg _ hn)), (shape_messages p).exact hi (GoodW.rooted (hg _ hn)), (shape_types p).exact hi (GoodW.rooted (hg _ hn))⟩

/-- C30 for enums. -/
theorem C30_enum {P c a p} (hr : Reachable P c) (hn : Node.wrapped a .enum p ∈ c.pool) :
    Live c.reg p ∧ Exact c.reg (Enum.values p) p valueSel ∧ Exact c.reg (Enum.enums p) p enumSel := by
  obtain ⟨o, hi, hg⟩ := reachable_inv hr
  exact ⟨live_target (hg _ hn).target, (shape_values p).exact hi (GoodW.rooted (hg _ hn)),
    (shape_enumEnums p).exact hi (GoodW.rooted (hg _ hn))⟩

/-- C30 for oneofs. -/
theorem C30_oneof {P c a p} (hr : Reachable P c) (hn : Node.oneof a p ∈ c.pool) :
    Live c.reg p ∧ Exact c.reg (OneOf.branches p) p branchSel := by
  obtain ⟨o, hi, hg⟩ := reachable_inv hr
  obtain ⟨_, ⟨n, hk⟩, hroot⟩ := hg _ hn
  exact ⟨live_kind hk rfl, (shape_branches p).exact hi hroot⟩

/-- C30 for services. -/
theorem C30_service {P c a p} (hr : Reachable P c) (hn : Node.wrapped a .service p ∈ c.pool) :
    Live c.reg p ∧ Exact c.reg (Service.methods p) p methodSel := by
  obtain ⟨o, hi, hg⟩ := reachable_inv hr
  exact ⟨live_target (hg _ hn).target, (shape_methods p).exact hi (GoodW.rooted (hg _ hn))⟩

/-- Non-vacuity of C30: a message with five fields, a nested message and an enum. -/
example : ∃ a p, Node.wrapped a .message p ∈ Ex.c2.pool ∧
    (membersOf Ex.c2.reg p fieldSel).length = 5 ∧ (membersOf Ex.c2.reg p typeSel).length = 2 := by
  obtain ⟨a, h⟩ := Ex.hasW_spec (c := Ex.c2) (i := 1) (k := .message) (p := ⟨1, [4]⟩) (by decide +kernel)
  exact ⟨a, _, h, by decide +kernel, by decide +kernel⟩
example : ∃ a p, Node.wrapped a .enum p ∈ Ex.c2.pool ∧ (membersOf Ex.c2.reg p valueSel).length = 2 := by
  obtain ⟨a, h⟩ := Ex.hasW_spec (c := Ex.c2) (i := 8) (k := .enum) (p := ⟨1, [6, 4]⟩) (by decide +kernel)
  exact ⟨a, _, h, by decide +kernel⟩

/-! ### C31: lookup by name -/

theorem agrees_shape {seq p sel names look} (h : IterShape seq p sel) {o r} (hi : Inv o r)
    (hp : Rooted r p) (hl : Looks names r p sel look) : AgreesFor names r seq look := by
  obtain ⟨pick, rfl, hw⟩ := h
  exact agrees_kids hw hi hp hl

syntax "same_pred" : tactic
macro_rules
  | `(tactic| same_pred) => `(tactic| (
      intro name _ x _
      cases x.2.kind <;> first
        | rfl
        | (simp [enumSel, serviceSel, fieldSel, messageSel, valueSel, branchSel, methodSel, Kind.declName]; done)
        | (rename_i n b; cases b <;> simp [messageSel, Kind.declName])))

syntax "same_kind" : tactic
macro_rules
  | `(tactic| same_kind) => `(tactic| (
      intro kd k' h
      cases kd <;> first
        | (cases h; done)
        | (cases h; rfl)
        | (rename_i n b; cases b <;> first | (cases h; done) | (cases h; rfl))))

/-- The predicate of `Message.Type`. -/
def messageTypePred (name : Str) : Kind → Bool
  | .message n false => n == name
  | .enum n => n == name
  | _ => false
/-- The predicate of `File.Type`. -/
def fileTypePred (name : Str) : Kind → Bool
  | .message n _ => n == name
  | .enum n => n == name
  | _ => false
theorem messageTypePred_eq (p : Ptr) (name : Str) (r : Reg) : Message.type p name r =
    match (r.kids p).find? (fun x : Ptr × Elem => messageTypePred name x.2.kind) with
    | some (q, e) =>
      (match e.kind with
      | .message _ _ => do let n ← wrapAs .message q; pure (some n)
      | _ => do let n ← wrapAs .enum q; pure (some n) : M (Option Node)) r
    | none => (.ok none, r) := by
  have : Message.type p name r = (match (r.kids p).find? (fun x : Ptr × Elem => messageTypePred name x.2.kind) with
    | some (q, e) =>
      match e.kind with
      | .message _ _ => do let n ← wrapAs .message q; pure (some n)
      | _ => do let n ← wrapAs .enum q; pure (some n)
    | none => pure none : M (Option Node)) r := rfl
  rw [this]
  cases (r.kids p).find? (fun x : Ptr × Elem => messageTypePred name x.2.kind) <;> rfl
theorem fileTypePred_eq (p : Ptr) (name : Str) (r : Reg) : File.type p name r =
    match (r.kids p).find? (fun x : Ptr × Elem => fileTypePred name x.2.kind) with
    | some (q, e) =>
      (match e.kind with
      | .message _ _ => do let n ← wrapAs .message q; pure (some n)
      | _ => do let n ← wrapAs .enum q; pure (some n) : M (Option Node)) r
    | none => (.ok none, r) := by
  have : File.type p name r = (match (r.kids p).find? (fun x : Ptr × Elem => fileTypePred name x.2.kind) with
    | some (q, e) =>
      match e.kind with
      | .message _ _ => do let n ← wrapAs .message q; pure (some n)
      | _ => do let n ← wrapAs .enum q; pure (some n)
    | none => pure none : M (Option Node)) r := rfl
  rw [this]
  cases (r.kids p).find? (fun x : Ptr × Elem => fileTypePred name x.2.kind) <;> rfl

theorem looks_messageType {names : Str → Prop} {r0 : Reg} {p : Ptr} :
    Looks names r0 p typeSel (Message.type p) := by
  intro name r _ _
  have hfe : (r.kids p).find? (fun x : Ptr × Elem => messageTypePred name x.2.kind) =
      (r.kids p).find? (fun x => (typeSel x.2.kind).isSome && x.2.kind.declName == some name) := by
    apply find_congr
    intro x _
    cases x.2.kind <;> first
      | rfl
      | (simp [typeSel, Kind.declName, messageTypePred, fileTypePred]; done)
      | (rename_i n b; cases b <;> simp [typeSel, Kind.declName, messageTypePred, fileTypePred])
  rw [messageTypePred_eq, hfe]
  cases hf : (r.kids p).find? (fun x => (typeSel x.2.kind).isSome && x.2.kind.declName == some name) with
  | none => rfl
  | some x =>
    have := List.find?_some hf
    rcases x with ⟨q, e⟩
    simp only [Bool.and_eq_true] at this ⊢
    have h1 := this.1
    cases hk : e.kind <;> rw [hk] at h1 <;> first | (cases h1; done) | rfl | skip
    rename_i n b
    cases b <;> first | (cases h1; done) | rfl

theorem looks_fileType {r0 : Reg} {p : Ptr} :
    Looks (NotExtended r0 p) r0 p typeSel (File.type p) := by
  intro name r hn hkids
  have hfe : (r.kids p).find? (fun x : Ptr × Elem => fileTypePred name x.2.kind) =
      (r.kids p).find? (fun x => (typeSel x.2.kind).isSome && x.2.kind.declName == some name) := by
    apply find_congr
    intro x hx
    rw [hkids, kids_zipIdx, List.mem_map] at hx
    obtain ⟨⟨e, i⟩, h1, rfl⟩ := hx
    have hne := hn e (List.fst_mem_of_mem_zipIdx h1)
    simp only
    cases hk : e.kind <;> first
      | rfl
      | (simp [typeSel, Kind.declName, messageTypePred, fileTypePred]; done)
      | skip
    rename_i n b
    rw [hk] at hne
    cases b
    · simp [typeSel, Kind.declName, messageTypePred, fileTypePred]
    · simp only [ne_eq, Kind.message.injEq, and_true] at hne
      simp [typeSel, hne, fileTypePred]
  rw [fileTypePred_eq, hfe]
  cases hf : (r.kids p).find? (fun x => (typeSel x.2.kind).isSome && x.2.kind.declName == some name) with
  | none => rfl
  | some x =>
    have := List.find?_some hf
    rcases x with ⟨q, e⟩
    simp only [Bool.and_eq_true] at this ⊢
    have h1 := this.1
    cases hk : e.kind <;> rw [hk] at h1 <;> first | (cases h1; done) | rfl | skip
    rename_i n b
    cases b <;> first | (cases h1; done) | rfl

theorem looks_fileMessage {r0 : Reg} {p : Ptr} :
    Looks (NotExtended r0 p) r0 p messageSel (File.message p) := by
  refine looks_firstKid (k := .message) (by same_kind) ?_
  intro name hn x hx
  rw [kids_zipIdx, List.mem_map] at hx
  obtain ⟨⟨e, i⟩, h1, rfl⟩ := hx
  have hne := hn e (List.fst_mem_of_mem_zipIdx h1)
  simp only
  cases hk : e.kind <;> first
    | rfl
    | skip
  rename_i n b
  rw [hk] at hne
  cases b
  · simp [messageSel, Kind.declName]
  · simp only [ne_eq, Kind.message.injEq, and_true] at hne
    simp [messageSel, hne]

/-- C31 in full: for every lookup of the library. -/
def C31_statement : Prop :=
  ∀ c, Reachable WFFile c →
    (∀ a p, Node.wrapped a .file p ∈ c.pool →
      Agrees c.reg (File.messages p) (File.message p) ∧ Agrees c.reg (File.enums p) (File.enum p) ∧
      Agrees c.reg (File.types p) (File.type p) ∧ Agrees c.reg (File.services p) (File.service p)) ∧
    (∀ a p, Node.wrapped a .message p ∈ c.pool →
      Agrees c.reg (Message.fields p) (Message.field p) ∧ Agrees c.reg (Message.messages p) (Message.message p) ∧
      Agrees c.reg (Message.types p) (Message.type p)) ∧
    (∀ a p, Node.wrapped a .enum p ∈ c.pool → Agrees c.reg (Enum.values p) (Enum.value p) ∧
      Agrees c.reg (Enum.enums p) (Enum.enum p)) ∧
    (∀ a p, Node.oneof a p ∈ c.pool → Agrees c.reg (OneOf.branches p) (OneOf.branch p)) ∧
    (∀ a p, Node.wrapped a .service p ∈ c.pool → Agrees c.reg (Service.methods p) (Service.method p))

/-- C31 for the lookups for which it holds of the code without restriction: all but `File.Message` and
    `File.Type`. For these two it holds for every name that no extend block of the file extends. -/
theorem C31_partial {P c} (hr : Reachable P c) :
    (∀ a p, Node.wrapped a .file p ∈ c.pool →
      AgreesFor (NotExtended c.reg p) c.reg (File.messages p) (File.message p) ∧
      Agrees c.reg (File.enums p) (File.enum p) ∧
      AgreesFor (NotExtended c.reg p) c.reg (File.types p) (File.type p) ∧
      Agrees c.reg (File.services p) (File.service p)) ∧
    (∀ a p, Node.wrapped a .message p ∈ c.pool →
      Agrees c.reg (Message.fields p) (Message.field p) ∧ Agrees c.reg (Message.messages p) (Message.message p) ∧
      Agrees c.reg (Message.types p) (Message.type p)) ∧
    (∀ a p, Node.wrapped a .enum p ∈ c.pool → Agrees c.reg (Enum.values p) (Enum.value p) ∧
      Agrees c.reg (Enum.enums p) (Enum.enum p)) ∧
    (∀ a p, Node.oneof a p ∈ c.pool → Agrees c.reg (OneOf.branches p) (OneOf.branch p)) ∧
    (∀ a p, Node.wrapped a .service p ∈ c.pool → Agrees c.reg (Service.methods p) (Service.method p)) := by
  obtain ⟨o, hi, hg⟩ := reachable_inv hr
  refine ⟨fun a p hn => ⟨?_, ?_, ?_, ?_⟩, fun a p hn => ⟨?_, ?_, ?_⟩, fun a p hn => ⟨?_, ?_⟩, fun a p hn => ?_,
    fun a p hn => ?_⟩
  · exact agrees_shape (shape_fileMessages p) hi (GoodW.rooted (hg _ hn)) looks_fileMessage
  · exact agrees_shape (shape_fileEnums p) hi (GoodW.rooted (hg _ hn)) (looks_firstKid (k := .enum) (by same_kind) (by same_pred))
  · exact agrees_shape (shape_fileTypes p) hi (GoodW.rooted (hg _ hn)) looks_fileType
  · exact agrees_shape (shape_services p) hi (GoodW.rooted (hg _ hn)) (looks_firstKid (k := .service) (by same_kind) (by same_pred))
  · exact agrees_shape (shape_fields p) hi (GoodW.rooted (hg _ hn)) (looks_firstKid (k := .messageField) (by same_kind) (by same_pred))
  · exact agrees_shape (shape_messages p) hi (GoodW.rooted (hg _ hn)) (looks_firstKid (k := .message) (by same_kind) (by same_pred))
  · exact agrees_shape (shape_types p) hi (GoodW.rooted (hg _ hn)) looks_messageType
  · exact agrees_shape (shape_values p) hi (GoodW.rooted (hg _ hn)) (looks_firstKid (k := .enumValue) (by same_kind) (by same_pred))
  · exact agrees_shape (shape_enumEnums p) hi (GoodW.rooted (hg _ hn)) (looks_firstKid (k := .enum) (by same_kind) (by same_pred))
  · exact agrees_shape (shape_branches p) hi (hg _ hn).2.2 (looks_firstKid (k := .oneofBranch) (by same_kind) (by same_pred))
  · exact agrees_shape (shape_methods p) hi (GoodW.rooted (hg _ hn)) (looks_firstKid (k := .method) (by same_kind) (by same_pred))

/-- A client that loaded `b.proto`, which extends `google.protobuf.FieldOptions`. -/
def extClient : Client := Client.exec ⟨Ex.r0, []⟩ [.proto Ex.W 5 Ex.pb]

theorem extClient_wf : Reachable WFFile extClient :=
  Ex.reach_exec Ex.W_wf _ (by
    intro op hop
    simp only [List.mem_singleton] at hop
    subst hop
    exact Ex.W_wf)

/-- The lookup of an extended name after an iteration finds a node. -/
def findsExtended (p : Ptr) : Bool :=
  match (File.messages p).collect extClient.reg with
  | (.ok ns, r1) =>
    (ns.find? fun n => n.sourceName extClient.reg == some b!"google.protobuf.FieldOptions").isNone &&
    match File.message p b!"google.protobuf.FieldOptions" r1 with
    | (.ok (some _), _) => true
    | _ => false
  | _ => false

/-- C31 is false of the code: `File.Message` and `File.Type` also find extend blocks, by the name of what they
    extend, although the iterators leave them out. -/
theorem C31_false : ¬ C31_statement := by
  intro h
  obtain ⟨a, hm⟩ := Ex.hasW_spec (c := extClient) (i := 0) (k := .file) (p := ⟨1, []⟩) (by decide +kernel)
  obtain ⟨ns, r1, h1, h2⟩ := ((h _ extClient_wf).1 _ _ hm).1
  have hf : findsExtended ⟨1, []⟩ = true := by decide +kernel
  unfold findsExtended at hf
  rw [h1] at hf
  simp only [Bool.and_eq_true, Option.isNone_iff_eq_none] at hf
  obtain ⟨r2, h3⟩ := h2 b!"google.protobuf.FieldOptions" trivial
  rw [h3, hf.1] at hf
  exact absurd hf.2 (by simp)

/-- Non-vacuity of C31_partial: in the file with the extend block, `T` is a name that is not extended and is
    found. -/
example : NotExtended extClient.reg ⟨1, []⟩ b!"T" ∧
    (membersOf extClient.reg ⟨1, []⟩ messageSel).length = 1 := by
  refine ⟨?_, by decide +kernel⟩
  have hall : ((extClient.reg.children ⟨1, []⟩).getD []).all (fun e => match e.kind with
      | .message n true => n != b!"T"
      | _ => true) = true := by
    decide +kernel
  intro e he
  have := List.all_eq_true.mp hall e he
  intro hk
  rw [hk] at this
  exact absurd this (by decide)

/-! ### C32: Everything -/

/-- C32 in full. -/
def C32_statement : Prop :=
  ∀ c n seq cls p, Reachable WFFile c → n ∈ c.pool → everythingOf n = some (seq, cls, p) →
    EnumeratesAll c.reg seq p

/-- C32 for objects all of whose elements are of a kind the library has nodes for, with options that are bound
    at top level. Missing: comments, groups, extension ranges, editions and other options, on which the
    code panics. -/
theorem C32_partial {c n seq cls p} (hr : Reachable WFFile c) (hn : n ∈ c.pool) (he : everythingOf n = some (seq, cls, p))
    (hrep : ∀ e ∈ (c.reg.children p).getD [], Representable c.reg cls e) : EnumeratesAll c.reg seq p := by
  obtain ⟨o, hi, hg⟩ := reachable_inv hr
  have hs := reachable_sound hr
  have hgn := hg n hn
  unfold everythingOf at he
  split at he <;> cases he
  all_goals first
    | exact everything_all hi hs (GoodW.rooted hgn) hrep
    | exact everything_all hi hs hgn.2.2 hrep

/-- A file with a free-standing comment. -/
def commentWorld : World :=
  Ex.worldOf [(descriptorPath, Ex.descriptor), (Ex.pa, [Ex.el Ex.pa 1 .comment])]
def commentClient : Client := Client.exec ⟨(newRegistry commentWorld 5).2, []⟩ [.proto commentWorld 5 Ex.pa]
theorem commentWorld_wf : commentWorld.Sat WFFile := by
  apply Ex.worldOf_sat
  intro x hx
  apply Ex.wfb_spec
  simp only [List.mem_cons, List.not_mem_nil, or_false] at hx
  rcases hx with rfl | rfl <;> decide +kernel
theorem commentClient_wf : Reachable WFFile commentClient :=
  ⟨commentWorld, 5, _, [.proto commentWorld 5 Ex.pa], commentWorld_wf, Ex.ok_of_okOk (by decide +kernel),
    by intro op hop; simp only [List.mem_singleton] at hop; subst hop; exact commentWorld_wf, rfl⟩

/-- C32 is false of the code: a comment between declarations makes `Everything` panic. -/
theorem C32_false : ¬ C32_statement := by
  intro h
  obtain ⟨a, hm⟩ := Ex.hasW_spec (c := commentClient) (i := 0) (k := .file) (p := ⟨1, []⟩) (by decide +kernel)
  obtain ⟨ns, r', h1, _⟩ := h _ _ _ _ _ commentClient_wf hm rfl
  have : Ex.isOk ((File.everything ⟨1, []⟩).collect commentClient.reg).1 = false := by decide +kernel
  rw [h1] at this
  cases this

/-- Non-vacuity of C32_partial: the example file with syntax, package, import, a predefined option, a message
    and a service. -/
example : ∃ a p, Node.wrapped a .file p ∈ Ex.c2.pool ∧ ((Ex.c2.reg.children p).getD []).length = 6 ∧
    ∀ e ∈ (Ex.c2.reg.children p).getD [], Representable Ex.c2.reg registryOptionsFile e := by
  obtain ⟨a, h⟩ := Ex.hasW_spec (c := Ex.c2) (i := 0) (k := .file) (p := ⟨1, []⟩) (by decide +kernel)
  refine ⟨a, _, h, by decide +kernel, ?_⟩
  have hc : (Ex.c2.reg.children ⟨1, []⟩).getD [] = Ex.fileA := by
    obtain ⟨f, hf, he⟩ : ∃ f, Ex.c2.reg.heap[1]? = some f ∧ f.elems = Ex.fileA := ⟨_, rfl, rfl⟩
    simp [Reg.children, hf, ProtoFile.childrenAt, he]
  have hclass : ClassAt Ex.c2.reg registryOptionsFile ⟨0, [2]⟩ := by
    have hk : (Ex.c2.reg.kind ⟨0, [2]⟩) = some (.message b!"FileOptions" false) := by rfl
    exact ⟨by decide +kernel, _, _, hk⟩
  have hb : Binds Ex.c2.reg [] ⟨0, [2]⟩ b!"go_package" ⟨0, [1, 2]⟩ := by
    right
    refine ⟨unresolved_iff.mpr (by decide +kernel), builtin_named.mp (by decide +kernel)⟩
  intro e he
  rw [hc] at he
  simp only [Ex.fileA, List.mem_cons, List.not_mem_nil, or_false] at he
  rcases he with rfl | rfl | rfl | rfl | rfl | rfl
  · exact .inl rfl
  · exact .inl rfl
  · exact .inl rfl
  · exact .inr ⟨_, _, _, _, rfl, hclass, hb⟩
  · exact .inl rfl
  · exact .inl rfl

/-! ### C33: laziness -/

theorem runSteps_stop {α σ : Type} (k : Nat) (body : σ → α → M σ) : ∀ (ms ms' : List (M α)) (cnt : Nat) (s : σ)
    (r : Reg), cnt < k → ms.take (k - cnt) = ms'.take (k - cnt) →
    runSteps (stopAfter k body) ms (cnt, s) r = runSteps (stopAfter k body) ms' (cnt, s) r := by
  intro ms
  induction ms with
  | nil =>
    intro ms' cnt s r hlt h
    cases ms' with
    | nil => rfl
    | cons m ms' =>
      rw [show k - cnt = (k - (cnt + 1)) + 1 by omega] at h
      simp at h
  | cons m ms ih =>
    intro ms' cnt s r hlt h
    rw [show k - cnt = (k - (cnt + 1)) + 1 by omega] at h
    cases ms' with
    | nil => simp at h
    | cons m' ms' =>
      simp only [List.take_succ_cons, List.cons.injEq] at h
      obtain ⟨rfl, h⟩ := h
      simp only [runSteps, M.bind_apply, stopAfter]
      rcases hm : m r with ⟨(a | p | _), r1⟩ <;> simp only
      rcases hb : body s a r1 with ⟨(s' | p | _), r2⟩ <;> simp only [M.pure_apply]
      by_cases hc : cnt + 1 < k
      · simp only [hc, decide_true, if_true]
        exact ih ms' (cnt + 1) s' r2 hc h
      · simp only [hc, decide_false, Bool.false_eq_true, if_false]

/-- C33, laziness: for every iterator and every loop body, a loop that leaves after `k` elements does exactly the
    same on the iterator cut after its first `k` elements: nothing beyond them is evaluated. -/
theorem C33_lazy {α σ : Type} (seq : Seq α) (body : σ → α → M σ) {k : Nat} (hk : 0 < k) (s : σ) (r : Reg) :
    Seq.run seq (stopAfter k body) (0, s) r = Seq.run (seq.take k) (stopAfter k body) (0, s) r := by
  unfold Seq.run Seq.take
  simp only [M.bind_apply]
  rcases seq r with ⟨(ms | p | _), r1⟩ <;> simp only [M.pure_apply]
  exact runSteps_stop k body ms (ms.take k) 0 s r1 hk (by simp [List.take_take])

/-- C33, failures: two iterators that agree on their first `k` elements are the same for a loop that leaves after
    `k` elements, whatever happens in the remainder of either. -/
theorem C33_no_late_failure {α σ : Type} (first rest rest' : List (M α)) (body : σ → α → M σ)
    (hk : 0 < first.length) (s : σ) (r : Reg) :
    Seq.run (pure (first ++ rest) : M (List (M α))) (stopAfter first.length body) (0, s) r =
      Seq.run (pure (first ++ rest') : M (List (M α))) (stopAfter first.length body) (0, s) r := by
  unfold Seq.run
  simp only [M.bind_apply, M.pure_apply]
  exact runSteps_stop _ body _ _ 0 s r hk (by simp)

/-- C33, prefixes: whatever calls a loop body makes (loads included), a loop over a declaration iterator that
    leaves after `k` elements never fails in the iterator and has seen the first `k` members of the object;
    these are the identical nodes a full iteration gives afterwards. -/
theorem C33_prefix {P c n q seq p sel} (hr : Reachable P c) (hn : n ∈ c.pool)
    (hq : IterQ.declSeq q n = some (seq, p, sel)) {k : Nat} (hk : 0 < k) (act : List Node → List Op) :
    ∃ cnt seen pool r', Seq.run seq (stopAfter k (clientBody act)) (0, [], c.pool) c.reg =
        (.ok (cnt, seen, pool), r') ∧
      seen.map Node.handle = ((membersOf c.reg p sel).take k).map some ∧
      ∃ ns r'', seq.collect r' = (.ok ns, r'') ∧ ns.take k = seen := by
  obtain ⟨o, hi, hg⟩ := reachable_inv hr
  have hshape := shape_declSeq hq
  have hroot : Rooted c.reg p := by
    have hgn := hg n hn
    unfold IterQ.declSeq at hq
    split at hq <;> cases hq
    all_goals first
      | exact GoodW.rooted hgn
      | exact hgn.2.2
  obtain ⟨pick, rfl, hw⟩ := hshape
  obtain ⟨o', r', cnt, new, pool, h1, hx, hi', hg', h2⟩ :=
    runSteps_client hw (k := k) (act := act) (c.reg.kids p) [] 0 hi hg (present_kids hroot) hk
  rw [← membersOf_kids, Nat.sub_zero] at h2
  obtain ⟨ns, o2, r2, h3, hx2, hi2, hg2, h4⟩ := collect_kids hw hi' (hx.rooted hroot)
  have hmem : membersOf r' p sel = membersOf c.reg p sel := by
    unfold membersOf; rw [hx.children_eq hroot.file]
  rw [hmem] at h4
  refine ⟨cnt, new, pool, r', ?_, h2, ns, r2, h3, ?_⟩
  · unfold Seq.run
    simp only [M.bind_apply, overKids_apply]
    exact h1
  · symm
    apply nodes_eq (o := o2) (r := r2)
    · intro x hxn; exact hx2.good x (hg' x hxn)
    · intro x hxn; exact hg2 x (List.mem_of_mem_take hxn)
    · intro kd q hmm
      rw [h2, List.mem_map] at hmm
      obtain ⟨y, hy, he⟩ := hmm
      have hy' := List.mem_of_mem_take hy
      unfold membersOf at hy'
      rw [List.mem_filterMap] at hy'
      obtain ⟨z, _, hz⟩ := hy'
      rw [Option.map_eq_some_iff] at hz
      obtain ⟨k', hk', rfl⟩ := hz
      cases he
      exact wrapKind_ne_file (hw.1 _ _ hk')
    · intro x hxn hnone
      have : none ∈ new.map Node.handle := by rw [← hnone]; exact List.mem_map_of_mem hxn
      rw [h2, List.mem_map] at this
      obtain ⟨y, _, hy⟩ := this
      cases hy
    · rw [h2, List.map_take, List.map_take, h4]

/-- Non-vacuity of C33_prefix: leave the loop over five fields after two. -/
example : ∃ n seq p sel, n ∈ Ex.c2.pool ∧ IterQ.declSeq .messageFields n = some (seq, p, sel) ∧
    ((membersOf Ex.c2.reg p sel).take 2).length = 2 := by
  obtain ⟨a, h⟩ := Ex.hasW_spec (c := Ex.c2) (i := 1) (k := .message) (p := ⟨1, [4]⟩) (by decide +kernel)
  exact ⟨_, _, _, _, h, rfl, by decide +kernel⟩

end Protoast.Props
