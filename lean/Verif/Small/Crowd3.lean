import Verif.Small.Crowd2
import Verif.Proof.Again3
/-
  Option values, the queries of the registry, and whole calls.
-/
namespace Protoast.Small.Crowd
open Protoast
open Protoast.Quiet (Front)

variable {T : Reg}

/-! ### Option values -/

/-- Lists of values. -/
def ValsR (T : Reg) (_ : Typing) (x y : List OptVal) : Prop := y = blurVals T.next x
/-- Items of a message value. -/
def ItemsR (T : Reg) (_ : Typing) (x y : List (Str × OptVal)) : Prop := y = blurItems T.next x
/-- An item of a message value. -/
def ItemR (T : Reg) (_ : Typing) (x y : Str × OptVal) : Prop := y = blurItem T.next x

mutual
theorem buildFromLiteral_sim (F : FloatOps) (o : Option Ptr) (f : Ptr) (ig : Bool) : (l : Literal) → (s : Typing) →
    Sim T s (ValR T) (Small.buildFromLiteral F o f ig l) (Small.buildFromLiteral F o f ig l)
  | .mk pos source array om, s => by
    have ha := buildArray_sim F f array
    have hi := fun mp => buildItems_sim F mp om
    unfold Small.buildFromLiteral
    simp only
    refine Sim.read (by pfronts) fun s' _ => ?_
    have one : ∀ {s : Typing} v, blurVal T.next v = v → Sim T s (ValR T) (Pure.pure v) (Pure.pure v) :=
      fun v h => Sim.pure h.symm
    split
    · split
      · exact Sim.bind (ha _) fun s2 x y _ h => Sim.pure (by have h : y = _ := h; subst h; rfl)
      · split
        · split <;> first | exact Sim.panic | exact one _ rfl
        · split <;> first | exact Sim.panic | exact one _ rfl
        · split <;> first | exact Sim.panic | exact one _ rfl
        · split <;> first | exact Sim.panic | exact one _ rfl
        · exact one _ rfl
        · exact one _ rfl
        · refine Sim.bind (getTypeByName_sim _ _ _) ?_
          rintro s2 x _ - ⟨rfl, -⟩
          cases x with
          | none => exact Sim.panic
          | some n =>
            cases n with
            | wrapped a k p =>
              simp only [Option.map_some, blur]
              cases k
              all_goals first | exact Sim.panic | skip
              · exact Sim.bind (hi _ _) fun s2 x y _ h => Sim.pure (by have h : y = _ := h; subst h; rfl)
              · refine Sim.bind (firstKid_sim _ _ _ _) ?_
                rintro s3 x _ - ⟨rfl, -⟩
                cases x with
                | none => exact Sim.panic
                | some n =>
                  cases n with
                  | wrapped a k p => exact Sim.pure rfl
                  | «repeated» a t => cases t <;> exact Sim.panic
                  | _ => exact Sim.panic
            | «repeated» a t => cases t <;> exact Sim.panic
            | _ => exact Sim.panic
    · exact Sim.panic
theorem buildArray_sim (F : FloatOps) (f : Ptr) : (ls : List Literal) → (s : Typing) →
    Sim T s (ValsR T) (Small.buildArray F f ls) (Small.buildArray F f ls)
  | [], s => by unfold Small.buildArray; exact Sim.pure rfl
  | l :: ls, s => by
    have h1 := buildFromLiteral_sim F none f true l
    have h2 := buildArray_sim F f ls
    unfold Small.buildArray
    refine Sim.bind (h1 _) ?_
    rintro s1 x _ - rfl
    refine Sim.bind (h2 _) ?_
    rintro s1 xs _ - rfl
    exact Sim.pure rfl
theorem buildItems_sim (F : FloatOps) (m : Ptr) : (ls : List (Str × Literal)) → (s : Typing) →
    Sim T s (ItemsR T) (Small.buildItems F m ls) (Small.buildItems F m ls)
  | [], s => by unfold Small.buildItems; exact Sim.pure rfl
  | nl :: rest, s => by
    have h1 := buildItem_sim F m nl
    have h2 := buildItems_sim F m rest
    unfold Small.buildItems
    refine Sim.bind (h1 _) ?_
    rintro s1 x _ - rfl
    refine Sim.bind (h2 _) ?_
    rintro s1 xs _ - rfl
    exact Sim.pure rfl
theorem buildItem_sim (F : FloatOps) (m : Ptr) : (nl : Str × Literal) → (s : Typing) →
    Sim T s (ItemR T) (Small.buildItem F m nl) (Small.buildItem F m nl)
  | (name, lit), s => by
    have h1 := fun fp => buildFromLiteral_sim F none fp false lit
    unfold Small.buildItem Message.field
    refine Sim.bind (firstKid_sim _ _ _ _) ?_
    rintro s1 x _ - ⟨rfl, -⟩
    cases x with
    | none => exact Sim.panic
    | some n =>
      cases n with
      | wrapped a k p =>
        simp only [Option.map_some, blur]
        refine Sim.read (by pfronts) fun s' _ => ?_
        split
        · refine Sim.bind (h1 _ _) ?_
          rintro s1 x _ - rfl
          exact Sim.pure rfl
        · exact Sim.panic
      | «repeated» a t => cases t <;> exact Sim.panic
      | _ => exact Sim.panic
end

theorem optionValue_sim (s F o f) : Sim T s (ValR T) (Option.value F o f) (Option.value F o f) := by
  unfold Option.value
  refine Sim.read (by pfronts) fun s' _ => ?_
  split
  · exact buildFromLiteral_sim _ _ _ _ _ _
  · exact Sim.panic

/-! ### Queries -/

/-- Both sides have the same text. -/
theorem Sim.same {α : Type} {s : Typing} {m m' : P α} (e : m' = m) (h : Shows T m) : Sim T s EqR m m' := e ▸ h s

theorem Shows.nodeIndex (n) : Shows T (Small.nodeIndex n) := by intro s; unfold Small.nodeIndex; sq
theorem nodeIndex_blur (N n) : Small.nodeIndex (blur N n) = Small.nodeIndex n := by
  cases n with
  | «repeated» a t => cases t <;> rfl
  | _ => rfl
macro_rules | `(tactic| sq_lemma) => `(tactic| with_reducible exact Shows.nodeIndex _ _)
theorem Shows.comment (n) : Shows T (Small.comment n) := by intro s; unfold Small.comment; sq
theorem comment_blur (N n) : Small.comment (blur N n) = Small.comment n := by
  cases n with
  | «repeated» a t => cases t <;> rfl
  | _ => rfl

theorem nodeDescription_sim : (n : Node) → (s : Typing) → Sim T s EqR (Small.nodeDescription n) (Small.nodeDescription (blur T.next n))
  | .repeated _ (some t), s => by
    have h := nodeDescription_sim t
    simp only [blur, Small.nodeDescription]
    refine Sim.bind (h s) ?_
    rintro s1 x _ - rfl
    exact Sim.pure rfl
  | .repeated _ none, _ => Sim.panic
  | .map a p, s => by
    simp only [blur, Small.nodeDescription]
    refine Sim.bind (mapKey_sim _ _) ?_
    rintro s1 x _ - ⟨rfl, -⟩
    cases x with
    | «repeated» a t => cases t <;> exact Sim.panic
    | _ => exact Sim.panic
  | .wrapped _ k _, s => by cases k <;> exact Sim.pure rfl
  | .option _ _ _ _, s | .oneof _ _, s => Sim.pure rfl
  | .builtin _, s | .value _, s | .mapItem _ _, s => Sim.panic

theorem typeName_sim : (n : Node) → (s : Typing) → Sim T s EqR (Small.typeName n) (Small.typeName (blur T.next n))
  | .repeated _ (some t), s => by
    have h := typeName_sim t
    simp only [blur, Small.typeName]
    refine Sim.bind (h s) ?_
    rintro s1 x _ - rfl
    exact Sim.pure rfl
  | .repeated _ none, _ => Sim.panic
  | .wrapped _ k _, s => by
    simp only [blur, Small.typeName]
    refine Sim.read (by pfronts) fun s' _ => ?_
    cases k <;> first | exact Sim.panic | exact Sim.pure rfl
  | .oneof _ _, s | .builtin _, s => Sim.pure rfl
  | .option _ _ _ _, s | .map _ _, s | .value _, s | .mapItem _ _, s => Sim.panic

theorem wrap_sim (s : Typing) (v) : Sim T s (OptR T) (Small.wrap v) (Small.wrap v) := (Sim.wrap v).mono fun _ _ _ _ h => h.1

theorem opt_blurVal (N v) : (blurVal N v).opt = v.opt := by
  cases v <;> simp only [blurVal, OptVal.opt]

theorem nodeParent_sim : (n : Node) → (s : Typing) → Sim T s (OptR T) (Small.nodeParent n) (Small.nodeParent (blur T.next n))
  | .repeated _ (some t), s => by
    have h := nodeParent_sim t
    simp only [blur, Small.nodeParent]
    exact h s
  | .repeated _ none, _ => Sim.panic
  | .wrapped _ k _, s => by
    simp only [blur, Small.nodeParent]
    refine Sim.read (by pfronts) fun s' _ => ?_
    cases k
    all_goals first | exact wrap_sim _ _ | exact Sim.pure OptR.none | skip
    dsimp only
    split <;> first | exact wrap_sim _ _ | exact Sim.panic
  | .oneof _ _, s | .option _ _ _ _, s => wrap_sim _ _
  | .value v, s => by
    simp only [blur, Small.nodeParent, opt_blurVal]
    split <;> exact wrap_sim _ _
  | .builtin _, s | .map _ _, s | .mapItem _ _, s => Sim.panic

/-- Lists of nodes. -/
def NodesR (T : Reg) (s : Typing) (x y : List Node) : Prop := y = x.map (blur T.next) ∧ ∀ n ∈ x, Typed T s n

theorem nodeHierarchy_sim (fuel : Nat) : ∀ s x y, OptR T s x y →
    Sim T s (NodesR T) (Small.nodeHierarchy fuel x) (Small.nodeHierarchy fuel y) := by
  induction fuel with
  | zero =>
    rintro s x _ ⟨rfl, -⟩
    cases x with
    | none => exact Sim.pure ⟨rfl, fun n h => by cases h⟩
    | some n => exact Sim.timeout
  | succ k ih =>
    rintro s x _ ⟨rfl, hd⟩
    cases x with
    | none => exact Sim.pure ⟨rfl, fun n h => by cases h⟩
    | some n =>
      simp only [Option.map_some, Small.nodeHierarchy]
      refine Sim.bind (nodeParent_sim n s) fun s1 x y h1 hxy => ?_
      refine Sim.bind (ih s1 x y hxy) ?_
      rintro s2 l _ h2 ⟨rfl, hl⟩
      refine Sim.pure ⟨rfl, fun m hm => ?_⟩
      rcases List.mem_cons.mp hm with rfl | hm
      · exact (hd _ rfl).mono (h1.trans h2)
      · exact hl m hm

theorem Shows.elemPos (p) : Shows T (Small.elemPos p) := by intro s; unfold Small.elemPos; sq
macro_rules | `(tactic| sq_lemma) => `(tactic| with_reducible exact Shows.elemPos _ _)
theorem Shows.filePos (p) : Shows T (Small.filePos p) := by intro s; unfold Small.filePos; sq
macro_rules | `(tactic| sq_lemma) => `(tactic| with_reducible exact Shows.filePos _ _)

theorem nodePos_sim : (n : Node) → (s : Typing) → Sim T s EqR (Small.nodePos n) (Small.nodePos (blur T.next n))
  | .repeated _ (some t), s => by
    have h := nodePos_sim t
    simp only [blur, Small.nodePos]
    exact h s
  | .repeated _ none, _ => Sim.panic
  | .wrapped _ k _, s => by cases k <;> (simp only [blur, Small.nodePos]; sq)
  | .option _ _ _ _, s | .oneof _ _, s | .map _ _, s | .builtin _, s => by simp only [blur, Small.nodePos]; sq
  | .value v, s => by simp only [blur, Small.nodePos, opt_blurVal]; sq
  | .mapItem _ _, s => Sim.panic

theorem nodeFile_sim (s n) : Sim T s (fun s x y => OptR T s x y ∧ ∀ n, x = some n → ∃ a p, n = .wrapped a .file p)
    (Small.nodeFile n) (Small.nodeFile (blur T.next n)) := by
  unfold Small.nodeFile
  refine Sim.bind (nodePos_sim n s) ?_
  rintro s1 x _ - rfl
  refine Sim.read (by pfronts) fun s' _ => ?_
  split
  · exact Sim.pure ⟨OptR.none, fun n e => by cases e⟩
  · refine Sim.bind (Sim.wrapAs _ _) fun s2 x y _ h => Sim.pure ⟨h.1.some, fun n e => ?_⟩
    cases e
    exact h.2

theorem posBody_sim (n : Node) (s : Typing) : Sim T s EqR (Small.posBody n) (Small.posBody (blur T.next n)) := by
  cases n with
  | wrapped a k p => cases k <;> (simp only [blur, Small.posBody]; sq)
  | value v => cases v <;> (simp only [blur, blurVal, Small.posBody]; sq)
  | «repeated» a t => cases t <;> exact Sim.panic
  | option | oneof | map | builtin | mapItem => simp only [blur, Small.posBody]; sq

theorem lastFile_blur (N : Nat) : (l : List Node) → Small.lastFile (l.map (blur N)) = Small.lastFile l
  | [] => rfl
  | [n] => by
    cases n with
    | wrapped a k p => cases k <;> rfl
    | «repeated» a t => cases t <;> rfl
    | _ => rfl
  | _ :: b :: rest => by
    have := lastFile_blur N (b :: rest)
    simp only [List.map_cons, Small.lastFile] at this ⊢
    exact this

theorem Shows.lastFile : (l : List Node) → Shows T (Small.lastFile l)
  | [] => fun _ => Sim.panic
  | [n] => by
    intro s
    cases n with
    | wrapped a k p => cases k <;> first | exact Sim.pure rfl | exact Sim.panic
    | _ => exact Sim.panic
  | _ :: b :: rest => by
    have := Shows.lastFile (b :: rest)
    rw [Small.lastFile]
    exact this

theorem Shows.fileName (p) : Shows T (File.name p) := by intro s; unfold File.name; sq
macro_rules | `(tactic| sq_lemma) => `(tactic| with_reducible exact Shows.fileName _ _)

theorem posDefer_sim (fuel : Nat) {n : Node} {s : Typing} (hn : Typed T s n) (x : Position) :
    Sim T s EqR (Small.posDefer fuel n x) (Small.posDefer fuel (blur T.next n) x) := by
  unfold Small.posDefer
  split
  · exact Sim.pure rfl
  · refine Sim.bind (nodeHierarchy_sim fuel s (some n) _ (NodeR.some ⟨rfl, hn⟩)) ?_
    rintro s1 l _ - ⟨rfl, -⟩
    rw [lastFile_blur]
    refine Sim.bindEq (Shows.lastFile _ _) fun s2 p => ?_
    sq

theorem posBody_calm (n : Node) (e : Panic) : Spoils e → static T (Small.posBody n) ≠ .panic e := by
  rintro h he
  have hp : ∀ p, static T (Small.elemPos p) ≠ .panic e := by
    intro p h'
    unfold Small.elemPos at h'
    rw [static_read] at h'
    split at h' <;> cases h'
    rcases h with h | h <;> cases h
  have hf : ∀ p, static T (Small.filePos p) ≠ .panic e := by
    intro p h'
    unfold Small.filePos at h'
    rw [static_read] at h'
    split at h' <;> cases h'
    rcases h with h | h <;> cases h
  cases n with
  | wrapped a k p => cases k <;> first | exact hp _ he | exact hf _ he
  | value v => cases v <;> cases he <;> (rcases h with h | h <;> cases h)
  | «repeated» a t => cases he; rcases h with h | h <;> cases h
  | builtin => cases he; rcases h with h | h <;> cases h
  | mapItem => cases he; rcases h with h | h <;> cases h
  | option | oneof | map => exact hp _ he

theorem pos_sim (fuel : Nat) {n : Node} {s : Typing} (hn : Typed T s n) :
    Sim T s EqR (Small.pos fuel n) (Small.pos fuel (blur T.next n)) := by
  unfold Small.pos
  unfold Sim
  rw [static_handle]
  have hb := posBody_sim (T := T) n s
  cases hs : static T (Small.posBody (blur T.next n)) with
  | ok y =>
    unfold Sim at hb
    rw [hs] at hb
    refine Runs.handle hb ?_ ?_ ?_ ?_
    · intro s1 x h1 hx
      have hx : x = y := hx
      subst hx
      exact posDefer_sim fuel (hn.mono h1) x
    · exact fun _ _ _ hx => hx.elim
    · exact fun _ _ hx => hx.elim
    · exact fun _ _ _ _ hx => hx.elim
  | panic e =>
    unfold Sim at hb
    rw [hs] at hb
    refine Runs.handle hb ?_ ?_ ?_ ?_
    · exact fun _ _ _ hx => hx.elim
    · intro s1 e' h1 hx
      have hx : e' = e := hx
      subst hx
      exact Sim.bind (posDefer_sim fuel (hn.mono h1) {}) fun s2 _ _ _ _ => Sim.panic
    · exact fun _ _ hx => hx.elim
    · intro s1 e' _ h2 hx
      have hx : e' = e := hx
      subst hx
      exact absurd hs (posBody_calm _ _ h2)
  | timeout =>
    unfold Sim at hb
    rw [hs] at hb
    refine Runs.handle hb ?_ ?_ ?_ ?_
    · exact fun _ _ _ hx => hx.elim
    · exact fun _ _ _ hx => hx.elim
    · exact fun _ _ hx => hx
    · exact fun _ _ _ _ hx => hx.elim

theorem typeIsDefined_sim (s n ref) : Sim T s EqR (Small.typeIsDefined n ref) (Small.typeIsDefined (blur T.next n) ref) := by
  have e : Small.typeIsDefined (blur T.next n) ref = Small.typeIsDefined n ref := by
    cases n with
    | «repeated» a t => cases t <;> rfl
    | wrapped a k p => cases k <;> rfl
    | _ => rfl
  rw [e]
  unfold Small.typeIsDefined
  sq

theorem goPackageOption_blur (N n) : Small.goPackageOption (blur N n) = Small.goPackageOption n := by
  cases n with
  | «repeated» a t => cases t <;> rfl
  | _ => rfl
theorem Shows.goPackageOption (n) : Shows T (Small.goPackageOption n) := by intro s; unfold Small.goPackageOption; sq
macro_rules | `(tactic| sq_lemma) => `(tactic| with_reducible exact Shows.goPackageOption _ _)
theorem Shows.optionName (a b c) : Shows T (Option.name a b c) := by intro s; unfold Option.name; sq
macro_rules | `(tactic| sq_lemma) => `(tactic| with_reducible exact Shows.optionName _ _ _ _)

theorem Shows.optionIs (f nm) : Shows T (Option.is f nm) := by
  intro s
  unfold Option.is
  refine Sim.bind (wrap_sim _ _) ?_
  rintro s1 x _ - ⟨rfl, -⟩
  cases x with
  | none => exact Sim.pure rfl
  | some n =>
    simp only [Option.map_some, nodeIndex_blur]
    exact Sim.bindEq (Shows.nodeIndex _ _) fun s2 x => Sim.pure rfl

theorem goPackageBody_sim (s : Typing) (st) {x y : Option Node} (h : OptR T s x y) :
    Sim T s EqR (Small.goPackageBody st x) (Small.goPackageBody st y) := by
  obtain ⟨rfl, -⟩ := h
  cases x with
  | none => exact Sim.pure rfl
  | some n =>
    cases n with
    | option a p c f =>
      simp only [Option.map_some, blur, Small.goPackageBody]
      refine Sim.bindEq (Shows.optionName _ _ _ _) fun s2 x => ?_
      split
      · exact Sim.pure rfl
      · have e : Small.goPackageOption (.option (min a T.next) p c f) = Small.goPackageOption (.option a p c f) := rfl
        rw [e]
        exact Sim.bindEq (Shows.goPackageOption _ _) fun s2 x => Sim.pure rfl
    | «repeated» a t => cases t <;> exact Sim.pure rfl
    | _ => exact Sim.pure rfl

theorem goPackage_sim (s n) : Sim T s EqR (Small.goPackage n) (Small.goPackage (blur T.next n)) := by
  unfold Small.goPackage
  refine Sim.bind (nodeFile_sim s n) ?_
  rintro s1 x _ - ⟨⟨rfl, -⟩, hw⟩
  cases x with
  | none => exact Sim.pure rfl
  | some f =>
    obtain ⟨a, p, rfl⟩ := hw f rfl
    simp only [Option.map_some, blur]
    refine Sim.bindEq ?_ fun s2 x => ?_
    · refine Sim.bind (everything_sim _ _ _) fun s2 l1 l2 _ h => ?_
      exact Sim.runSteps (R := OptR T) (fun s st x y h => goPackageBody_sim s st h) h _ _
    · sq

theorem reservedValues_sim (s p) : Sim T s (Steps T EqR) (Reserved.values p) (Reserved.values p) := by
  unfold Reserved.values
  refine Sim.read (by pfronts) fun s' _ => ?_
  split
  · refine Sim.pure ?_
    exact (AllRel.of_eq (fun _ _ => Sim.pure rfl) _).append (AllRel.of_eq (fun _ _ => Sim.pure rfl) _)
  · exact Sim.panic

theorem Shows.reserved (p) : Shows T (do
    let l ← Reserved.values p
    let vs ← collectSteps l
    Pure.pure (AttrVal.reserved vs)) := by
  intro s
  refine Sim.bind (reservedValues_sim _ _) fun s1 l1 l2 _ h => ?_
  refine Sim.bind (Sim.collectSteps h _) ?_
  rintro s2 x _ - rfl
  exact Sim.pure rfl

theorem attr_sim (s) (a : Attr) (n : Node) : Sim T s EqR (Attr.read a n) (Attr.read a (blur T.next n)) := by
  have one : ∀ {α : Type} {s : Typing} {m m' : P α} {f : α → AttrVal}, Sim T s EqR m m' →
      Sim T s EqR (m >>= fun x => Pure.pure (f x)) (m' >>= fun x => Pure.pure (f x)) := by
    intro α s m m' f h
    refine Sim.bind h ?_
    rintro s1 x _ - rfl
    exact Sim.pure rfl
  cases a
  case index => exact one (Sim.same (nodeIndex_blur _ _) (Shows.nodeIndex _))
  case description => exact one (nodeDescription_sim _ _)
  case comment => exact one (Sim.same (comment_blur _ _) (Shows.comment _))
  case typeName => exact one (typeName_sim _ _)
  all_goals
    cases n with
    | wrapped a k p =>
      cases k
      all_goals first
        | exact Sim.pure rfl
        | exact Shows.reserved _ _
        | (refine one ?_
           smallp
           sq)
    | «repeated» a t => cases t <;> exact Sim.pure rfl
    | _ => exact Sim.pure rfl

/-! ### Calls -/

/-- Replies. -/
def ReplyR (T : Reg) (s : Typing) (x y : Reply) : Prop := NodesR T s x.1 y.1 ∧ x.2 = y.2

theorem OptR.toList {s x y} (h : OptR T s x y) : NodesR T s x.toList y.toList := by
  obtain ⟨rfl, hd⟩ := h
  cases x with
  | none => exact ⟨rfl, fun n h => by cases h⟩
  | some n => exact ⟨rfl, fun m hm => by cases List.mem_singleton.mp hm; exact hd n rfl⟩

theorem NodeR.single {s x y} (h : NodeR T s x y) : NodesR T s [x] [y] := h.some.toList

theorem NodesR.nil {s} : NodesR T s [] [] := ⟨rfl, fun n h => by cases h⟩

theorem parts_blur (N : Nat) (v : OptVal) : (blurVal N v).parts = v.parts.map (blur N) := by
  have h1 : ∀ vs : List OptVal, (blurVals N vs).map Node.value = (vs.map Node.value).map (blur N) := by
    intro vs
    induction vs with
    | nil => rfl
    | cons v vs ih => simp only [blurVals, List.map_cons, ih, blur]
  have h2 : ∀ vs : List (Str × OptVal), (blurItems N vs).map (fun kv => Node.mapItem kv.1 kv.2) =
      (vs.map fun kv => Node.mapItem kv.1 kv.2).map (blur N) := by
    intro vs
    induction vs with
    | nil => rfl
    | cons v vs ih => rcases v with ⟨k, v⟩; simp only [blurItems, blurItem, List.map_cons, ih, blur]
  cases v <;> simp only [blurVal, OptVal.parts, List.map_nil] <;> first | rfl | exact h1 _ | exact h2 _

theorem parts_typed (T : Reg) (s : Typing) (v : OptVal) : ∀ n ∈ v.parts, Typed T s n := by
  intro n hn
  cases v <;> simp only [OptVal.parts, List.mem_map, List.not_mem_nil, List.mem_singleton] at hn
  · subst hn; trivial
  · obtain ⟨_, _, rfl⟩ := hn; trivial
  · obtain ⟨_, _, rfl⟩ := hn; trivial

theorem Sim.handle1 {α : Type} {s : Typing} {m m' : P α} {R : Typing → α → α → Prop} {f g : α → Reply} (h : Sim T s R m m')
    (hfg : ∀ s x y, R s x y → ReplyR T s (f x) (g y)) :
    Sim T s (ReplyR T) (m >>= fun x => Pure.pure (f x)) (m' >>= fun x => Pure.pure (g x)) :=
  Sim.bind h fun _ x y _ e => Sim.pure (hfg _ x y e)

theorem Sim.answer {α : Type} {s : Typing} {m m' : P α} {f : α → Answer} (h : Sim T s EqR m m') :
    Sim T s (ReplyR T) (m >>= fun x => Pure.pure (([] : List Node), f x)) (m' >>= fun x => Pure.pure (([] : List Node), f x)) :=
  Sim.handle1 h fun _ x y e => by
    have e : x = y := e
    subst e
    exact ⟨NodesR.nil, rfl⟩

theorem Sim.nodes {s : Typing} {m m' : P (Option Node)} (h : Sim T s (OptR T) m m') :
    Sim T s (ReplyR T) (m >>= fun x => Pure.pure (x.toList, Answer.nothing)) (m' >>= fun x => Pure.pure (x.toList, Answer.nothing)) :=
  Sim.handle1 h fun _ _ _ e => ⟨e.toList, rfl⟩

theorem Sim.nothing {s : Typing} : Sim T s (ReplyR T) (Pure.pure (([] : List Node), Answer.nothing)) (Pure.pure ([], .nothing)) :=
  Sim.pure ⟨NodesR.nil, rfl⟩

theorem plainCall_sim {s : Typing} {n : Node} (hn : Typed T s n) (q : PlainQ) :
    Sim T s (ReplyR T) (plainCall q n) (plainCall q (blur T.next n)) := by
  cases q
  case fieldType =>
    cases n with
    | wrapped a k p =>
      cases k
      case messageField => exact Sim.nodes (fieldType_sim hn)
      all_goals exact Sim.nothing
    | «repeated» a t => cases t <;> exact Sim.nothing
    | _ => exact Sim.nothing
  case branchType =>
    cases n with
    | wrapped a k p =>
      cases k
      case oneofBranch => exact Sim.nodes (branchType_sim _ _)
      all_goals exact Sim.nothing
    | «repeated» a t => cases t <;> exact Sim.nothing
    | _ => exact Sim.nothing
  case methodInput =>
    cases n with
    | wrapped a k p =>
      cases k
      case method => exact Sim.handle1 (methodInput_sim _ _) fun _ _ _ e => ⟨e.2.single, congrArg Answer.flag e.1⟩
      all_goals exact Sim.nothing
    | «repeated» a t => cases t <;> exact Sim.nothing
    | _ => exact Sim.nothing
  case methodOutput =>
    cases n with
    | wrapped a k p =>
      cases k
      case method => exact Sim.handle1 (methodOutput_sim _ _) fun _ _ _ e => ⟨e.2.single, congrArg Answer.flag e.1⟩
      all_goals exact Sim.nothing
    | «repeated» a t => cases t <;> exact Sim.nothing
    | _ => exact Sim.nothing
  case mapKey =>
    cases n with
    | map a p => exact Sim.handle1 (mapKey_sim _ _) fun _ _ _ e => ⟨e.single, rfl⟩
    | «repeated» a t => cases t <;> exact Sim.nothing
    | _ => exact Sim.nothing
  case mapValue =>
    cases n with
    | map a p => exact Sim.handle1 (mapValue_sim _ _) fun _ _ _ e => ⟨e.single, rfl⟩
    | «repeated» a t => cases t <;> exact Sim.nothing
    | _ => exact Sim.nothing
  case repeatedElem =>
    cases n with
    | «repeated» a t =>
      cases t with
      | none => exact Sim.nothing
      | some t => exact Sim.pure ⟨NodeR.single ⟨rfl, hn⟩, rfl⟩
    | _ => exact Sim.nothing
  case optionValue F =>
    cases n with
    | option a p c f =>
      exact Sim.handle1 (optionValue_sim _ _ _ _) fun _ x y e =>
        ⟨NodeR.single ⟨by have e : y = _ := e; subst e; rfl, trivial⟩, rfl⟩
    | «repeated» a t => cases t <;> exact Sim.nothing
    | _ => exact Sim.nothing
  case valueParts =>
    cases n with
    | value v => exact Sim.pure ⟨⟨parts_blur _ _, parts_typed _ _ _⟩, rfl⟩
    | mapItem k v => exact Sim.pure ⟨NodeR.single ⟨rfl, trivial⟩, rfl⟩
    | «repeated» a t => cases t <;> exact Sim.nothing
    | _ => exact Sim.nothing
  case parent => exact Sim.nodes (nodeParent_sim _ _)
  case hierarchy fuel =>
    exact Sim.handle1 (nodeHierarchy_sim fuel s (some n) _ (NodeR.some ⟨rfl, hn⟩)) fun _ _ _ e => ⟨e, rfl⟩
  case file => exact Sim.nodes ((nodeFile_sim s n).mono fun _ _ _ _ h => h.1)
  case pos fuel => exact Sim.answer (pos_sim fuel hn)
  case index =>
    have hall : Sim T s (ReplyR T) (Attr.read .index n >>= fun x => Pure.pure (([] : List Node), Answer.attr x))
        (Attr.read .index (blur T.next n) >>= fun x => Pure.pure ([], .attr x)) := Sim.answer (attr_sim _ _ _)
    cases n with
    | wrapped a k p =>
      cases k
      case file => exact Sim.bindEq (Shows.nodeIndex _ _) fun _ _ => Sim.nothing
      all_goals exact hall
    | «repeated» a t => cases t <;> exact hall
    | _ => exact hall
  case description => exact Sim.answer (attr_sim _ _ _)
  case comment => exact Sim.answer (attr_sim _ _ _)
  case typeName => exact Sim.answer (attr_sim _ _ _)
  case typeIsDefined ref => exact Sim.answer (typeIsDefined_sim _ _ _)
  case goPackage => exact Sim.answer (goPackage_sim _ _)
  case goPackageOption => exact Sim.answer (Sim.same (goPackageOption_blur _ _) (Shows.goPackageOption _))
  case optionIs nm =>
    cases n with
    | option a p c f => exact Sim.answer (Shows.optionIs _ _ _)
    | «repeated» a t => cases t <;> exact Sim.nothing
    | _ => exact Sim.nothing
  case optionName =>
    cases n with
    | option a p c f => exact Sim.answer (Shows.optionName _ _ _ _)
    | «repeated» a t => cases t <;> exact Sim.nothing
    | _ => exact Sim.nothing
  all_goals exact Sim.answer (attr_sim _ _ _)

theorem nth_node {s : Typing} {q q' : Seq Node} (h : Sim T s (Steps T (NodeR T)) q q') (i : Nat) :
    Sim T s (OptR T) (q.nth i) (q'.nth i) :=
  (Sim.nth h i).mono fun s x y _ e => by
    cases e with
    | none => exact OptR.none
    | some e => exact e.some

theorem nth_flat {s : Typing} {q q' : Seq (Option Node)} (h : Sim T s (Steps T (OptR T)) q q') (i : Nat) :
    Sim T s (OptR T) (q.nth i >>= fun x => Pure.pure (flatOpt x)) (q'.nth i >>= fun x => Pure.pure (flatOpt x)) :=
  Sim.bind (Sim.nth h i) fun s x y _ e => by
    cases e with
    | none => exact Sim.pure OptR.none
    | some e => exact Sim.pure e

theorem iter_sim (s : Typing) (q : IterQ) (n : Node) (i : Nat) :
    Sim T s (OptR T) (IterQ.run q n i) (IterQ.run q (blur T.next n) i) := by
  cases q
  case options => exact Sim.bind (options_sim _ _) fun s q q' _ h => nth_node (h s) i
  case fileImports =>
    cases n with
    | wrapped a k p =>
      cases k
      case file => exact nth_node (fileImports_sim _ _) i
      all_goals exact Sim.pure OptR.none
    | «repeated» a t => cases t <;> exact Sim.pure OptR.none
    | _ => exact Sim.pure OptR.none
  case fileMessages =>
    cases n with
    | wrapped a k p =>
      cases k
      case file => exact nth_node (fileMessages_sim _ _) i
      all_goals exact Sim.pure OptR.none
    | «repeated» a t => cases t <;> exact Sim.pure OptR.none
    | _ => exact Sim.pure OptR.none
  case fileEnums =>
    cases n with
    | wrapped a k p =>
      cases k
      case file => exact nth_node (fileEnums_sim _ _) i
      all_goals exact Sim.pure OptR.none
    | «repeated» a t => cases t <;> exact Sim.pure OptR.none
    | _ => exact Sim.pure OptR.none
  case fileTypes =>
    cases n with
    | wrapped a k p =>
      cases k
      case file => exact nth_node (fileTypes_sim _ _) i
      all_goals exact Sim.pure OptR.none
    | «repeated» a t => cases t <;> exact Sim.pure OptR.none
    | _ => exact Sim.pure OptR.none
  case fileServices =>
    cases n with
    | wrapped a k p =>
      cases k
      case file => exact nth_node (fileServices_sim _ _) i
      all_goals exact Sim.pure OptR.none
    | «repeated» a t => cases t <;> exact Sim.pure OptR.none
    | _ => exact Sim.pure OptR.none
  case messageFields =>
    cases n with
    | wrapped a k p =>
      cases k
      case message => exact nth_node (messageFields_sim _ _) i
      all_goals exact Sim.pure OptR.none
    | «repeated» a t => cases t <;> exact Sim.pure OptR.none
    | _ => exact Sim.pure OptR.none
  case messageMessages =>
    cases n with
    | wrapped a k p =>
      cases k
      case message => exact nth_node (messageMessages_sim _ _) i
      all_goals exact Sim.pure OptR.none
    | «repeated» a t => cases t <;> exact Sim.pure OptR.none
    | _ => exact Sim.pure OptR.none
  case messageTypes =>
    cases n with
    | wrapped a k p =>
      cases k
      case message => exact nth_node (messageTypes_sim _ _) i
      all_goals exact Sim.pure OptR.none
    | «repeated» a t => cases t <;> exact Sim.pure OptR.none
    | _ => exact Sim.pure OptR.none
  case enumValues =>
    cases n with
    | wrapped a k p =>
      cases k
      case enum => exact nth_node (enumValues_sim _ _) i
      all_goals exact Sim.pure OptR.none
    | «repeated» a t => cases t <;> exact Sim.pure OptR.none
    | _ => exact Sim.pure OptR.none
  case enumEnums =>
    cases n with
    | wrapped a k p =>
      cases k
      case enum => exact nth_node (enumEnums_sim _ _) i
      all_goals exact Sim.pure OptR.none
    | «repeated» a t => cases t <;> exact Sim.pure OptR.none
    | _ => exact Sim.pure OptR.none
  case oneofBranches =>
    cases n with
    | oneof a p => exact nth_node (oneofBranches_sim _ _) i
    | «repeated» a t => cases t <;> exact Sim.pure OptR.none
    | _ => exact Sim.pure OptR.none
  case serviceMethods =>
    cases n with
    | wrapped a k p =>
      cases k
      case service => exact nth_node (serviceMethods_sim _ _) i
      all_goals exact Sim.pure OptR.none
    | «repeated» a t => cases t <;> exact Sim.pure OptR.none
    | _ => exact Sim.pure OptR.none
  case methodOptions =>
    cases n with
    | wrapped a k p =>
      cases k
      case method => exact nth_node (methodOptions_sim _ _) i
      all_goals exact Sim.pure OptR.none
    | «repeated» a t => cases t <;> exact Sim.pure OptR.none
    | _ => exact Sim.pure OptR.none
  case fileEverything =>
    cases n with
    | wrapped a k p =>
      cases k
      case file => exact nth_flat (everything_sim _ _ _) i
      all_goals exact Sim.pure OptR.none
    | «repeated» a t => cases t <;> exact Sim.pure OptR.none
    | _ => exact Sim.pure OptR.none
  case messageEverything =>
    cases n with
    | wrapped a k p =>
      cases k
      case message => exact nth_flat (everything_sim _ _ _) i
      all_goals exact Sim.pure OptR.none
    | «repeated» a t => cases t <;> exact Sim.pure OptR.none
    | _ => exact Sim.pure OptR.none
  case enumEverything =>
    cases n with
    | wrapped a k p =>
      cases k
      case enum => exact nth_flat (everything_sim _ _ _) i
      all_goals exact Sim.pure OptR.none
    | «repeated» a t => cases t <;> exact Sim.pure OptR.none
    | _ => exact Sim.pure OptR.none
  case serviceEverything =>
    cases n with
    | wrapped a k p =>
      cases k
      case service => exact nth_flat (everything_sim _ _ _) i
      all_goals exact Sim.pure OptR.none
    | «repeated» a t => cases t <;> exact Sim.pure OptR.none
    | _ => exact Sim.pure OptR.none

theorem fileType_sim (s p n) : Sim T s (OptR T) (File.type p n) (File.type p n) := by
  unfold File.type
  refine Sim.read (by pfronts) fun s' _ => ?_
  split
  · split <;> exact Sim.some (Sim.wrapNode _ _)
  · exact Sim.pure OptR.none
theorem messageType_sim (s p n) : Sim T s (OptR T) (Message.type p n) (Message.type p n) := by
  unfold Message.type
  refine Sim.read (by pfronts) fun s' _ => ?_
  split
  · split <;> exact Sim.some (Sim.wrapNode _ _)
  · exact Sim.pure OptR.none

theorem named_sim (s : Typing) (q : NamedQ) (n : Node) (nm : Str) :
    Sim T s (OptR T) (NamedQ.run q n nm) (NamedQ.run q (blur T.next n) nm) := by
  cases q
  case optionNamed => exact optionNamed_sim _ _ _
  case fileMessage =>
    cases n with
    | wrapped a k p =>
      cases k
      case file => exact (by unfold File.message; exact firstKid_sim _ _ _ _ : Sim T s (OptR T) (File.message p nm) (File.message p nm))
      all_goals exact Sim.pure OptR.none
    | «repeated» a t => cases t <;> exact Sim.pure OptR.none
    | _ => exact Sim.pure OptR.none
  case fileEnum =>
    cases n with
    | wrapped a k p =>
      cases k
      case file => exact (by unfold File.enum; exact firstKid_sim _ _ _ _ : Sim T s (OptR T) (File.enum p nm) (File.enum p nm))
      all_goals exact Sim.pure OptR.none
    | «repeated» a t => cases t <;> exact Sim.pure OptR.none
    | _ => exact Sim.pure OptR.none
  case fileService =>
    cases n with
    | wrapped a k p =>
      cases k
      case file => exact (by unfold File.service; exact firstKid_sim _ _ _ _ : Sim T s (OptR T) (File.service p nm) (File.service p nm))
      all_goals exact Sim.pure OptR.none
    | «repeated» a t => cases t <;> exact Sim.pure OptR.none
    | _ => exact Sim.pure OptR.none
  case messageField =>
    cases n with
    | wrapped a k p =>
      cases k
      case message => exact (by unfold Message.field; exact firstKid_sim _ _ _ _ : Sim T s (OptR T) (Message.field p nm) (Message.field p nm))
      all_goals exact Sim.pure OptR.none
    | «repeated» a t => cases t <;> exact Sim.pure OptR.none
    | _ => exact Sim.pure OptR.none
  case messageMessage =>
    cases n with
    | wrapped a k p =>
      cases k
      case message => exact (by unfold Message.message; exact firstKid_sim _ _ _ _ : Sim T s (OptR T) (Message.message p nm) (Message.message p nm))
      all_goals exact Sim.pure OptR.none
    | «repeated» a t => cases t <;> exact Sim.pure OptR.none
    | _ => exact Sim.pure OptR.none
  case enumValue =>
    cases n with
    | wrapped a k p =>
      cases k
      case enum => exact (by unfold Enum.value; exact firstKid_sim _ _ _ _ : Sim T s (OptR T) (Enum.value p nm) (Enum.value p nm))
      all_goals exact Sim.pure OptR.none
    | «repeated» a t => cases t <;> exact Sim.pure OptR.none
    | _ => exact Sim.pure OptR.none
  case enumEnum =>
    cases n with
    | wrapped a k p =>
      cases k
      case enum => exact (by unfold Enum.enum; exact firstKid_sim _ _ _ _ : Sim T s (OptR T) (Enum.enum p nm) (Enum.enum p nm))
      all_goals exact Sim.pure OptR.none
    | «repeated» a t => cases t <;> exact Sim.pure OptR.none
    | _ => exact Sim.pure OptR.none
  case oneofBranch =>
    cases n with
    | oneof a p => exact (by unfold OneOf.branch; exact firstKid_sim _ _ _ _ : Sim T s (OptR T) (OneOf.branch p nm) (OneOf.branch p nm))
    | «repeated» a t => cases t <;> exact Sim.pure OptR.none
    | _ => exact Sim.pure OptR.none
  case serviceMethod =>
    cases n with
    | wrapped a k p =>
      cases k
      case service => exact (by unfold Service.method; exact firstKid_sim _ _ _ _ : Sim T s (OptR T) (Service.method p nm) (Service.method p nm))
      all_goals exact Sim.pure OptR.none
    | «repeated» a t => cases t <;> exact Sim.pure OptR.none
    | _ => exact Sim.pure OptR.none
  case fileType =>
    cases n with
    | wrapped a k p =>
      cases k
      case file => exact fileType_sim _ _ _
      all_goals exact Sim.pure OptR.none
    | «repeated» a t => cases t <;> exact Sim.pure OptR.none
    | _ => exact Sim.pure OptR.none
  case messageType =>
    cases n with
    | wrapped a k p =>
      cases k
      case message => exact messageType_sim _ _ _
      all_goals exact Sim.pure OptR.none
    | «repeated» a t => cases t <;> exact Sim.pure OptR.none
    | _ => exact Sim.pure OptR.none

theorem queryCall_sim {s : Typing} {n : Node} (hn : Typed T s n) (q : Query) :
    Sim T s (ReplyR T) (queryCall q n) (queryCall q (blur T.next n)) := by
  cases q with
  | iter q i => exact Sim.nodes (iter_sim _ _ _ _)
  | named q nm => exact Sim.nodes (named_sim _ _ _ _)
  | plain q => exact plainCall_sim hn q

/-- A call that loads nothing, among others of this kind. -/
theorem call_sim {s : Typing} {pool : List Node} (hp : ∀ n ∈ pool, Typed T s n) {op : Op} (hl : Protoast.Quiet.Loaded' T op) :
    Sim T s (ReplyR T) (call pool op) (call (pool.map (blur T.next)) op) := by
  cases op with
  | proto W fuel path =>
    obtain ⟨i, hi⟩ := Option.isSome_iff_exists.mp hl
    have hp : Sim T s (fun s x y => ∃ n m, x = .ok n ∧ y = .ok m ∧ NodeR T s n m) (Small.proto W fuel path) (Small.proto W fuel path) := by
      unfold Small.proto
      refine Sim.get fun s' r _ hr => ?_
      rw [hr.front.protos, hi]
      dsimp only
      refine Sim.bind (R := NodeR T) ?_ fun _ x y _ h => Sim.pure ⟨x, y, rfl, rfl, h⟩
      exact Sim.alloc fun s3 a h3 ha => ⟨⟨0, []⟩, Sim.pure ⟨by simp [blur, min_next ha], trivial⟩⟩
    refine Sim.bind hp ?_
    rintro s1 _ _ - ⟨n, m, rfl, rfl, h⟩
    exact Sim.pure ⟨h.single, rfl⟩
  | byName nm => exact Sim.nodes (nodeByFullName_sim _ _)
  | query h q =>
    simp only [call, List.getElem?_map]
    cases hn : pool[h]? with
    | none => exact Sim.nothing
    | some n => exact queryCall_sim (hp n (List.mem_of_getElem? hn)) q

end Protoast.Small.Crowd
