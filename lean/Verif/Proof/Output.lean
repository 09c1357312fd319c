import Verif.Proof.Settings
import Verif.Model.Output
/-
  Keeping the printed lines changes nothing else: the programs that print (Model/Output.lean) end as those that collect
  their lines in the state (Model/Readme.lean, Model/QuickStart.lean).
-/
namespace Protoast

theorem Out.pure_apply {L α : Type} (a : α) (r : Reg) : (Pure.pure a : Out L α) r = ([], (.ok a, r)) := rfl

theorem Out.bind_apply {L α β : Type} (m : Out L α) (f : α → Out L β) (r : Reg) :
    (m >>= f) r = match m r with
      | (ls, (.ok a, r')) => (ls ++ (f a r').1, (f a r').2)
      | (ls, (.panic p, r')) => (ls, (.panic p, r'))
      | (ls, (.timeout, r')) => (ls, (.timeout, r')) := rfl

theorem Out.call_apply {L α : Type} (m : M α) (r : Reg) : (Out.call m : Out L α) r = ([], m r) := rfl

theorem Out.say_apply {L : Type} (l : L) (r : Reg) : Out.say l r = ([l], (.ok (), r)) := rfl

/-- `b`, started with the lines `acc`, ends as `m` does and adds to `acc` the lines that `m` prints. -/
def Writes {L β γ : Type} (m : Out L β) (b : List L → M γ) (R : β → List L → γ) : Prop :=
  ∀ r acc, b acc r = match m r with
    | (ls, (.ok x, r')) => (.ok (R x (acc ++ ls)), r')
    | (_, (.panic p, r')) => (.panic p, r')
    | (_, (.timeout, r')) => (.timeout, r')

theorem Writes.ret {L β γ : Type} {R : β → List L → γ} {b : List L → M γ} (x : β) (hb : ∀ acc, b acc = pure (R x acc)) :
    Writes (pure x : Out L β) b R := by
  intro r acc
  rw [hb]
  show _ = (Res.ok (R x (acc ++ [])), r)
  rw [List.append_nil]
  rfl

theorem Writes.fail {L β γ : Type} {R : β → List L → γ} (p : Panic) :
    Writes (Out.call (M.panic p)) (fun _ => (M.panic p : M γ)) R := by
  intro r acc
  rfl

theorem Writes.call {L α β γ : Type} {R : β → List L → γ} {c : M α} {k : α → Out L β} {k' : α → List L → M γ}
    (h : ∀ a, Writes (k a) (k' a) R) : Writes (Out.call c >>= k) (fun acc => c >>= fun a => k' a acc) R := by
  intro r acc
  simp only [Out.bind_apply, M.bind_apply, Out.call_apply]
  rcases c r with ⟨res, r'⟩
  cases res with
  | ok a =>
    simp only [h a r' acc, List.nil_append]
  | panic p => rfl
  | timeout => rfl

theorem Writes.say {L β γ : Type} {R : β → List L → γ} {l : L} {k : Unit → Out L β} {b : List L → M γ}
    (h : Writes (k ()) b R) : Writes (Out.say l >>= k) (fun acc => b (acc ++ [l])) R := by
  intro r acc
  simp only [Out.bind_apply, Out.say_apply, h r (acc ++ [l])]
  rcases k () r with ⟨ls, ⟨res, r2⟩⟩
  cases res <;> simp

theorem Writes.bind {L α β δ γ : Type} {Q : α → List L → δ} {R : β → List L → γ} {m : Out L α} {b : List L → M δ}
    {k : α → Out L β} {k' : δ → M γ} (hm : Writes m b Q) (h : ∀ a, Writes (k a) (fun acc => k' (Q a acc)) R) :
    Writes (m >>= k) (fun acc => b acc >>= k') R := by
  intro r acc
  simp only [Out.bind_apply, M.bind_apply, hm r acc]
  rcases m r with ⟨ls, ⟨res, r2⟩⟩
  cases res with
  | ok a =>
    have hk := h a r2 (acc ++ ls)
    simp only at hk ⊢
    rw [hk]
    rcases k a r2 with ⟨ls', ⟨res', r3⟩⟩
    cases res' <;> simp
  | panic p => rfl
  | timeout => rfl

theorem Writes.steps {L α σ τ : Type} {enc : σ → List L → τ} {body : σ → α → Out L (σ × Bool)}
    {body' : τ → α → M (τ × Bool)}
    (h : ∀ s a, Writes (body s a) (fun acc => body' (enc s acc) a) (fun x acc => (enc x.1 acc, x.2))) :
    ∀ ms s, Writes (Out.steps body ms s) (fun acc => runSteps body' ms (enc s acc)) enc := by
  intro ms
  induction ms with
  | nil => intro s; exact Writes.ret s fun _ => rfl
  | cons m ms ih =>
    intro s
    refine Writes.call (k' := fun a acc => body' (enc s acc) a >>= fun x => if x.2 then runSteps body' ms x.1 else Pure.pure x.1)
      fun a => Writes.bind (h s a) ?_
    rintro ⟨s', go⟩
    cases go with
    | true => simpa using ih s'
    | false => exact Writes.ret s' fun _ => rfl

theorem Writes.run {L α σ τ : Type} {enc : σ → List L → τ} {body : σ → α → Out L (σ × Bool)}
    {body' : τ → α → M (τ × Bool)} {seq : Seq α} {s : σ}
    (h : ∀ s a, Writes (body s a) (fun acc => body' (enc s acc) a) (fun x acc => (enc x.1 acc, x.2))) :
    Writes (seq.out body s) (fun acc => seq.run body' (enc s acc)) enc :=
  Writes.call (k' := fun ms acc => runSteps body' ms (enc s acc)) fun ms => Writes.steps h ms s

/-- How a program that prints ends, as the program that hands over its lines would have it. -/
def ending {L ε : Type} (x : List L × (Res (Except ε Unit) × Reg)) : Res (Except ε (List L)) × Reg :=
  match x with
  | (ls, (.ok (.ok ()), r)) => (.ok (.ok ls), r)
  | (_, (.ok (.error e), r)) => (.ok (.error e), r)
  | (_, (.panic p, r)) => (.panic p, r)
  | (_, (.timeout, r)) => (.timeout, r)

/-- The lines go with the success. -/
def report {L ε : Type} : Except ε Unit → List L → Except ε (List L)
  | .ok (), ls => .ok ls
  | .error e, _ => .error e

theorem Writes.ends {L ε : Type} {m : Out L (Except ε Unit)} {b : List L → M (Except ε (List L))}
    (h : Writes m b report) (r : Reg) : b [] r = ending (m r) := by
  rw [h r []]
  unfold ending report
  rcases m r with ⟨ls, ⟨res, r2⟩⟩
  cases res with
  | ok v => cases v with
    | ok u => cases u; rfl
    | error e => rfl
  | panic p => rfl
  | timeout => rfl

namespace QuickStart

/-- The state of the loops is the list of lines. -/
def lines (_ : Unit) (ls : List Line) : List Line := ls

theorem writes_option (F : FloatOps) (s : Unit) (n : Node) :
    Writes (sayOption F s n) (fun acc => printOption F (lines s acc) n) (fun x acc => (lines x.1 acc, x.2)) := by
  unfold sayOption printOption
  cases n with
  | option a q cls f =>
    exact Writes.call fun nm => Writes.call fun v => Writes.say (b := fun acc => pure (acc, true)) (Writes.ret ((), true) fun _ => rfl)
  | _ => exact Writes.fail _

theorem writes_field (m : Ptr) (s : Unit) (n : Node) :
    Writes (sayField m s n) (fun acc => printField m (lines s acc) n) (fun x acc => (lines x.1 acc, x.2)) := by
  rcases n with ⟨a, k, p⟩ | _ | _ | _
  · cases k
    case messageField =>
      exact Writes.call fun nm => Writes.call fun v =>
        Writes.say (b := fun acc => pure (acc, true)) (Writes.ret ((), true) fun _ => rfl)
    all_goals exact Writes.fail _
  all_goals exact Writes.fail _

theorem writes_message (s : Unit) (n : Node) :
    Writes (sayMessage s n) (fun acc => printMessage (lines s acc) n) (fun x acc => (lines x.1 acc, x.2)) := by
  rcases n with ⟨a, k, m⟩ | _ | _ | _
  · cases k
    case message =>
      refine Writes.call fun nm => Writes.say
        (b := fun acc => (Message.fields m).run (printField m) acc >>= fun ls => pure (ls, true)) ?_
      exact Writes.bind (Writes.run (enc := lines) fun s a => writes_field m s a) fun a =>
        Writes.ret ((), true) fun _ => rfl
    all_goals exact Writes.fail _
  all_goals exact Writes.fail _

/-- `show_`, started with some lines. -/
def showFrom (W : World) (fuel : Nat) (F : FloatOps) (path : Str) (acc : List Line) : M (Except Failure (List Line)) := do
  match ← proto W fuel path with
  | .error e => pure (.error (.noFile e))
  | .ok (.wrapped a .file f) => do
    let name ← File.name f
    let pkg ← File.package f
    let seq ← options (.wrapped a .file f)
    let lines ← seq.run (printOption F) (acc ++ [.file name pkg])
    let lines ← (File.messages f).run printMessage lines
    pure (.ok lines)
  | .ok _ => M.panic .illTyped

theorem showFrom_nil (W : World) (fuel : Nat) (F : FloatOps) (path : Str) : showFrom W fuel F path [] = show_ W fuel F path :=
  rfl

theorem writes_all (W : World) (fuel : Nat) (F : FloatOps) (path : Str) :
    Writes (sayAll W fuel F path) (showFrom W fuel F path) report := by
  unfold sayAll showFrom
  refine Writes.call fun v => ?_
  rcases v with e | n
  · exact Writes.ret _ fun _ => rfl
  · rcases n with ⟨a, k, m⟩ | _ | _ | _
    · cases k
      case file =>
        refine Writes.call fun nm => Writes.call fun pkg => Writes.say
          (b := fun acc => options (.wrapped a .file m) >>= fun seq => seq.run (printOption F) acc >>= fun ls =>
            (File.messages m).run printMessage ls >>= fun ls => pure (Except.ok ls)) ?_
        refine Writes.call fun seq => ?_
        refine Writes.bind (Writes.run (enc := lines) fun s a => writes_option F s a) fun _ => ?_
        refine Writes.bind (Writes.run (enc := lines) fun s a => writes_message s a) fun _ => ?_
        exact Writes.ret (Except.ok ()) fun _ => rfl
      all_goals exact Writes.fail _
    all_goals exact Writes.fail _

/-- The program ends as it did. -/
theorem main_ending (W : World) (fuel : Nat) (F : FloatOps) (path : Str) :
    QuickStart.main W fuel F path = ending (mainOut W fuel F path) := by
  unfold QuickStart.main mainOut
  rcases newRegistry W fuel with ⟨res, r⟩
  rcases res with v | p | _
  · rcases v with e | u
    · rfl
    · cases u
      have := (writes_all W fuel F path).ends r
      rw [showFrom_nil] at this
      exact this
  · rfl
  · rfl

end QuickStart

namespace Readme

/-- The state of the loop over the fields. -/
def flag (s : Bool) (ls : List Line) : Bool × List Line := (s, ls)

/-- The state of the loop over the methods. -/
def lines (_ : Unit) (ls : List Line) : List Line := ls

theorem writes_field (fuel : Nat) (sa : Nat) (sp : Ptr) (s : Bool) (n : Node) :
    Writes (sayField fuel sa sp s n) (fun acc => lintField fuel sa sp (flag s acc) n) (fun x acc => (flag x.1 acc, x.2)) := by
  rcases n with ⟨a, k, p⟩ | _ | _ | _
  · cases k
    case messageField =>
      unfold sayField lintField
      refine Writes.call fun t => ?_
      cases isStatus sa t
      · exact Writes.ret (s, true) fun _ => rfl
      · refine Writes.call fun nm => ?_
        by_cases hn : nm ≠ mainStatusField
        · rw [if_pos hn]
          simp only [if_pos hn]
          exact Writes.call fun x => Writes.call fun tn => Writes.say (b := fun acc => pure ((s, acc), true))
            (Writes.ret (s, true) fun _ => rfl)
        · rw [if_neg hn]
          simp only [if_neg hn]
          exact Writes.ret (true, true) fun _ => rfl
    all_goals exact Writes.fail _
  all_goals exact Writes.fail _

theorem writes_method (fuel : Nat) (sa : Nat) (sp : Ptr) (s : Unit) (n : Node) :
    Writes (sayMethod fuel sa sp s n) (fun acc => lintMethod fuel sa sp (lines s acc) n)
      (fun x acc => (lines x.1 acc, x.2)) := by
  rcases n with ⟨a, k, p⟩ | _ | _ | _
  · cases k
    case method =>
      unfold sayMethod lintMethod
      refine Writes.call fun out => ?_
      obtain ⟨st, resp⟩ := out
      cases st
      · refine Writes.call fun opt => ?_
        cases opt with
        | some o => exact Writes.ret ((), true) fun _ => rfl
        | none =>
          rcases resp with ⟨b, k, q⟩ | _ | _ | _
          · cases k
            case message =>
              refine Writes.bind (Writes.run (enc := flag) fun s a => writes_field fuel sa sp s a) fun d => ?_
              cases d
              · refine Writes.call fun x => Writes.call fun tn => Writes.call fun idx => Writes.say
                  (b := fun acc => pure (acc, true)) (Writes.ret ((), true) fun _ => rfl)
              · exact Writes.ret ((), true) fun _ => rfl
            all_goals exact Writes.fail _
          all_goals exact Writes.fail _
      · exact Writes.ret ((), true) fun _ => rfl
    all_goals exact Writes.fail _
  all_goals exact Writes.fail _

theorem writes_services (W : World) (fuel : Nat) (sa : Nat) (sp : Ptr) : ∀ svcs,
    Writes (sayServices W fuel sa sp svcs) (lintServices W fuel sa sp svcs) report := by
  intro svcs
  induction svcs with
  | nil => exact Writes.ret (Except.ok ()) fun _ => rfl
  | cons x rest ih =>
    obtain ⟨path, name⟩ := x
    intro r acc
    simp only [sayServices, sayService, lintServices, Out.bind_apply, M.bind_apply, Out.call_apply]
    rcases proto W fuel path r with ⟨res, r1⟩
    rcases res with v | p | _
    · rcases v with e | n
      · rfl
      · rcases n with ⟨a, k, f⟩ | _ | _ | _
        · cases k
          case file =>
            simp only [Out.bind_apply, M.bind_apply, Out.call_apply]
            rcases File.service f name r1 with ⟨res, r2⟩
            rcases res with v | p | _
            · rcases v with _ | n
              · rfl
              · rcases n with ⟨a, k, s⟩ | _ | _ | _
                · cases k
                  case service =>
                    have hw := Writes.run (seq := Service.methods s) (enc := lines) (s := ())
                      (fun s a => writes_method fuel sa sp s a) r2 acc
                    simp only [lines] at hw
                    simp only [Out.bind_apply, M.bind_apply, hw]
                    rcases (Service.methods s).out (sayMethod fuel sa sp) () r2 with ⟨ls, ⟨res, r3⟩⟩
                    rcases res with u | p | _
                    · have := ih r3 (acc ++ ls)
                      simp only [this, Out.pure_apply, List.nil_append, List.append_nil]
                      rcases sayServices W fuel sa sp rest r3 with ⟨ls', ⟨res', r4⟩⟩
                      cases res' <;> simp
                    · rfl
                    · rfl
                  all_goals rfl
                all_goals rfl
            · rfl
            · rfl
          all_goals rfl
        all_goals rfl
    · rfl
    · rfl

theorem lint_ending (W : World) (fuel : Nat) (svcs : List (Str × Str)) (r : Reg) :
    lint W fuel svcs r = ending (sayAll W fuel svcs r) := by
  simp only [lint, sayAll, Out.bind_apply, M.bind_apply, Out.call_apply]
  rcases proto W fuel mainStatusPath r with ⟨res, r1⟩
  rcases res with v | p | _
  · rcases v with e | n
    · rfl
    · rcases n with ⟨a, k, f⟩ | _ | _ | _
      · cases k
        case file =>
          simp only [Out.bind_apply, M.bind_apply, Out.call_apply]
          rcases File.message f mainStatusName r1 with ⟨res, r2⟩
          rcases res with v | p | _
          · rcases v with _ | n
            · rfl
            · rcases n with ⟨a, k, s⟩ | _ | _ | _
              · cases k
                case message =>
                  simp only [List.nil_append]
                  exact (writes_services W fuel a s svcs).ends r2
                all_goals rfl
              all_goals rfl
          · rfl
          · rfl
        all_goals rfl
      all_goals rfl
  · rfl
  · rfl

/-- The program ends as it did. -/
theorem main_ending (W : World) (fuel : Nat) : Readme.main W fuel = ending (mainOut W fuel services) := by
  unfold Readme.main mainOut
  rcases newRegistry W fuel with ⟨res, r⟩
  rcases res with v | p | _
  · rcases v with e | u
    · rfl
    · cases u
      exact mainServices_eq ▸ lint_ending W fuel mainServices r
  · rfl
  · rfl

end Readme
end Protoast
