import Verif.Ble

/-!
# What a user of a ch58x keyboard relies on
-/

namespace Verif.Ble

variable {R Ev Ctx PKS KS : Type}

/-- A task is due now or later. -/
def Pending (t : Task) (s : State R Ev Ctx PKS KS) : Prop := t ∈ s.events ∨ ∃ d, (t, d) ∈ s.timers

/-- The keyboard will look at its switches again: when a key is pressed, or sooner. -/
def Listening (s : State R Ev Ctx PKS KS) : Prop :=
  (s.irq = true ∧ s.mode = .interrupt) ∨ .wake ∈ s.events ∨ Pending .scan s ∨ Pending .tick s

/-- Everything that is due happens, after a time in which a tick becomes due. -/
def round : List Input :=
  .wait 12 :: [Task.wake, .scan, .timeout, .keyboard, .mouse, .consumer, .tick].map .expire ++ List.replicate 9 (.process true)

/-- No switch moves in the moment in which the keyboard goes to sleep. -/
def undisturbed (C : Cfg R Ev Ctx PKS KS) (n : Nat) (row : Nat → Nat) (rows : Nat) (s : State R Ev Ctx PKS KS) : List Input → Bool
  | [] => true
  | i :: is =>
    (match i with
      | .move _ => decide (s.pc = .idle)
      | _ => true) &&
    match s.step C n row rows i with
    | .ok s => undisturbed C n row rows s is
    | _ => true

/-- The keyboard reports among those that were sent. -/
def keyboards : List Sent → List (List Byte)
  | [] => []
  | .keyboard bytes :: es => bytes :: keyboards es
  | _ :: es => keyboards es

/-- The consumer reports among those that were sent. -/
def consumers : List Sent → List (List Byte)
  | [] => []
  | .consumer bytes :: es => bytes :: consumers es
  | _ :: es => consumers es

/-- The mouse reports among those that were sent. -/
def mice : List Sent → List MouseOutput
  | [] => []
  | .mouse m :: es => m :: mice es
  | _ :: es => mice es

/-- `ys` are elements of `xs` in their order; some may be skipped, some may be repeated. -/
def Follows {α : Type} (xs ys : List α) : Prop :=
  ∃ is : List Nat, is.Pairwise (· ≤ ·) ∧ ys.map some = is.map fun i => xs[i]?

/-- The report before the first. -/
def zero : CApi.HidReport := ⟨List.replicate 8 0, List.replicate 6 0, List.replicate 4 0, MouseOutput.none⟩

/-- The host has been sent the newest reports. -/
def Current (s : State R Ev Ctx PKS KS) : Prop :=
  (zero.keyboard :: keyboards s.sent).getLast? = ((zero :: s.made).map (·.keyboard)).getLast? ∧
  (zero.mouse :: mice s.sent).getLast? = ((zero :: s.made).map (·.mouse)).getLast? ∧
  (zero.consumer :: consumers s.sent).getLast? = ((zero :: s.made).map (·.consumer)).getLast?

/-- Every report the stack is asked to send is accepted. -/
def Accepted (is : List Input) : Prop := ∀ ok, Input.process ok ∈ is → ok = true

/-- The keyboard does everything as soon as it is due: when time passes, nothing is left to do and nothing becomes due before the end. -/
def prompt (C : Cfg R Ev Ctx PKS KS) (n : Nat) (row : Nat → Nat) (rows : Nat) (s : State R Ev Ctx PKS KS) : List Input → Bool
  | [] => true
  | i :: is =>
    (match i with
      | .wait 0 => true
      | .wait d => s.events.isEmpty && decide (s.pc = .idle) && s.timers.all fun x => s.clock + d ≤ x.2
      | _ => true) &&
    match s.step C n row rows i with
    | .ok s => prompt C n row rows s is
    | _ => true

/-- After some time, everything that is due happens. -/
def pass (time : Nat) : List Input :=
  .wait time :: [Task.wake, .scan, .timeout, .keyboard, .mouse, .consumer, .tick].map .expire ++ List.replicate 9 (.process true)

/-- The switches of some keys are closed, the others are opened; then time passes. -/
def hold (count : Nat) (keys : List Nat) (times : List Nat) : List Input :=
  .move ((List.range count).map fun k => decide (k ∈ keys)) :: times.flatMap pass

/-- No switch moves. -/
def Still (is : List Input) : Prop := ∀ closed, Input.move closed ∉ is

/-- The calls of the keymap's functions. -/
inductive Call where
  /-- `keymap_register_input_after_ms` -/
  | after (ms : Nat) (e : CApi.CEvent)
  /-- `keymap_register_input_event` -/
  | event (e : CApi.CEvent)
  /-- `keymap_tick` -/
  | tick
  /-- `keymap_next_event_timeout` -/
  | timeout

/-- The keymap and the reports it makes in some calls, the last report being kept in `report`. -/
def replay (C : Cfg R Ev Ctx PKS KS) (n : Nat) (km : KM R Ev Ctx PKS KS) (report : CApi.HidReport) :
    List Call → Res (KM R Ev Ctx PKS KS × List CApi.HidReport)
  | [] => .ok (km, [])
  | .after ms e :: cs => do
    let (km, r, _) ← CApi.registerInputAfterMs C n km ms e report
    let (km, rs) ← replay C n km r cs
    pure (km, r :: rs)
  | .event e :: cs => do
    let km ← CApi.registerInputEvent C n km e
    replay C n km report cs
  | .tick :: cs => do
    let (km, r) ← CApi.keymapTick C n km report
    let (km, rs) ← replay C n km r cs
    pure (km, r :: rs)
  | .timeout :: cs => do
    let (km, r, _) ← CApi.nextEventTimeout C n km report
    let (km, rs) ← replay C n km r cs
    pure (km, r :: rs)

/-- Which keys are pressed after some events; nothing if one of them presses a pressed key or releases a released one. -/
def pressedAfter (keys : List Bool) : List CApi.CEvent → Option (List Bool)
  | [] => some keys
  | e :: es =>
    if keys[e.value]? = some (decide (e.type ≠ .press)) then pressedAfter (keys.set e.value (decide (e.type = .press))) es else none

/-- The events among the calls. -/
def eventsOf : List Call → List CApi.CEvent
  | [] => []
  | .after _ e :: cs => e :: eventsOf cs
  | .event e :: cs => e :: eventsOf cs
  | _ :: cs => eventsOf cs

/-- The time, in ms, the keymap is told has passed, apart from the calls that have it skip to its next event. -/
def elapsed : List Call → Nat
  | [] => 0
  | .after ms _ :: cs => ms + elapsed cs
  | .tick :: cs => 8 + elapsed cs
  | _ :: cs => elapsed cs

end Verif.Ble
