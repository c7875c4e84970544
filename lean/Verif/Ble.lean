import Verif.CApi
import Verif.Firmware

/-!
# The event loop of the ch58x (Bluetooth) firmware

firmware/ch58x-ble-hid-keyboard-c/APP/hidkbd.c and keyboard/keyboard.c: sleeping until a key is pressed, scanning,
ticking the keymap and sending its reports.

TMOS, the scheduler of the Bluetooth library, is not part of the repository; it is modelled as its header
(sdk/BLE/LIB/CH58xBLE_LIB.h 2617-2646) documents it: `tmos_set_event` sets a bit, `tmos_start_task` sets it after a time (starting
a task again sets its time anew), and `HidEmu_ProcessEvent` is called with the bits that are set. When it is called is
left open: a time that has run out may be noticed late.

The events for messages, for starting the device and for the parameters of the connection (hidkbd.c 300-335) touch none
of the variables below and are left out.
-/

namespace Verif.Ble

/-- The events, hidkbd.h 34-40. -/
inductive Task where
  | wake | scan | timeout | keyboard | mouse | consumer | tick
  deriving DecidableEq, Repr

/-- What is handed to the Bluetooth stack, hidkbd.c 432-457. -/
inductive Sent where
  | keyboard (bytes : List Byte)
  | mouse (m : MouseOutput)
  | consumer (bytes : List Byte)
  deriving DecidableEq, Repr

/-- How the pins are configured: matrix/col_to_row.c (ch58x) 11-46. -/
inductive Mode where
  | scanning | interrupt
  deriving DecidableEq, Repr

/-- Where the program is: outside `HidEmu_ProcessEvent`, or within it, in `keyboard_await_interrupt` (called at hidkbd.c 496),
keyboard.c 20-29, before the flags of the pins are cleared. -/
inductive Pc where
  | idle | arming
  deriving DecidableEq, Repr

/-- The variables of hidkbd.c 291-299, of keyboard_matrix.c, the keymap, and the state of the hardware and of TMOS. `closed` says for
each key whether its switch is closed, and `row` (given by the board) in which row it is. `made` and `sent` record which reports were
computed and which were accepted by the Bluetooth stack. -/
structure State (R Ev Ctx PKS KS : Type) where
  km : KM R Ev Ctx PKS KS
  report : CApi.HidReport
  previous : CApi.HidReport
  updated : Nat
  eventPending : Bool
  matrix : Firmware.Ch58x
  clock : Nat
  timers : List (Task × Nat)
  events : List Task
  irq : Bool
  mode : Mode
  pc : Pc
  closed : List Bool
  made : List CApi.HidReport
  sent : List Sent

variable {R Ev Ctx PKS KS : Type}

/-- `tmos_start_task`. -/
def State.start (s : State R Ev Ctx PKS KS) (t : Task) (time : Nat) : State R Ev Ctx PKS KS :=
  { s with timers := (t, s.clock + time) :: s.timers.filter (·.1 ≠ t) }

/-- `tmos_set_event`. -/
def State.set (s : State R Ev Ctx PKS KS) (t : Task) : State R Ev Ctx PKS KS :=
  { s with events := if t ∈ s.events then s.events else t :: s.events }

/-- `return (events ^ ...)`: the event has been processed. -/
def State.done (s : State R Ev Ctx PKS KS) (t : Task) : State R Ev Ctx PKS KS :=
  { s with events := s.events.filter (· ≠ t) }

/-- The comparisons with the reports sent before, hidkbd.c 379-395, 410-426 and 500-516. -/
def State.compare (s : State R Ev Ctx PKS KS) : State R Ev Ctx PKS KS :=
  let s := if s.report.keyboard ≠ s.previous.keyboard then s.start .keyboard 1 else s
  let s := if s.report.mouse ≠ s.previous.mouse ∨ s.report.mouse ≠ MouseOutput.none then s.start .mouse 1 else s
  if s.report.consumer ≠ s.previous.consumer then s.start .consumer 1 else s

/-- The keymap has been called and has written a report. -/
def State.make (s : State R Ev Ctx PKS KS) (km : KM R Ev Ctx PKS KS) (r : CApi.HidReport) : State R Ev Ctx PKS KS :=
  { s with km := km, report := r, made := s.made ++ [r] }

/-- `delta_time_tmos * SYSTEM_TIME_MICROSEN / 1000`, hidkbd.c 359-362, in `uint32_t`. The clock itself is taken not to wrap. -/
def deltaMs (now before : Nat) : Nat := (now - before) % u32Size * 625 % u32Size / 1000

/-- `MS1_TO_SYSTEM_TIME`, CH58xBLE_LIB.h 197, in `uint32_t`. -/
def toTmos (ms : Nat) : Nat := ms * 1000 % u32Size / 625

variable (C : Cfg R Ev Ctx PKS KS) (n : Nat)

/-- The event for a key whose state has changed, hidkbd.c 352-357 and 472-477. -/
def cEvent (i : Nat) (b : Bool) : CApi.CEvent := ⟨if b then .press else .release, i⟩

/-- The loop over the keys in `KEYBOARD_SCAN_EVT`, hidkbd.c 350-367, from key `i` on: the variables and `next_timeout_ms`. -/
def registerAfter (i : Nat) (s : State R Ev Ctx PKS KS) (next : Nat) :
    List (Option Bool) → Res (State R Ev Ctx PKS KS × Nat)
  | [] => .ok (s, next)
  | none :: es => registerAfter (i + 1) s next es
  | some b :: es => do
    let (km, r, next) ← CApi.registerInputAfterMs C n s.km (deltaMs s.clock s.updated) (cEvent i b) s.report
    registerAfter (i + 1) { s.make km r with updated := s.clock } next es

/-- The loop over the keys in `KEYMAP_TICK_EVT`, hidkbd.c 470-481, from key `i` on. -/
def register (i : Nat) (km : KM R Ev Ctx PKS KS) : List (Option Bool) → Res (KM R Ev Ctx PKS KS)
  | [] => .ok km
  | none :: es => register (i + 1) km es
  | some b :: es => do
    let km ← CApi.registerInputEvent C n km (cEvent i b)
    register (i + 1) km es

/-- `KEYBOARD_WAKE_EVT`, hidkbd.c 337-343, with `keyboard_start_scanning`, keyboard.c 14-18. -/
def State.onWake (s : State R Ev Ctx PKS KS) : State R Ev Ctx PKS KS :=
  (({ s with irq := false, mode := .scanning }).start .scan 1).done .wake

/-- `KEYBOARD_SCAN_EVT`, hidkbd.c 345-397. -/
def State.onScan (s : State R Ev Ctx PKS KS) : Res (State R Ev Ctx PKS KS) := do
  let (m, es) := s.matrix.scan s.closed
  let (s, next) ← registerAfter C n 0 { s with matrix := m } 0 es
  let s := if !s.eventPending && next > 0 then { s.start .timeout (toTmos next) with eventPending := true } else s
  let s := s.start .tick 12
  pure (s.compare.done .scan)

/-- `KEYMAP_TIMEOUT_EVT`, hidkbd.c 399-428. -/
def State.onTimeout (s : State R Ev Ctx PKS KS) : Res (State R Ev Ctx PKS KS) := do
  let (km, r, next) ← CApi.nextEventTimeout C n s.km s.report
  let s := { s.make km r with updated := s.clock }
  let s := if next > 0 then s.start .timeout (toTmos next) else { s with eventPending := false }
  pure (s.compare.done .timeout)

/-- `REPORT_KEYBOARD_EVT`, hidkbd.c 430-441; `ok`: `HidDev_Report` returns `SUCCESS`. -/
def State.onKeyboard (s : State R Ev Ctx PKS KS) (ok : Bool) : State R Ev Ctx PKS KS :=
  (if ok then { s with previous := { s.previous with keyboard := s.report.keyboard },
                       sent := s.sent ++ [.keyboard s.report.keyboard] } else s).done .keyboard

/-- `REPORT_MOUSE_EVT`, hidkbd.c 442-453. -/
def State.onMouse (s : State R Ev Ctx PKS KS) (ok : Bool) : State R Ev Ctx PKS KS :=
  (if ok then { s with previous := { s.previous with mouse := s.report.mouse },
                       sent := s.sent ++ [.mouse s.report.mouse] } else s).done .mouse

/-- `REPORT_CONSUMER_EVT`, hidkbd.c 454-465. -/
def State.onConsumer (s : State R Ev Ctx PKS KS) (ok : Bool) : State R Ev Ctx PKS KS :=
  (if ok then { s with previous := { s.previous with consumer := s.report.consumer },
                       sent := s.sent ++ [.consumer s.report.consumer] } else s).done .consumer

/-- `KEYMAP_TICK_EVT`, hidkbd.c 467-518, up to the call of `keyboard_await_interrupt` or else to its end; the columns have been set
high by `keyboard_matrix_configure_for_interrupt`. -/
def State.onTick (s : State R Ev Ctx PKS KS) : Res (State R Ev Ctx PKS KS) := do
  let (m, es) := s.matrix.scan s.closed
  let km ← register C n 0 s.km es
  let (km, r) ← CApi.keymapTick C n km s.report
  let s := { ({ s with matrix := m }).make km r with updated := s.clock }
  if s.km.requiresPolling || s.matrix.pressed.toNat > 0 then pure ((s.start .tick 12).compare.done .tick)
  else pure { s with pc := .arming, mode := .interrupt }

/-- The rest of `keyboard_await_interrupt`, keyboard.c 23-29: the flags are cleared and the interrupts enabled; and the rest of
`KEYMAP_TICK_EVT`, hidkbd.c 500-518. -/
def State.armed (s : State R Ev Ctx PKS KS) : State R Ev Ctx PKS KS :=
  ({ s with pc := .idle, irq := true }).compare.done .tick

/-- `HidEmu_ProcessEvent`, hidkbd.c 291-521: one event, the first in this order, is processed. -/
def State.process (s : State R Ev Ctx PKS KS) (ok : Bool) : Res (State R Ev Ctx PKS KS) :=
  if s.pc = .arming then .ok s.armed
  else if .wake ∈ s.events then .ok s.onWake
  else if .scan ∈ s.events then s.onScan C n
  else if .timeout ∈ s.events then s.onTimeout C n
  else if .keyboard ∈ s.events then .ok (s.onKeyboard ok)
  else if .mouse ∈ s.events then .ok (s.onMouse ok)
  else if .consumer ∈ s.events then .ok (s.onConsumer ok)
  else if .tick ∈ s.events then s.onTick C n
  else .ok s

/-- What may happen: time passes, the time of a task has run out, switches move, or the program goes on. -/
inductive Input where
  | wait (time : Nat)
  | expire (t : Task)
  | move (closed : List Bool)
  | process (ok : Bool)
  deriving DecidableEq, Repr

/-- Whether a row is high when all the columns are. -/
def rowHigh (row : Nat → Nat) (closed : List Bool) (r : Nat) : Bool :=
  (List.range closed.length).any fun k => decide (row k = r) && closed.getD k false

/-- Whether a row has gone from low to high. -/
def rises (row : Nat → Nat) (rows : Nat) (before after : List Bool) : Bool :=
  (List.range rows).any fun r => !rowHigh row before r && rowHigh row after r

variable (row : Nat → Nat) (rows : Nat)

/-- The interrupt of a pin, keyboard.c 31-67: `HidEmu_Wakeup`. -/
def State.interrupt (s : State R Ev Ctx PKS KS) : State R Ev Ctx PKS KS := ({ s with irq := false }).set .wake

/-- One of them. A switch that raises the level of a row causes an interrupt if interrupts are enabled; otherwise the flag it
sets is cleared before they are. -/
def State.step (s : State R Ev Ctx PKS KS) : Input → Res (State R Ev Ctx PKS KS)
  | .wait time => .ok { s with clock := s.clock + time }
  | .expire t =>
    match s.timers.find? (·.1 = t) with
    | some (_, due) => if due ≤ s.clock then .ok ({ s with timers := s.timers.filter (·.1 ≠ t) }.set t) else .ok s
    | none => .ok s
  | .move closed =>
    let s' := { s with closed := closed }
    if s.irq && rises row rows s.closed closed then .ok s'.interrupt else .ok s'
  | .process ok => s.process C n ok

/-- A history. -/
def State.run (s : State R Ev Ctx PKS KS) : List Input → Res (State R Ev Ctx PKS KS)
  | [] => .ok s
  | i :: is => do
    let s ← s.step C n row rows i
    s.run is

/-- After `HidEmu_Init`, hidkbd.c 268-276: `keyboard_init` enables the interrupts; the keymap ticks by 8 ms
(`KEYMAP_POLLING_INTERVAL_MS`, hidkbd.c 188). `km` is the keymap after `keymap_init`. -/
def State.new (count : Nat) (km : KM R Ev Ctx PKS KS) : State R Ev Ctx PKS KS where
  km := km.setMsPerTick 8
  report := ⟨List.replicate 8 0, List.replicate 6 0, List.replicate 4 0, MouseOutput.none⟩
  previous := ⟨List.replicate 8 0, List.replicate 6 0, List.replicate 4 0, MouseOutput.none⟩
  updated := 0
  eventPending := false
  matrix := ⟨List.replicate count false, 0⟩
  clock := 0
  timers := []
  events := []
  irq := true
  mode := .interrupt
  pc := .idle
  closed := List.replicate count false
  made := []
  sent := []

end Verif.Ble
