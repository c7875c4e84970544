import Verif.CApi
import Verif.Firmware
import Verif.Usb

/-!
# The ch32x035 firmware as a whole

firmware/ch32x035-usb-device-compositekm-c: the switches, the debouncing (`Verif.Firmware`), the keymap (`Verif.CApi`) and the USB
side (`Verif.Usb`), of a keyboard that is not split.
-/

namespace Verif

variable {R Ev Ctx PKS KS : Type}

/-- All its variables: of keyboard_matrix.c, the keymap, `hid_report` (usbd_composite_km.c 48), and the rest. -/
structure Device (R Ev Ctx PKS KS : Type) where
  keys : List Firmware.Key
  km : KM R Ev Ctx PKS KS
  report : CApi.HidReport
  usb : Usb.State

namespace Device

/-- As `Usb.Event`, with the levels of the switches in place of the report. -/
inductive Event where
  | main
  | timer (raw : List Bool)
  | poll (ep : Usb.Ep)
  | configure
  | reset
  deriving DecidableEq

/-- The packets of a report, usbd_composite_km.c 126-132: `x`, `y` and the scroll are an `int8_t` each. -/
def packets (r : CApi.HidReport) : Usb.Made where
  keyboard := r.keyboard.take 8
  mouse := [r.mouse.buttons, BitVec.ofInt 8 r.mouse.x, BitVec.ofInt 8 r.mouse.y, BitVec.ofInt 8 r.mouse.vscroll]
  consumer := r.consumer.take 4

variable (C : Cfg R Ev Ctx PKS KS) (n : Nat)

/-- `keymap_register_input_event` for each of the events of a scan, keyboard_matrix.c 14-26. -/
def register (km : KM R Ev Ctx PKS KS) : List InputEvent → Res (KM R Ev Ctx PKS KS)
  | [] => .ok km
  | e :: es => do
    let km ← handleInput C n km e
    register km es

/-- `TIM3_IRQHandler`, usbd_composite_km.c 107-138. -/
def timer (d : Device R Ev Ctx PKS KS) (raw : List Bool) : Res (Device R Ev Ctx PKS KS) := do
  let (keys, es) := Firmware.scan d.keys raw
  let km ← register C n d.km es
  if d.usb.sent then
    let (km, r) ← CApi.keymapTick C n km d.report
    pure { keys := keys, km := km, report := r, usb := d.usb.timer (packets r) }
  else pure { d with keys := keys, km := km }

/-- One event; all but the timer interrupt are as in `Usb.State.step`. -/
def step (d : Device R Ev Ctx PKS KS) : Event → Res (Device R Ev Ctx PKS KS)
  | .main => .ok { d with usb := d.usb.step .main }
  | .timer raw => timer C n d raw
  | .poll ep => .ok { d with usb := d.usb.step (.poll ep) }
  | .configure => .ok { d with usb := d.usb.step .configure }
  | .reset => .ok { d with usb := d.usb.step .reset }

/-- A history. -/
def run (d : Device R Ev Ctx PKS KS) : List Event → Res (Device R Ev Ctx PKS KS)
  | [] => .ok d
  | e :: es => do
    let d ← step C n d e
    run d es

/-- At power on: `count` keys. -/
def new (count : Nat) (km : KM R Ev Ctx PKS KS) : Device R Ev Ctx PKS KS where
  keys := List.replicate count Firmware.Key.new
  km := km
  report := ⟨List.replicate 8 0, List.replicate 6 0, List.replicate 4 0, MouseOutput.none⟩
  usb := Usb.State.new

end Device

end Verif
