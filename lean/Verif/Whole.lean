import Verif.Usb
import Verif.Control

/-!
# The ch32x035 firmware: reports and control transfers

`Usb` (main loop, timer, end-points 1 to 3) and `Control` (end-point 0) together. What they share are the registers `UEP1_CTRL_H` to `UEP3_CTRL_H` (in
`Usb`: `ack`; in `Control`: `eps`) and `USBFS_DevEnumStatus` (`configured`; `enumerated`).
-/

namespace Verif.Whole

open Usb (Ep Made)

/-- The firmware, and the host: which toggle bit it expects of the next report of an end-point, and the reports it has accepted. -/
structure State where
  usb : Usb.State := .new
  ctl : Control.State := {}
  expect : Ep → Bool := fun _ => false
  got : Ep → List (List Byte) := fun _ => []

/-- What happens: a step of the main loop, the timer interrupt, the host asks an end-point for a report, something happens at end-point 0. -/
inductive Event where
  | main
  | timer (r : Made)
  | poll (ep : Ep)
  | control (e : Control.Event)
  deriving DecidableEq

/-- The place of an end-point in `eps`. -/
def slot : Ep → Nat
  | .keyboard => 0
  | .mouse => 1
  | .consumer => 2

/-- Whether the end-point has a report for the host. -/
def ready (u : Usb.State) : Ep → Bool
  | .keyboard => u.keyboard.ack
  | .mouse => u.mouse.ack
  | .consumer => u.consumer.ack

/-- The buffer of the end-point. -/
def buffer (u : Usb.State) : Ep → List Byte
  | .keyboard => u.keyboard.buf
  | .mouse => u.mouse.buf
  | .consumer => u.consumer.buf

/-- The control register of an end-point when its answer changes: `USBFS_Endp_DataUp` sets it to `ACK`, ch32x035_usbfs_device.c 233-285; when a report has been
taken, the toggle bit changes too, 357-379. -/
def register (before after : Bool) (e : Bool × Control.Resp) : Bool × Control.Resp :=
  if before = after then e else if after then (e.1, .ack) else (!e.1, .nak)

/-- The control register of end-point `ep`. -/
def State.reg (s : State) (ep : Ep) : Bool × Control.Resp := s.ctl.eps.getD (slot ep) (false, .nak)

/-- The main loop, the timer or the host has changed the end-points 1 to 3. -/
def State.after (s : State) (u : Usb.State) : State :=
  { s with
    usb := u
    ctl := { s.ctl with eps := [.keyboard, .mouse, .consumer].map fun ep => register (ready s.usb ep) (ready u ep) (s.reg ep) } }

/-- The host receives a report with a toggle bit: one that it does not expect is a report it has already received, which it drops (USB 2.0, 8.6). -/
def State.receive (s : State) (ep : Ep) (tog : Bool) (r : List Byte) : State :=
  if tog = s.expect ep then
    { s with
      expect := fun e => if e = ep then !tog else s.expect e
      got := fun e => if e = ep then s.got e ++ [r] else s.got e }
  else s

/-- A request for an end-point to be halted, or not. -/
def isFeature (r : Control.Setup) : Bool :=
  r.type &&& 0x60 = 0 && (r.request = 0x01 || r.request = 0x03) && r.type &&& 0x1F = 0x02

/-- `CLEAR_FEATURE(ENDPOINT_HALT)`: which of the end-points 1 to 3. -/
def clears (r : Control.Setup) : Option Nat :=
  if isFeature r && r.request = 0x01 && Control.low r.value = 0 then Control.endpoint r.index else none

/-- `SET_CONFIGURATION` -/
def isConfigure (r : Control.Setup) : Bool := r.type &&& 0x60 = 0 && r.request = 0x09

/-- The toggle bits the host expects start again at a bus reset, for all end-points when it has configured the device, and for one when it has cleared its
halt (USB 2.0, 5.8.5, 9.1.1.5, 9.4.5). Simplified: when it sends the request. -/
def toggles (expect : Ep → Bool) : Control.Event → Ep → Bool
  | .reset => fun _ => false
  | .setup r => fun ep => if isConfigure r || clears r = some (slot ep) then false else expect ep
  | _ => expect

/-- The end-points 1 to 3 after something has happened at end-point 0. -/
def State.tell (s : State) (e : Control.Event) (c : Control.State) : Usb.State :=
  match e with
  | .reset => s.usb.step .reset
  | _ =>
    let ack (ep : Ep) : Bool := (c.eps.getD (slot ep) (false, .nak)).2 = .ack
    { s.usb with
      configured := c.enumerated
      keyboard := { s.usb.keyboard with ack := ack .keyboard }
      mouse := { s.usb.mouse with ack := ack .mouse }
      consumer := { s.usb.consumer with ack := ack .consumer } }

/-- One event. -/
def State.step (s : State) : Event → Option State
  | .main => some (s.after (s.usb.step .main))
  | .timer r => some (s.after (s.usb.step (.timer r)))
  | .poll ep =>
    let s' := s.after (s.usb.step (.poll ep))
    some (if ready s.usb ep then s'.receive ep (s.reg ep).1 (buffer s.usb ep) else s')
  | .control e => (s.ctl.step e).map fun c => { s with ctl := c, usb := s.tell e c, expect := toggles s.expect e }

/-- A history. -/
def State.run (s : State) : List Event → Option State
  | [] => some s
  | e :: es => (s.step e).bind (·.run es)

end Verif.Whole
