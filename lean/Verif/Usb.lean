import Verif.Types

/-!
# The ch32x035 firmware: sending reports over USB

firmware/ch32x035-usb-device-compositekm-c/app: the main loop of main.c, the timer interrupt of usbd_composite_km.c, and of
ch32x035_usbfs_device.c `USBFS_Endp_DataUp` and the parts of the USB interrupt that touch the end-points 1 to 3. Interrupts come
between any two steps of the main loop. The USB interrupt can interrupt the timer's, but what one of them writes the other does not touch
(packets and keymap, end-points), so that it might as well come before or after.
-/

namespace Verif.Usb

/-- One kind of report (keyboard, mouse or consumer): the packet and the packet before (usbd_composite_km.c 49-56), `sending_…`
(main.c 67-69), `USBFS_Endp_Busy` of its end-point, whether the end-point answers the host (`USBFS_UEP_T_RES_ACK` in its control register),
the buffer of the end-point, and `host`, which is not in the code: the reports the host has received. -/
structure Chan where
  pack : List Byte
  prev : List Byte
  sending : Bool := false
  busy : Bool := false
  ack : Bool := false
  buf : List Byte := []
  host : List (List Byte) := []
  deriving DecidableEq, Repr

/-- The end-points: `DEF_UEP1` to `DEF_UEP3`. -/
inductive Ep where
  | keyboard | mouse | consumer
  deriving DecidableEq, Repr

/-- Where the main loop is within one of its three blocks (main.c 77-86, 88-107, 109-120). -/
inductive Stage where
  /-- at the `memcmp`s -/
  | test
  /-- at `if (sending_… == 0)` -/
  | choose
  /-- in `USBFS_Endp_DataUp`, at the `memcpy` to the buffer of the end-point -/
  | load
  /-- in `USBFS_Endp_DataUp`, at "response ack" -/
  | ack
  /-- in `USBFS_Endp_DataUp`, at "Set end-point busy" -/
  | busy
  /-- at `sending_… = 1` -/
  | mark
  /-- in the `memcpy` to the packet before, at byte `i`; at the end `sending_… = 0` follows -/
  | copy (i : Nat)
  deriving DecidableEq, Repr

/-- One step of a block of the main loop, main.c 77-120 with ch32x035_usbfs_device.c 216-292 (end-points 1 to 3 send only and have
one buffer, 86-92); `none`: the block is done. `resend`: the condition has `|| memcmp(…, zeros, …) != 0`, main.c 90-97.
Simplified: a `memcmp` is one step (an interrupt while it runs has the same effect before or after it), and so is the `memcpy` to the
buffer of the end-point (for the mouse, the timer could come in the middle of it and leave half of the old packet and half of the new one). -/
def Chan.step (resend : Bool) (c : Chan) : Stage → Chan × Option Stage
  | .test => (c, if c.pack ≠ c.prev ∨ (resend = true ∧ ∃ b ∈ c.pack, b ≠ 0) then some .choose else none)
  | .choose =>
    if c.sending = false then (c, some (if c.busy then .mark else .load))
    else if c.busy = false then (c, some (.copy 0))
    else (c, none)
  | .load => ({ c with buf := c.pack }, some .ack)
  | .ack => ({ c with ack := true }, some .busy)
  | .busy => ({ c with busy := true }, some .mark)
  | .mark => ({ c with sending := true }, none)
  | .copy i =>
    if h : i < c.pack.length then ({ c with prev := c.prev.set i c.pack[i] }, some (.copy (i + 1)))
    else ({ c with sending := false }, none)

/-- The host asks the end-point for a report: the end-point sends its buffer if it is ready to, and the interrupt handler marks it
free, ch32x035_usbfs_device.c 357-379. Simplified: the handler runs at once. -/
def Chan.poll (c : Chan) : Chan :=
  if c.ack then { c with host := c.host ++ [c.buf], ack := false, busy := false } else c

/-- `USBFS_Device_Endp_Init` at a bus reset, ch32x035_usbfs_device.c 94-102, 814. -/
def Chan.reset (c : Chan) : Chan := { c with ack := false, busy := false }

/-- What `keymap_tick` gives, as it is copied to the packets, usbd_composite_km.c 125-132. -/
structure Made where
  keyboard : List Byte
  mouse : List Byte
  consumer : List Byte
  deriving DecidableEq, Repr

/-- Where the main loop is: at the beginning of the loop (`if (USBFS_DevEnumStatus)`, main.c 76), or in a block. -/
inductive Pc where
  | top
  | at (ep : Ep) (st : Stage)
  deriving DecidableEq, Repr

/-- The whole firmware, but for the keymap. `made` is not in the code: the reports of the keymap so far. -/
structure State where
  keyboard : Chan
  mouse : Chan
  consumer : Chan
  pc : Pc := .top
  configured : Bool := false
  made : List Made := []
  deriving DecidableEq, Repr

/-- At power on, usbd_composite_km.c 49-56: 8, 4 and 4 bytes. -/
def State.new : State where
  keyboard := { pack := List.replicate 8 0, prev := List.replicate 8 0 }
  mouse := { pack := List.replicate 4 0, prev := List.replicate 4 0 }
  consumer := { pack := List.replicate 4 0, prev := List.replicate 4 0 }

/-- What happens: a step of the main loop, the timer interrupt (the report is what `keymap_tick` would give), the host asks an end-point,
the host configures the device (`USB_SET_CONFIGURATION`), the bus is reset. -/
inductive Event where
  | main
  | timer (r : Made)
  | poll (ep : Ep)
  | configure
  | reset
  deriving DecidableEq, Repr

/-- The block after this one, main.c 77, 88, 109; after the last one the loop begins again. -/
def Ep.next : Ep → Pc
  | .keyboard => .at .mouse .test
  | .mouse => .at .consumer .test
  | .consumer => .top

/-- The main loop after a step of the block for `ep`. -/
def Ep.after (ep : Ep) : Option Stage → Pc
  | some st => .at ep st
  | none => ep.next

/-- One step of the main loop, main.c 75-125. -/
def State.main (s : State) : State :=
  match s.pc with
  | .top => if s.configured then { s with pc := .at .keyboard .test } else s
  | .at .keyboard st => { s with keyboard := (s.keyboard.step false st).1, pc := Ep.after .keyboard (s.keyboard.step false st).2 }
  | .at .mouse st => { s with mouse := (s.mouse.step true st).1, pc := Ep.after .mouse (s.mouse.step true st).2 }
  | .at .consumer st => { s with consumer := (s.consumer.step false st).1, pc := Ep.after .consumer (s.consumer.step false st).2 }

/-- All packets have been sent: the condition of `TIM3_IRQHandler`, usbd_composite_km.c 120-124. -/
def State.sent (s : State) : Bool :=
  s.keyboard.pack = s.keyboard.prev && s.consumer.pack = s.consumer.prev && s.mouse.pack = s.mouse.prev

/-- `TIM3_IRQHandler`, usbd_composite_km.c 107-138, where `r` is what `keymap_tick` gives. -/
def State.timer (s : State) (r : Made) : State :=
  if s.sent then
    { s with keyboard := { s.keyboard with pack := r.keyboard }, mouse := { s.mouse with pack := r.mouse },
             consumer := { s.consumer with pack := r.consumer }, made := s.made ++ [r] }
  else s

/-- One event. `configure`: ch32x035_usbfs_device.c 611-613; `reset`: 806-815. -/
def State.step (s : State) : Event → State
  | .main => s.main
  | .timer r => s.timer r
  | .poll .keyboard => { s with keyboard := s.keyboard.poll }
  | .poll .mouse => { s with mouse := s.mouse.poll }
  | .poll .consumer => { s with consumer := s.consumer.poll }
  | .configure => { s with configured := true }
  | .reset => { s with configured := false, keyboard := s.keyboard.reset, mouse := s.mouse.reset, consumer := s.consumer.reset }

/-- A history. -/
def State.run (s : State) (es : List Event) : State := es.foldl State.step s

end Verif.Usb
