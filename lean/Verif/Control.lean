import Verif.Hid

/-!
# The ch32x035 firmware: control transfers

app/ch32x035_usbfs_device.c, `USBFS_IRQHandler` for end-point 0, and the descriptors of app/usb_desc.c. A read past the end of a descriptor is an
error (`none`). Simplified: the interrupt handler runs at once; `printf`s are left out. Suspend and wake-up are not modelled.
-/

namespace Verif.Control

open Hid (usbKeyboard usbMouse usbConsumer)

/-! ## Descriptors -/

/-- `MyDevDescr`, app/usb_desc.c 21-37; vendor and product number: app/usb_desc.h 25-26, version: 22, 29. -/
def deviceDescr : List Byte := [0x12, 0x01, 0x00, 0x02, 0x00, 0x00, 0x00, 0x40, 0x86, 0x1A, 0x00, 0xFE, 0x00, 0x01, 0x01, 0x02, 0x03, 0x01]

/-- `MyCfgDescr`, app/usb_desc.c 42-135. -/
def configDescr : List Byte := [
  0x09, 0x02, 0x54, 0x00, 0x03, 0x01, 0x00, 0xA0, 0x32,
  0x09, 0x04, 0x00, 0x00, 0x01, 0x03, 0x01, 0x01, 0x00,
  0x09, 0x21, 0x11, 0x01, 0x00, 0x01, 0x22, 0x3E, 0x00,
  0x07, 0x05, 0x81, 0x03, 0x08, 0x00, 0x0A,
  0x09, 0x04, 0x01, 0x00, 0x01, 0x03, 0x01, 0x02, 0x00,
  0x09, 0x21, 0x10, 0x01, 0x00, 0x01, 0x22, 0x34, 0x00,
  0x07, 0x05, 0x82, 0x03, 0x08, 0x00, 0x01,
  0x09, 0x04, 0x02, 0x00, 0x01, 0x03, 0x00, 0x00, 0x00,
  0x09, 0x21, 0x11, 0x01, 0x00, 0x01, 0x22, 0x17, 0x00,
  0x07, 0x05, 0x83, 0x03, 0x04, 0x00, 0x0A]

/-- `MyLangDescr`, app/usb_desc.c 249-255. -/
def langDescr : List Byte := [0x04, 0x03, 0x09, 0x04]

/-- `MyManuInfo`, app/usb_desc.c 260-261: "wch.cn". -/
def makerDescr : List Byte := [0x0E, 0x03, 0x77, 0, 0x63, 0, 0x68, 0, 0x2E, 0, 0x63, 0, 0x6E, 0]

/-- `MyProdInfo`, app/usb_desc.c 266-286: "CH32x035". -/
def productDescr : List Byte := [0x12, 0x03, 0x43, 0, 0x48, 0, 0x33, 0, 0x32, 0, 0x78, 0, 0x30, 0, 0x33, 0, 0x35, 0]

/-- `MySerNumInfo`, app/usb_desc.c 291-314: "0123456789". -/
def serialDescr : List Byte := [
  0x16, 0x03, 0x30, 0, 0x31, 0, 0x32, 0, 0x33, 0, 0x34, 0, 0x35, 0, 0x36, 0, 0x37, 0, 0x38, 0, 0x39, 0]

/-! ## The state -/

/-- How an end-point answers: `…_RES_ACK`, `…_RES_NAK` and `…_RES_STALL`. -/
inductive Resp where
  | ack | nak | stall
  deriving DecidableEq, Repr

/-- A SETUP packet, `USB_SETUP_REQ`. -/
structure Setup where
  type : Byte
  request : Byte
  value : BitVec 16
  index : BitVec 16
  length : BitVec 16
  deriving DecidableEq, Repr

/-- `(uint8_t)(v & 0xFF)` -/
def low (v : BitVec 16) : Byte := v.setWidth 8

/-- `(uint8_t)(v >> 8)` -/
def high (v : BitVec 16) : Byte := (v >>> 8).setWidth 8

/-- The bytes of a SETUP packet. -/
def Setup.bytes (r : Setup) : List Byte :=
  [r.type, r.request, low r.value, high r.value, low r.index, high r.index, low r.length, high r.length]

/-- The variables of ch32x035_usbfs_device.c 30-56 and the registers of end-point 0 and the address. `descr` is what `pUSBFS_Descr` points to: the rest of
an array. `eps`: toggle bit and answer of the end-points 1 to 3. -/
structure State where
  descr : List Byte := []
  type : Byte := 0
  code : Byte := 0
  value : BitVec 16 := 0
  index : BitVec 16 := 0
  len : Nat := 0
  config : Byte := 0
  addr : Byte := 0
  sleep : Byte := 0
  enumerated : Bool := false
  idle : List Byte := [0, 0, 0]
  protocol : List Byte := [0, 0, 0]
  led : Byte := 0
  buf : List Byte := List.replicate 64 0
  txLen : Nat := 0
  txTog : Bool := false
  txRes : Resp := .nak
  rxTog : Bool := false
  rxRes : Resp := .ack
  devAddr : Byte := 0
  eps : List (Bool × Resp) := [(false, .nak), (false, .nak), (false, .nak)]
  deriving DecidableEq, Repr

/-- `memcpy` to the buffer of end-point 0. -/
def State.load (s : State) (src : List Byte) (n : Nat) : Option State :=
  if n ≤ src.length then some { s with buf := src.take n ++ s.buf.drop n } else none

/-- `USBFS_EP0_Buf[i] = b` -/
def State.put (s : State) (i : Nat) (b : Byte) : State := { s with buf := s.buf.set i b }

/-! ## Requests -/

/-- A byte of a descriptor, as a number. -/
def byteAt (d : List Byte) (i : Nat) : Nat := (d.getD i 0).toNat

/-- Which descriptor is asked for, ch32x035_usbfs_device.c 508-585: what `pUSBFS_Descr` is set to, and `len` (app/usb_desc.h 63-73); `none`: `errflag = 0xFF`. -/
def lookup (value index : BitVec 16) : Option (List Byte × Nat) :=
  match (high value).toNat with
  | 0x01 => some (deviceDescr, byteAt deviceDescr 0)
  | 0x02 => some (configDescr, byteAt configDescr 2 + 256 * byteAt configDescr 3)
  | 0x21 => match index.toNat with
    | 0 => some (configDescr.drop 18, 9)
    | 1 => some (configDescr.drop 43, 9)
    | 2 => some (configDescr.drop 68, 9)
    | _ => none
  | 0x22 => match index.toNat with
    | 0 => some (usbKeyboard, 0x3E)
    | 1 => some (usbMouse, 0x34)
    | 2 => some (usbConsumer, 0x17)
    | _ => none
  | 0x03 => match (low value).toNat with
    | 0 => some (langDescr, byteAt langDescr 0)
    | 1 => some (makerDescr, byteAt makerDescr 0)
    | 2 => some (productDescr, byteAt productDescr 0)
    | 3 => some (serialDescr, byteAt serialDescr 0)
    | _ => none
  | _ => none

/-- `USB_GET_DESCRIPTOR`, ch32x035_usbfs_device.c 507-594. The second component is `errflag`. -/
def State.getDescriptor (s : State) : Option (State × Bool) := do
  let (s, len, err) := match lookup s.value s.index with
    | some (d, len) => ({ s with descr := d }, len, false)
    | none => (s, 0, true)
  let s := if s.len > len then { s with len := len } else s
  let len := if s.len ≥ 64 then 64 else s.len
  let s ← s.load s.descr len
  pure ({ s with descr := s.descr.drop len }, err)

/-- The end-points 1 to 3 by the low byte of `wIndex`: `DEF_UEP_IN | DEF_UEP1`, … -/
def endpoint (index : BitVec 16) : Option Nat :=
  match (low index).toNat with
  | 0x81 => some 0
  | 0x82 => some 1
  | 0x83 => some 2
  | _ => none

/-- `USB_CLEAR_FEATURE`, ch32x035_usbfs_device.c 617-657. -/
def State.clearFeature (s : State) : State × Bool :=
  match (s.type &&& 0x1F).toNat with
  | 0 => if low s.value = 1 then ({ s with sleep := s.sleep &&& ~~~1#8 }, false) else (s, true)
  | 2 => if low s.value = 0 then
      match endpoint s.index with
      | some i => ({ s with eps := s.eps.set i (false, .nak) }, false)
      | none => (s, true)
    else (s, true)
  | _ => (s, true)

/-- `USB_SET_FEATURE`, ch32x035_usbfs_device.c 660-708; `MyCfgDescr[7] & 0x20` is set. -/
def State.setFeature (s : State) : State × Bool :=
  match (s.type &&& 0x1F).toNat with
  | 0 => if low s.value = 1 then
      if (configDescr.getD 7 0) &&& 0x20 ≠ 0 then ({ s with sleep := s.sleep ||| 1 }, false) else (s, true)
    else (s, true)
  | 2 => if low s.value = 0 then
      match endpoint s.index with
      | some i => ({ s with eps := s.eps.modify i fun e => (e.1, .stall) }, false)
      | none => (s, true)
    else (s, true)
  | _ => (s, true)

/-- `USB_GET_STATUS`, ch32x035_usbfs_device.c 723-766. -/
def State.getStatus (s : State) : State × Bool :=
  let s := (s.put 0 0).put 1 0
  let (s, err) := match (s.type &&& 0x1F).toNat with
    | 0 => (s.put 0 (if s.sleep &&& 1 ≠ 0 then 2 else 0), false)
    | 2 => match endpoint s.index with
      | some i => (if (s.eps.getD i (false, .nak)).2 = Resp.stall then s.put 0 1 else s, false)
      | none => (s, true)
    | _ => (s, true)
  (if s.len > 2 then { s with len := 2 } else s, err)

/-- Standard requests, ch32x035_usbfs_device.c 504-771. -/
def State.standard (s : State) : Option (State × Bool) :=
  match s.code.toNat with
  | 0x06 => s.getDescriptor
  | 0x05 => some ({ s with addr := low s.value }, false)
  | 0x08 =>
    let s := s.put 0 s.config
    some (if s.len > 1 then { s with len := 1 } else s, false)
  | 0x09 => some ({ s with config := low s.value, enumerated := true }, false)
  | 0x01 => some s.clearFeature
  | 0x03 => some s.setFeature
  | 0x0A =>
    let s := s.put 0 0
    some (if s.len > 1 then { s with len := 1 } else s, false)
  | 0x0B => some (s, false)
  | 0x00 => some s.getStatus
  | _ => some (s, true)

/-- Class requests, ch32x035_usbfs_device.c 434-501. -/
def State.classRequest (s : State) : State × Bool :=
  let i := s.index.toNat
  match s.code.toNat with
  | 0x09 => (s, false)
  | 0x0A => if i < 3 then ({ s with idle := s.idle.set i (high s.value) }, false) else (s, true)
  | 0x0B => if i < 3 then ({ s with protocol := s.protocol.set i (low s.value) }, false) else (s, true)
  | 0x02 => if i < 3 then (s.put 0 (s.idle.getD i 0), false) else (s, true)
  | 0x03 => if i < 3 then (s.put 0 (s.protocol.getD i 0), false) else (s, true)
  | _ => (s, true)

/-- End of the setup stage, ch32x035_usbfs_device.c 774-797. The answers to IN and OUT are in one register, `UEP0_CTRL_H`, and `ACK` is 0. -/
def State.answer (s : State) (err : Bool) : State :=
  if err then { s with txTog := true, txRes := .stall, rxTog := true, rxRes := .stall }
  else if s.type &&& 0x80 ≠ 0 then
    let len := if s.len > 64 then 64 else s.len
    { s with len := s.len - len, txLen := len, txTog := true, txRes := .ack, rxTog := false, rxRes := .ack }
  else if s.len = 0 then { s with txLen := 0, txTog := true, txRes := .ack, rxTog := false, rxRes := .ack }
  else { s with txTog := false, txRes := .ack, rxTog := true, rxRes := .ack }

/-- A SETUP packet, which the hardware puts into the buffer of end-point 0 (`pUSBFS_SetupReqPak`, ch32x035_usbfs_device.h 31),
ch32x035_usbfs_device.c 421-431. -/
def State.receive (s : State) (r : Setup) : State :=
  { s with
    buf := r.bytes ++ s.buf.drop 8, txTog := true, txRes := .nak, rxTog := true, rxRes := .nak,
    type := r.type, code := r.request, len := r.length.toNat, value := r.value, index := r.index }

/-- The request, ch32x035_usbfs_device.c 433-772. -/
def State.request (s : State) : Option (State × Bool) :=
  if s.type &&& 0x60 ≠ 0 then
    if s.type &&& 0x60 = 0x20 then some s.classRequest else some (s, false)
  else s.standard

/-- A SETUP packet, ch32x035_usbfs_device.c 420-798. -/
def State.onSetup (s : State) (r : Setup) : Option State :=
  (s.receive r).request.map fun (s, err) => s.answer err

/-- All data has been sent, ch32x035_usbfs_device.c 325-327. -/
def State.atEnd (s : State) : State :=
  if s.len = 0 then { s with rxTog := true, rxRes := .ack, txTog := false, txRes := .ack } else s

/-- The host has taken a packet from end-point 0, ch32x035_usbfs_device.c 323-354. -/
def State.onIn (s : State) : Option State :=
  let s := s.atEnd
  if s.type &&& 0x60 ≠ 0 then some s
  else match s.code.toNat with
    | 0x06 => do
      let len := if s.len ≥ 64 then 64 else s.len
      let s ← s.load s.descr len
      pure { s with len := s.len - len, descr := s.descr.drop len, txLen := len, txTog := !s.txTog }
    | 0x05 => some { s with devAddr := (s.devAddr &&& 0x80) ||| s.addr }
    | _ => some s

/-- A packet for end-point 0 has been received into its buffer, ch32x035_usbfs_device.c 387-415; `USBFS_UIS_TOG_OK`: the toggle bit is the expected one. -/
def State.onOut (s : State) (tog : Bool) (data : List Byte) : State :=
  let ok := tog = s.rxTog
  let s := { s with buf := data ++ s.buf.drop data.length }
  let s := if ok ∧ s.type &&& 0x60 = 0x20 ∧ s.code = 0x09 then { s with led := s.buf.getD 0 0, len := 0 } else s
  if s.len = 0 then { s with txLen := 0, txTog := true, txRes := .ack, rxTog := false, rxRes := .ack } else s

/-- Bus reset, ch32x035_usbfs_device.c 804-815 and `USBFS_Device_Endp_Init`, 85-103. -/
def State.onReset (s : State) : State :=
  { s with config := 0, addr := 0, sleep := 0, enumerated := false, devAddr := 0, rxTog := false, rxRes := .ack, txTog := false, txRes := .nak,
           eps := [(false, .nak), (false, .nak), (false, .nak)] }

/-- What happens at end-point 0: a SETUP packet; the host asks for a packet, or sends one (the device does not react unless it is ready for it);
a bus reset. -/
inductive Event where
  | setup (r : Setup)
  | «in»
  | out (tog : Bool) (data : List Byte)
  | reset
  deriving DecidableEq, Repr

/-- One event. -/
def State.step (s : State) : Event → Option State
  | .setup r => s.onSetup r
  | .«in» => if s.txRes = .ack then s.onIn else some s
  | .out tog data => some (if s.rxRes = .ack then s.onOut tog data else s)
  | .reset => some s.onReset

/-- A history. -/
def State.run (s : State) : List Event → Option State
  | [] => some s
  | e :: es => (s.step e).bind (·.run es)

end Verif.Control
