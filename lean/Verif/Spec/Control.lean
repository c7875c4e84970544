import Verif.Control

/-!
# What a USB host does with end-point 0

USB 2.0, 8.5.3 (control transfers) and 9.6 (descriptors).
-/

namespace Verif.Control

/-- What comes of a transfer: it is completed (with the bytes that were read), the device refuses it (STALL), or it does not work: no answer, a wrong
toggle bit, more bytes than asked for, or the device has read past the end of its memory. -/
inductive Outcome where
  | done (s : State) (bytes : List Byte)
  | stalled (s : State)
  | broken
  deriving DecidableEq, Repr

/-- What the hardware sends when the host asks end-point 0 for a packet. -/
def State.packet (s : State) : List Byte := s.buf.take s.txLen

/-- The data stage of a control read: packets are read until one is short (less than the 64 bytes of `bMaxPacketSize0`), or all `want` bytes are there. The
toggle bit of the first packet is set, after that it alternates. -/
def readData (s : State) (want : Nat) (tog : Bool) : Outcome :=
  match s.txRes with
  | .stall => .stalled s
  | .nak => .broken
  | .ack =>
    if s.txTog ≠ tog ∨ s.packet.length > want then .broken
    else match s.onIn with
      | none => .broken
      | some s' =>
        if h : s.packet.length < 64 ∨ s.packet.length = want then .done s' s.packet
        else match readData s' (want - s.packet.length) (!tog) with
          | .done s' bs => .done s' (s.packet ++ bs)
          | o => o
termination_by want
decreasing_by
  simp only [not_or, Nat.not_lt] at *
  omega

/-- The status stage of a control write, or of a transfer without data: an empty packet is read, with its toggle bit set. -/
def statusIn (s : State) : Outcome :=
  match s.txRes with
  | .stall => .stalled s
  | .nak => .broken
  | .ack =>
    if s.txTog = true ∧ s.txLen = 0 then
      match s.onIn with
      | none => .broken
      | some s => .done s []
    else .broken

/-- The status stage of a control read: an empty packet is sent, with its toggle bit set, which the device has to expect. -/
def statusOut (s : State) (bytes : List Byte) : Outcome :=
  match s.rxRes with
  | .stall => .stalled s
  | .nak => .broken
  | .ack => if s.rxTog = true then .done (s.onOut true []) bytes else .broken

/-- A control transfer which reads. -/
def read (s : State) (r : Setup) : Outcome :=
  match s.onSetup r with
  | none => .broken
  | some s =>
    if r.length = 0 then statusIn s
    else match readData s r.length.toNat true with
      | .done s bs => statusOut s bs
      | o => o

/-- A control transfer which writes at most one packet of data. -/
def write (s : State) (r : Setup) (data : List Byte) : Outcome :=
  match s.onSetup r with
  | none => .broken
  | some s =>
    if data = [] then statusIn s
    else match s.rxRes with
      | .stall => .stalled s
      | .nak => .broken
      | .ack => if s.rxTog = true then statusIn (s.onOut true data) else .broken

/-- The standard and class requests (USB 2.0, 9.4; HID 1.11, 7). -/
def getDescriptor (type index : Byte) (wIndex length : BitVec 16) : Setup := ⟨0x80, 0x06, type ++ index, wIndex, length⟩
def getInterfaceDescriptor (type : Byte) (interface length : BitVec 16) : Setup := ⟨0x81, 0x06, type ++ 0#8, interface, length⟩
def setAddress (a : Byte) : Setup := ⟨0x00, 0x05, a.setWidth 16, 0, 0⟩
def setConfiguration (c : Byte) : Setup := ⟨0x00, 0x09, c.setWidth 16, 0, 0⟩
def getConfiguration : Setup := ⟨0x80, 0x08, 0, 0, 1⟩
def setReport (interface : BitVec 16) (length : BitVec 16) : Setup := ⟨0x21, 0x09, 0x0200, interface, length⟩
def setIdle (interface : BitVec 16) (duration : Byte) : Setup := ⟨0x21, 0x0A, duration ++ 0#8, interface, 0⟩
def getIdle (interface : BitVec 16) (length : BitVec 16) : Setup := ⟨0xA1, 0x02, 0, interface, length⟩

/-- What the host has set: what reading does not change. -/
structure Settings where
  config : Byte
  addr : Byte
  sleep : Byte
  enumerated : Bool
  idle : List Byte
  protocol : List Byte
  led : Byte
  devAddr : Byte
  eps : List (Bool × Resp)
  deriving DecidableEq, Repr

def State.settings (s : State) : Settings := ⟨s.config, s.addr, s.sleep, s.enumerated, s.idle, s.protocol, s.led, s.devAddr, s.eps⟩

/-! ## What the descriptors say -/

/-- Descriptors follow each other; the first byte of each is its length, which is at least two. `none`: something is left over. -/
def splitDescr : Nat → List Byte → Option (List (List Byte))
  | _, [] => some []
  | 0, _ => none
  | fuel + 1, b :: bs =>
    if b.toNat < 2 ∨ b.toNat > bs.length + 1 then none
    else (splitDescr fuel ((b :: bs).drop b.toNat)).map ((b :: bs).take b.toNat :: ·)

/-- A number of two bytes in a descriptor. -/
def word (d : List Byte) (i : Nat) : Nat := (d.getD i 0).toNat + 256 * (d.getD (i + 1) 0).toNat

/-- An end-point as the host knows it: address, kind (3: interrupt), the size of its packets, and how often it is asked. -/
structure Endpoint where
  address : Byte
  kind : Byte
  size : Nat
  interval : Byte
  deriving DecidableEq, Repr

/-- An interface as the host knows it: number, class (`kind`), subclass, protocol, its HID descriptor and its end-points. -/
structure Interface where
  number : Byte
  kind : Byte
  subclass : Byte
  protocol : Byte
  hid : List Byte := []
  endpoints : List Endpoint := []
  deriving DecidableEq, Repr

/-- The interfaces among the descriptors of a configuration: HID descriptors and end-points belong to the interface before them. A count of
end-points that is not right is an error. -/
def interfaces : List (List Byte) → Option (List Interface)
  | [] => some []
  | d :: ds =>
    match d with
    | [9, 4, number, _, count, cls, sub, proto, _] =>
      let own := ds.takeWhile fun d => d.getD 1 0 ≠ 4
      let eps := own.filterMap fun
        | [7, 5, address, kind, l, h, interval] => some (⟨address, kind, l.toNat + 256 * h.toNat, interval⟩ : Endpoint)
        | _ => none
      if eps.length ≠ count.toNat then none
      else (interfaces ds).map (⟨number, cls, sub, proto, ((own.filter fun d => d.getD 1 0 = 0x21)).flatten, eps⟩ :: ·)
    | _ => interfaces ds

/-- A configuration (USB 2.0, 9.6.3) with its interfaces: the total length and the number of interfaces have to be right. -/
def configuration (d : List Byte) : Option (Byte × List Interface) :=
  match splitDescr d.length d with
  | some ([9, 2, l, h, count, value, _, _, _] :: ds) =>
    match interfaces ds with
    | some is => if l.toNat + 256 * h.toNat = d.length ∧ count.toNat = is.length then some (value, is) else none
    | none => none
  | _ => none

/-- The length of the report descriptor by a HID descriptor (HID 1.11, 6.2.1). -/
def reportLength (hid : List Byte) : Option Nat :=
  match hid with
  | [9, 0x21, _, _, _, 1, 0x22, l, h] => some (l.toNat + 256 * h.toNat)
  | _ => none

/-- A string descriptor as text (USB 2.0, 9.6.7), for characters below 256. -/
def textOf : List Byte → List Char
  | c :: _ :: bs => Char.ofNat c.toNat :: textOf bs
  | _ => []

/-! ## Enumeration -/

/-- After a completed transfer. -/
def Outcome.bind (o : Outcome) {α : Type} (f : State → List Byte → Option α) : Option α :=
  match o with
  | .done s bs => f s bs
  | _ => none

/-- For each interface the host switches the repetition of reports off, and reads the report descriptor. -/
def reportDescriptors (s : State) : List Interface → Option (State × List (List Byte))
  | [] => some (s, [])
  | i :: is => do
    let n ← reportLength i.hid
    let s ← (write s (setIdle (i.number.setWidth 16) 0) []).bind fun s _ => some s
    let (s, d) ← (read s (getInterfaceDescriptor 0x22 (i.number.setWidth 16) (BitVec.ofNat 16 n))).bind fun s d => some (s, d)
    let (s, ds) ← reportDescriptors s is
    some (s, d :: ds)

/-- What a host does with a new device: bus reset, eight bytes of the device descriptor (for the size of the packets of end-point 0), an address, the device
descriptor, the configuration descriptor (first nine bytes, then all), the configuration, the report descriptors. -/
def enumerate (s : State) (address : Byte) : Option (State × List Byte × List Interface × List (List Byte)) := do
  let s := s.onReset
  let (s, d8) ← (read s (getDescriptor 1 0 0 8)).bind fun s d => some (s, d)
  if d8.getD 7 0 ≠ 64 then none
  let s ← (write s (setAddress address) []).bind fun s _ => some s
  let (s, dev) ← (read s (getDescriptor 1 0 0 18)).bind fun s d => some (s, d)
  let (s, c9) ← (read s (getDescriptor 2 0 0 9)).bind fun s d => some (s, d)
  let (s, c) ← (read s (getDescriptor 2 0 0 (BitVec.ofNat 16 (word c9 2)))).bind fun s d => some (s, d)
  let (value, is) ← configuration c
  let s ← (write s (setConfiguration value) []).bind fun s _ => some s
  let (s, rs) ← reportDescriptors s is
  some (s, dev, is, rs)

/-! ## Histories -/

/-- Packets have at most 64 bytes. -/
def Event.Fits : Event → Prop
  | .out _ data => data.length ≤ 64
  | _ => True

/-- A request for a descriptor says that data is to come from the device (or that there is no data). -/
def Event.Directed : Event → Prop
  | .setup r => r.type &&& 0x60 = 0 → r.request = 0x06 → r.type &&& 0x80 ≠ 0 ∨ r.length = 0
  | _ => True

/-- States of the device: after some history, from power on. -/
def Reached (s : State) : Prop := ∃ es, (∀ e ∈ es, Event.Fits e) ∧ State.run {} es = some s

/-- The descriptor a host asks for (USB 2.0, 9.4.3; HID 1.11, 7.1.1): of the device, of its configuration, a string; the HID descriptor of an interface is the one
among the descriptors of the configuration; the report descriptors of the interfaces 0 to 2 are those of the keyboard, the mouse and the consumer
control. -/
def stated (type index : Byte) (interface : BitVec 16) : Option (List Byte) :=
  match type.toNat, index.toNat with
  | 0x01, 0 => some deviceDescr
  | 0x02, 0 => some configDescr
  | 0x03, 0 => some langDescr
  | 0x03, 1 => some makerDescr
  | 0x03, 2 => some productDescr
  | 0x03, 3 => some serialDescr
  | 0x21, 0 => (configuration configDescr).bind fun c => (c.2.find? fun i => i.number.setWidth 16 = interface).map (·.hid)
  | 0x22, 0 => [Hid.usbKeyboard, Hid.usbMouse, Hid.usbConsumer][interface.toNat]?
  | _, _ => none

end Verif.Control
