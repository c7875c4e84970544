import Verif.CApi

/-!
# The split keyboard protocol, src/split.rs

`postcard` (1.1.1) and `cobs` (0.2.3) are external crates whose sources are not in the repository; the
functions of them used by src/split.rs are modelled here from their documented wire format, and agree with
the bytes in the tests of src/split.rs 49-112 (see the examples in `Props/Split.lean`).
-/

namespace Verif.Split

/-- `BUFFER_SIZE`, src/split.rs 6-7. -/
def bufferSize : Nat := 4

/-- The varint of `postcard` for an unsigned integer whose varint has at most `max` bytes: seven bits per
byte, the lowest first, the top bit set in all bytes but the last. -/
def varint : (max : Nat) → (v : Nat) → List Byte
  | 0, _ => []
  | max + 1, v => if v < 128 then [BitVec.ofNat 8 v] else BitVec.ofNat 8 (v % 128 + 128) :: varint max (v / 128)

/-- An `i8` as a byte. -/
def i8Byte (x : Int) : Byte := BitVec.ofInt 8 x

/-- `derive(Serialize)` of `KeyUsage`, src/key.rs 434-446, and `MouseOutput`, src/key.rs 608-620: the
number of the variant as a varint, then the fields. -/
def encodeUsage : KeyUsage → List Byte
  | .keyboard kc => [0, kc]
  | .consumer uc => [1, uc]
  | .custom cc => [2, cc]
  | .mouse mo => [3, mo.buttons, i8Byte mo.x, i8Byte mo.y, i8Byte mo.vscroll, i8Byte mo.hscroll]

/-- `derive(Serialize)` of `KeyOutput`, src/key.rs 458-465, and `KeyboardModifiers`, src/key.rs 264-265. -/
def encodeOutput (ko : KeyOutput) : List Byte := encodeUsage ko.usage ++ [ko.mods]

/-- `derive(Serialize)` of `input::Event`, src/input.rs 6-28, and `Message`, src/split.rs 10-14: the number
of the variant, then the field; a `u16` is a varint of at most 3 bytes. -/
def encodeEvent : InputEvent → List Byte
  | .press i => 0 :: varint 3 i
  | .release i => 1 :: varint 3 i
  | .vpress ko => 2 :: encodeOutput ko
  | .vrelease ko => 3 :: encodeOutput ko

/-- `cobs::EncoderState` writing to a slice: the bytes written, the place of the last code byte and its
value. -/
structure Cobs where
  out : List Byte
  codeIdx : Nat
  num : Nat

/-- Writing a byte to the slice of `bufferSize` bytes (`none`: the buffer is full). -/
def pushByte (out : List Byte) (b : Byte) : Option (List Byte) :=
  if out.length < bufferSize then some (out ++ [b]) else none

/-- `postcard::ser_flavors::Cobs::try_push`. A run of 254 non-zero bytes, which would need another code
byte, does not fit the buffer and is not modelled. -/
def Cobs.push (s : Cobs) (b : Byte) : Option Cobs :=
  if b = 0 then do
    let out ← pushByte (s.out.set s.codeIdx (BitVec.ofNat 8 s.num)) 0
    some ⟨out, s.out.length, 1⟩
  else do
    let out ← pushByte s.out b
    some ⟨out, s.codeIdx, s.num + 1⟩

/-- Writing several bytes. -/
def Cobs.pushAll (s : Cobs) : List Byte → Option Cobs
  | [] => some s
  | b :: bs => (s.push b).bind fun s => s.pushAll bs

/-- `postcard::to_slice_cobs`: the code byte, the message, the terminating zero (`none`: the buffer is
full). -/
def toSliceCobs (payload : List Byte) : Option (List Byte) := do
  let out ← pushByte [] 0
  let s ← Cobs.pushAll ⟨out, 0, 1⟩ payload
  pushByte (s.out.set s.codeIdx (BitVec.ofNat 8 s.num)) 0

/-- `Message::serialize`, src/split.rs 22-27: into a buffer of zeros; `unwrap` of the error panics. -/
def serialize (e : InputEvent) : Res (List Byte) :=
  match toSliceCobs (encodeEvent e) with
  | some bs => .ok (bs ++ List.replicate (bufferSize - bs.length) 0)
  | none => .panic .unwrap

/-- The loop of `cobs::decode_in_place` on the bytes before the first zero: a code byte `c`, then `c - 1`
bytes, then a zero unless the code is 255 or nothing follows. The first argument bounds the number of code
bytes. The decoder works in place; it writes below the place it reads, so the result is the same. -/
def cobsLoop : Nat → List Byte → Option (List Byte)
  | _, [] => some []
  | 0, _ => none
  | n + 1, code :: rest =>
    if code.toNat > rest.length + 1 ∧ code ≠ 1 then none
    else do
      let rest' := rest.drop (code.toNat - 1)
      let tail ← cobsLoop n rest'
      some (rest.take (code.toNat - 1) ++ (if code ≠ 0xFF ∧ rest' ≠ [] then [0] else []) ++ tail)

/-- `cobs::decode_in_place`: it stops at the first zero (`test_buf_receive_byte`, src/split.rs 90-112, needs
this: the buffer then holds bytes of two messages). -/
def cobsDecode (bs : List Byte) : Option (List Byte) :=
  let src := bs.takeWhile (· ≠ 0)
  cobsLoop src.length src

/-- Reading a varint of at most `max` bytes, whose last byte may be at most `last`
(`Deserializer::try_take_varint_u16`, `_u32` of `postcard`). -/
def takeVarint : (max last : Nat) → List Byte → Option (Nat × List Byte)
  | 0, _, _ => none
  | _ + 1, _, [] => none
  | max + 1, last, b :: bs =>
    if b.toNat < 128 then
      if max = 0 ∧ b.toNat > last then none else some (b.toNat, bs)
    else do
      let (v, bs) ← takeVarint max last bs
      some (b.toNat - 128 + 128 * v, bs)

/-- Reading the number of an enum variant: a `u32`, so at most 5 bytes, the last of them at most 15. -/
def takeVariant (bs : List Byte) : Option (Nat × List Byte) := takeVarint 5 15 bs

/-- Reading a `u16`: at most 3 bytes, the last of them at most 3. -/
def takeU16 (bs : List Byte) : Option (Nat × List Byte) := takeVarint 3 3 bs

/-- `derive(Deserialize)` of `KeyUsage`, src/key.rs 434-446, and `MouseOutput`, src/key.rs 608-620. -/
def decodeUsage (bs : List Byte) : Option (KeyUsage × List Byte) := do
  let (d, bs) ← takeVariant bs
  match d, bs with
  | 0, kc :: bs => some (.keyboard kc, bs)
  | 1, uc :: bs => some (.consumer uc, bs)
  | 2, cc :: bs => some (.custom cc, bs)
  | 3, b :: x :: y :: v :: h :: bs => some (.mouse ⟨b, x.toInt, y.toInt, v.toInt, h.toInt⟩, bs)
  | _, _ => none

/-- `derive(Deserialize)` of `KeyOutput`, src/key.rs 458-465, and `KeyboardModifiers`, src/key.rs 264-265. -/
def decodeOutput (bs : List Byte) : Option (KeyOutput × List Byte) := do
  let (u, bs) ← decodeUsage bs
  match bs with
  | m :: bs => some (⟨u, m⟩, bs)
  | [] => none

/-- `derive(Deserialize)` of `input::Event`, src/input.rs 6-28, and `Message`, src/split.rs 10-14, with
`postcard::from_bytes`, which ignores bytes after the message. -/
def decodeEvent (bs : List Byte) : Option InputEvent := do
  let (d, bs) ← takeVariant bs
  match d with
  | 0 => (takeU16 bs).map fun p => .press p.1
  | 1 => (takeU16 bs).map fun p => .release p.1
  | 2 => (decodeOutput bs).map fun p => .vpress p.1
  | 3 => (decodeOutput bs).map fun p => .vrelease p.1
  | _ => none

/-- `Message::deserialize`, src/split.rs 29-34, of at least `bufferSize` bytes (`none`: an error); fewer
bytes make the slicing panic, which is not modelled: all callers pass a buffer of `bufferSize` bytes. -/
def deserialize (bytes : List Byte) : Option InputEvent :=
  (cobsDecode (bytes.take bufferSize)).bind decodeEvent

/-- `receive_byte`, src/split.rs 37-43: the new buffer and the message, if any. -/
def receiveByte (buf : List Byte) (b : Byte) : List Byte × Option InputEvent :=
  let buf := (buf.rotateLeft 1).set (bufferSize - 1) b
  (buf, deserialize buf)

/-- `receive_byte` for each of some bytes: the messages found at each byte. -/
def receive (buf : List Byte) : List Byte → List (Option InputEvent)
  | [] => []
  | b :: bs => (receiveByte buf b).2 :: receive (receiveByte buf b).1 bs

/-- `keymap_message_buffer_receive_byte`, smart_keymap/src/lib.rs 450-466: the event stored for the caller,
if any. -/
def messageBufferReceiveByte (buf : List Byte) (b : Byte) : Res (List Byte × Option CApi.CEvent) :=
  match receiveByte buf b with
  | (buf, some e) => do
    let c ← CApi.CEvent.ofInput e
    .ok (buf, some c)
  | (buf, none) => .ok (buf, none)

/-- `keymap_serialize_event`, smart_keymap/src/lib.rs 440-448. -/
def serializeEvent (e : CApi.CEvent) : Res (List Byte) := serialize e.toInput

/-- `keymap_split_receive_bytes`, firmware/ch32x035-usb-device-compositekm-c/keyboard/keyboard_split_rx_dma.c
31-42: the events given to `keymap_register_input_event`. -/
def receiveBytes (buf : List Byte) : List Byte → Res (List Byte × List CApi.CEvent)
  | [] => .ok (buf, [])
  | b :: bs => do
    let (buf, ev) ← messageBufferReceiveByte buf b
    let (buf, evs) ← receiveBytes buf bs
    .ok (buf, ev.toList ++ evs)

end Verif.Split
