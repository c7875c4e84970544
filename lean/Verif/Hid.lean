import Verif.Device
import Verif.Ble

/-!
# Report descriptors of the C firmwares, and the bytes they send
-/

namespace Verif.Hid

/-- `KeyRepDesc`, app/usb_desc.c (ch32x035) 142-174. -/
def usbKeyboard : List Byte := [
  0x05, 0x01, 0x09, 0x06, 0xA1, 0x01, 0x05, 0x07, 0x19, 0xE0, 0x29, 0xE7, 0x15, 0x00, 0x25, 0x01, 0x75, 0x01, 0x95, 0x08, 0x81, 0x02,
  0x95, 0x01, 0x75, 0x08, 0x81, 0x01, 0x95, 0x03, 0x75, 0x01, 0x05, 0x08, 0x19, 0x01, 0x29, 0x03, 0x91, 0x02, 0x95, 0x05, 0x75, 0x01,
  0x91, 0x01, 0x95, 0x06, 0x75, 0x08, 0x26, 0xFF, 0x00, 0x05, 0x07, 0x19, 0x00, 0x29, 0x91, 0x81, 0x00, 0xC0]

/-- `ConsumerRepDesc`, app/usb_desc.c (ch32x035) 180-193. -/
def usbConsumer : List Byte := [
  0x05, 0x0C, 0x09, 0x01, 0xA1, 0x01, 0x15, 0x00, 0x26, 0xFF, 0x00, 0x19, 0x00, 0x2A, 0xFF, 0x00, 0x75, 0x08, 0x95, 0x04, 0x81, 0x00,
  0xC0]

/-- `MouseRepDesc`, app/usb_desc.c (ch32x035) 198-227. -/
def usbMouse : List Byte := [
  0x05, 0x01, 0x09, 0x02, 0xA1, 0x01, 0x09, 0x01, 0xA1, 0x00, 0x05, 0x09, 0x19, 0x01, 0x29, 0x03, 0x15, 0x00, 0x25, 0x01, 0x75, 0x01,
  0x95, 0x03, 0x81, 0x02, 0x75, 0x05, 0x95, 0x01, 0x81, 0x01, 0x05, 0x01, 0x09, 0x30, 0x09, 0x31, 0x09, 0x38, 0x15, 0x81, 0x25, 0x7F,
  0x75, 0x08, 0x95, 0x03, 0x81, 0x06, 0xC0, 0xC0]

/-- `hidReportMap`, Profile/hidkbdservice.c (ch58x) 93-190; the report numbers are those of Profile/include/hidkbdservice.h 33-35. -/
def bleMap : List Byte := [
  0x05, 0x01, 0x09, 0x06, 0xA1, 0x01, 0x85, 0x01, 0x05, 0x07, 0x19, 0xE0, 0x29, 0xE7, 0x15, 0x00, 0x25, 0x01, 0x75, 0x01, 0x95, 0x08,
  0x81, 0x02, 0x95, 0x01, 0x75, 0x08, 0x81, 0x01, 0x95, 0x05, 0x75, 0x01, 0x05, 0x08, 0x19, 0x01, 0x29, 0x05, 0x91, 0x02, 0x95, 0x01,
  0x75, 0x03, 0x91, 0x01, 0x95, 0x06, 0x75, 0x08, 0x15, 0x00, 0x25, 0x65, 0x05, 0x07, 0x19, 0x00, 0x29, 0x65, 0x81, 0x00, 0xC0,
  0x05, 0x01, 0x09, 0x02, 0xA1, 0x01, 0x85, 0x02, 0x09, 0x01, 0xA1, 0x00, 0x05, 0x09, 0x19, 0x01, 0x29, 0x03, 0x15, 0x00, 0x25, 0x01,
  0x75, 0x01, 0x95, 0x03, 0x81, 0x02, 0x75, 0x05, 0x95, 0x01, 0x81, 0x03, 0x05, 0x01, 0x09, 0x30, 0x09, 0x31, 0x09, 0x38, 0x15, 0x81,
  0x25, 0x7F, 0x75, 0x08, 0x95, 0x03, 0x81, 0x06, 0xC0, 0x05, 0x0C, 0x0A, 0x38, 0x02, 0x15, 0x81, 0x25, 0x7F, 0x75, 0x08, 0x95, 0x01,
  0x81, 0x06, 0xC0,
  0x05, 0x0C, 0x09, 0x01, 0xA1, 0x01, 0x85, 0x03, 0x19, 0x00, 0x2A, 0xFF, 0x03, 0x15, 0x00, 0x26, 0xFF, 0x03, 0x75, 0x10, 0x95, 0x02,
  0x81, 0x00, 0xC0]

/-- The report number and the bytes of what is handed to the Bluetooth stack, APP/hidkbd.c (ch58x) 432-457: the first 8 bytes of
`keyboard`, and `mouse` and `consumer` as they are in memory. `KeymapHidMouseReport` (smart_keymap/src/lib.rs 127-138) is a
`#[repr(C)]` struct of five one-byte fields. -/
def bleBytes : Ble.Sent → Nat × List Byte
  | .keyboard bs => (1, bs.take 8)
  | .mouse m => (2, [m.buttons, BitVec.ofInt 8 m.x, BitVec.ofInt 8 m.y, BitVec.ofInt 8 m.vscroll, BitVec.ofInt 8 m.hscroll])
  | .consumer bs => (3, bs)

end Verif.Hid
