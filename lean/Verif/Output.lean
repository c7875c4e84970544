import Verif.Types

/-!
# `KeyboardModifiers`, `KeyOutput`, `MouseOutput` (src/key.rs) and `KeymapOutput` (src/keymap.rs)
-/

namespace Verif

namespace Mods

/-- The modifier bits with their key codes, in the order of src/key.rs 386-415. -/
def table : List (Byte × Byte) :=
  [(0x01, 0xE0), (0x02, 0xE1), (0x04, 0xE2), (0x08, 0xE3),
   (0x10, 0xE4), (0x20, 0xE5), (0x40, 0xE6), (0x80, 0xE7)]

/-- `KeyboardModifiers::from_byte`, src/key.rs 330-332: a newtype constructor. -/
def fromByte (b : Byte) : Byte := b

/-- `KeyboardModifiers::from_key_code`, src/key.rs 337-349. -/
def fromKeyCode (kc : Byte) : Option Byte :=
  if kc = 0xE0 then some 0x01
  else if kc = 0xE1 then some 0x02
  else if kc = 0xE2 then some 0x04
  else if kc = 0xE3 then some 0x08
  else if kc = 0xE4 then some 0x10
  else if kc = 0xE5 then some 0x20
  else if kc = 0xE6 then some 0x40
  else if kc = 0xE7 then some 0x80
  else none

/-- `KeyboardModifiers::is_modifier_key_code`, src/key.rs 381-383. -/
def isModifierKeyCode (kc : Byte) : Bool := 0xE0 ≤ kc && kc ≤ 0xE7

/-- `KeyboardModifiers::as_key_codes`, src/key.rs 386-415 (eight `if`s in a row, pushing at most 8
codes into a vector of capacity 8). -/
def asKeyCodes (m : Byte) : List Byte :=
  table.filterMap fun (bit, kc) => if m &&& bit ≠ 0 then some kc else none

/-- `KeyboardModifiers::as_byte`, src/key.rs 418-422. -/
def asByte (m : Byte) : Byte :=
  (asKeyCodes m).foldl (fun acc kc => acc ||| (1#8 <<< (kc - 0xE0).toNat)) 0

/-- `KeyboardModifiers::union`, src/key.rs 425-427. -/
def union (a b : Byte) : Byte := a ||| b

/-- `KeyboardModifiers::has_modifiers`, src/key.rs 430-432. -/
def hasModifiers (a b : Byte) : Bool := a &&& b ≠ 0

end Mods

/-- `i8::saturating_add` on values in range. -/
def satAddI8 (a b : Int) : Int := max (-128) (min 127 (a + b))

namespace MouseOutput

/-- `MouseOutput::NO_OUTPUT`, src/key.rs 624-630. -/
def none : MouseOutput := ⟨0, 0, 0, 0, 0⟩

/-- `MouseOutput::combine`, src/key.rs 633-644. -/
def combine (a b : MouseOutput) : MouseOutput where
  buttons := a.buttons ||| b.buttons
  x := satAddI8 a.x b.x
  y := satAddI8 a.y b.y
  vscroll := satAddI8 a.vscroll b.vscroll
  hscroll := satAddI8 a.hscroll b.hscroll

end MouseOutput

namespace KeyOutput

/-- `KeyOutput::NO_OUTPUT`, src/key.rs 493-496. -/
def none : KeyOutput := ⟨.keyboard 0, 0⟩

/-- `KeyOutput::from_key_code`, src/key.rs 535-547. -/
def fromKeyCode (kc : Byte) : KeyOutput :=
  match Mods.fromKeyCode kc with
  | some m => ⟨.keyboard 0, m⟩
  | Option.none => ⟨.keyboard kc, 0⟩

/-- `KeyOutput::from_key_code_with_modifiers`, src/key.rs 550-562. -/
def fromKeyCodeWithModifiers (kc mods : Byte) : KeyOutput :=
  let ko := fromKeyCode kc
  ⟨ko.usage, Mods.union ko.mods mods⟩

/-- `KeyOutput::from_key_modifiers`, src/key.rs 565-570. -/
def fromKeyModifiers (mods : Byte) : KeyOutput := ⟨.keyboard 0, mods⟩

/-- `KeyOutput::from_consumer_code`, src/key.rs 573-578. -/
def fromConsumerCode (uc : Byte) : KeyOutput := ⟨.consumer uc, 0⟩

/-- `KeyOutput::from_custom_code`, src/key.rs 581-586. -/
def fromCustomCode (cc : Byte) : KeyOutput := ⟨.custom cc, 0⟩

/-- `KeyOutput::from_mouse_output`, src/key.rs 589-594. -/
def fromMouseOutput (mo : MouseOutput) : KeyOutput := ⟨.mouse mo, 0⟩

/-- `KeyOutput::from_usage`, src/key.rs 499-506. -/
def fromUsage : KeyUsage → KeyOutput
  | .keyboard kc => fromKeyCode kc
  | .consumer cc => fromConsumerCode cc
  | .custom cu => fromCustomCode cu
  | .mouse mo => fromMouseOutput mo

/-- `KeyOutput::from_usage_with_modifiers`, src/key.rs 509-532. -/
def fromUsageWithModifiers (u : KeyUsage) (mods : Byte) : KeyOutput :=
  match u with
  | .keyboard kc =>
    match Mods.fromKeyCode kc with
    | some m => ⟨.keyboard 0, Mods.union m mods⟩
    | Option.none => ⟨.keyboard kc, mods⟩
  | u => ⟨u, mods⟩

/-- The closure of src/keymap.rs 76-79 and 101-104. -/
def keyboardCode? (ko : KeyOutput) : Option Byte :=
  match ko.usage with | .keyboard kc => some kc | _ => Option.none

/-- The closure of src/keymap.rs 118-121. -/
def consumerCode? (ko : KeyOutput) : Option Byte :=
  match ko.usage with | .consumer uc => some uc | _ => Option.none

/-- The closure of src/keymap.rs 129-132. -/
def customCode? (ko : KeyOutput) : Option Byte :=
  match ko.usage with | .custom cc => some cc | _ => Option.none

/-- The closure of src/keymap.rs 140-143. -/
def mouse? (ko : KeyOutput) : Option MouseOutput :=
  match ko.usage with | .mouse mo => some mo | _ => Option.none

end KeyOutput

/-- `MAX_PRESSED_KEYS`, src/keymap.rs 33. -/
def maxPressedKeys : Nat := 16

/-- `KeymapOutput`, src/keymap.rs 40-44: the list of pressed key outputs (at most 16). -/
abbrev KeymapOutput := List KeyOutput

namespace KeymapOutput

/-- The fold of src/keymap.rs 64-69 and 89-94. -/
def modifiers (out : KeymapOutput) : Byte :=
  out.foldl (fun acc ko => Mods.union acc ko.mods) 0

/-- `KeymapOutput::pressed_key_codes`, src/keymap.rs 61-83. -/
def pressedKeyCodes (out : KeymapOutput) : Res (List Byte) := do
  let r ← extendCap 24 [] (Mods.asKeyCodes (modifiers out))
  extendCap 24 r (out.filterMap KeyOutput.keyboardCode?)

/-- Assignment `report[i] = v` for `i` in range. -/
def setAt (report : List Byte) (i : Nat) (v : Byte) : List Byte := report.set i v

/-- The loop of src/keymap.rs 107-109: `report[i + 2] = key_code`. -/
def fillCodes (report : List Byte) (i : Nat) : List Byte → List Byte
  | [] => report
  | kc :: kcs => fillCodes (setAt report (i + 2) kc) (i + 1) kcs

/-- `KeymapOutput::as_hid_boot_keyboard_report`, src/keymap.rs 86-112. -/
def asBootReport (out : KeymapOutput) : List Byte :=
  let report := List.replicate 8 (0 : Byte)
  let report := setAt report 0 (Mods.asByte (modifiers out))
  let codes := (out.filterMap KeyOutput.keyboardCode?).filter (fun kc => kc ≠ 0)
  fillCodes report 0 (codes.take 6)

/-- `KeymapOutput::pressed_consumer_codes`, src/keymap.rs 115-123 (capacity 24; `collect` panics on
overflow). -/
def pressedConsumerCodes (out : KeymapOutput) : Res (List Byte) :=
  extendCap 24 [] (out.filterMap KeyOutput.consumerCode?)

/-- `KeymapOutput::pressed_custom_codes`, src/keymap.rs 126-134. -/
def pressedCustomCodes (out : KeymapOutput) : Res (List Byte) :=
  extendCap 24 [] (out.filterMap KeyOutput.customCode?)

/-- `KeymapOutput::pressed_mouse_output`, src/keymap.rs 137-145. -/
def pressedMouseOutput (out : KeymapOutput) : MouseOutput :=
  (out.filterMap KeyOutput.mouse?).foldl MouseOutput.combine MouseOutput.none

end KeymapOutput

end Verif
