import Verif.Keymap

/-!
# The C library, smart_keymap/src/lib.rs

The global `KEYMAP` is the state argument. Pointers and `repr(C)` layout are not modelled.
-/

namespace Verif.CApi

/-- `KEYMAP_HID_REPORT_CUSTOM_LEN`, smart_keymap/src/lib.rs 52. -/
def customLen : Nat := 6
/-- `KEYMAP_HID_REPORT_CONSUMER_LEN`, smart_keymap/src/lib.rs 55. -/
def consumerLen : Nat := 4

/-- `KeymapInputEventType`, smart_keymap/src/lib.rs 59-68. -/
inductive EventType where
  | press | release | virtualPress | virtualRelease
  deriving DecidableEq, Repr

/-- `KeymapInputEvent`, smart_keymap/src/lib.rs 74-79; `value` is a `u16`. -/
structure CEvent where
  type : EventType
  value : Nat
  deriving DecidableEq, Repr

/-- `From<KeymapInputEvent> for input::Event`, smart_keymap/src/lib.rs 81-100. -/
def CEvent.toInput (e : CEvent) : InputEvent :=
  match e.type with
  | .press => .press e.value
  | .release => .release e.value
  | .virtualPress => .vpress (KeyOutput.fromKeyCode (BitVec.ofNat 8 e.value))
  | .virtualRelease => .vrelease (KeyOutput.fromKeyCode (BitVec.ofNat 8 e.value))

/-- `From<input::Event> for KeymapInputEvent`, smart_keymap/src/lib.rs 102-123 (`todo!()` for virtual
events). -/
def CEvent.ofInput : InputEvent → Res CEvent
  | .press i => .ok ⟨.press, i⟩
  | .release i => .ok ⟨.release, i⟩
  | .vpress _ => .panic .explicit
  | .vrelease _ => .panic .explicit

/-- `KeymapHidReport`, smart_keymap/src/lib.rs 153-163 (`KeymapHidMouseReport` has the fields of
`MouseOutput`, 126-150). -/
structure HidReport where
  keyboard : List Byte
  custom : List Byte
  consumer : List Byte
  mouse : MouseOutput
  deriving DecidableEq, Repr

/-- `dst[..src.len()].copy_from_slice(src)` for `src` not longer than `dst`. -/
def copyInto (dst src : List Byte) : List Byte := src ++ dst.drop src.length

/-- `KeymapHidReport::update_from_keymap_output`, smart_keymap/src/lib.rs 166-182, on a report whose
arrays have their lengths 8, 6 and 4. -/
def HidReport.update (r : HidReport) (out : KeymapOutput) : Res HidReport := do
  let keyboard := copyInto r.keyboard (KeymapOutput.asBootReport out)
  let custom ← KeymapOutput.pressedCustomCodes out
  let consumer ← KeymapOutput.pressedConsumerCodes out
  pure {
    keyboard := keyboard
    custom := copyInto (List.replicate customLen 0) (custom.take (min customLen custom.length))
    consumer := copyInto (List.replicate consumerLen 0) (consumer.take (min consumerLen consumer.length))
    mouse := KeymapOutput.pressedMouseOutput out }

variable {R Ev Ctx PKS KS : Type} (C : Cfg R Ev Ctx PKS KS)

/-- `keymap_register_input_event`, smart_keymap/src/lib.rs 271-275. -/
def registerInputEvent (n : Nat) (km : KM R Ev Ctx PKS KS) (e : CEvent) : Res (KM R Ev Ctx PKS KS) :=
  handleInput C n km e.toInput

/-- `keymap_register_input_keypress`, smart_keymap/src/lib.rs 280-285. -/
def registerKeypress (n : Nat) (km : KM R Ev Ctx PKS KS) (i : Nat) : Res (KM R Ev Ctx PKS KS) :=
  registerInputEvent C n km ⟨.press, i⟩

/-- `keymap_register_input_keyrelease`, smart_keymap/src/lib.rs 290-295. -/
def registerKeyrelease (n : Nat) (km : KM R Ev Ctx PKS KS) (i : Nat) : Res (KM R Ev Ctx PKS KS) :=
  registerInputEvent C n km ⟨.release, i⟩

/-- `keymap_tick`, smart_keymap/src/lib.rs 310-320. -/
def keymapTick (n : Nat) (km : KM R Ev Ctx PKS KS) (r : HidReport) :
    Res (KM R Ev Ctx PKS KS × HidReport) := do
  let km ← tick C n km
  let (km, out) ← reportOutput C km
  let r ← r.update out
  pure (km, r)

/-- The final `debug_assert!(next_ms > 0)` and `map_or(0, ..)`, smart_keymap/src/lib.rs 344-348. -/
def nextMs : Option Nat → Res Nat
  | some 0 => .panic .assertion
  | some t => .ok t
  | none => .ok 0

/-- `keymap_register_input_after_ms`, smart_keymap/src/lib.rs 333-350. -/
def registerInputAfterMs (n : Nat) (km : KM R Ev Ctx PKS KS) (delta : Nat) (e : CEvent)
    (r : HidReport) : Res (KM R Ev Ctx PKS KS × HidReport × Nat) := do
  let (km, next) ← handleInputAfterTime C n km delta e.toInput
  let (km, out) ← reportOutput C km
  let r ← r.update out
  let t ← nextMs next
  pure (km, r, t)

/-- `keymap_next_event_timeout`, smart_keymap/src/lib.rs 362-376. -/
def nextEventTimeout (n : Nat) (km : KM R Ev Ctx PKS KS) (r : HidReport) :
    Res (KM R Ev Ctx PKS KS × HidReport × Nat) := do
  let (km, next) ← tickToNext C n km
  let (km, out) ← reportOutput C km
  let r ← r.update out
  let t ← nextMs next
  pure (km, r, t)

/-- `keymap_register_callback`, smart_keymap/src/lib.rs 396-411: identifiers other than 0 and 1 are
ignored. -/
def registerCallback (km : KM R Ev Ctx PKS KS) (id f : Nat) : Res (KM R Ev Ctx PKS KS) :=
  match id with
  | 0 => km.setCallback .reset f
  | 1 => km.setCallback .resetToBootloader f
  | _ => .ok km

end Verif.CApi
