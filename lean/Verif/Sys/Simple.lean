import Verif.Output

/-!
# Keys without pending state or events: keyboard, consumer, custom, mouse; and callback keys

src/key/keyboard.rs, src/key/consumer.rs, src/key/custom.rs, src/key/mouse.rs, src/key/callback.rs.
The first four systems resolve at once (`new_pressed_key` returns `Resolved(KeyState)` and no
events: keyboard.rs 112-125, consumer.rs, custom.rs, mouse.rs 68-81), never react to events
(`update_state` of keyboard.rs 138-147, consumer.rs, mouse.rs 94-103 returns no events), and only
differ in their output.
-/

namespace Verif

namespace Keyboard

/-- `keyboard::Ref`, src/key/keyboard.rs 9-18. -/
inductive Ref where
  | keyCode (kc : Byte)
  | modifiers (m : Byte)
  | keyCodeAndModifier (i : Nat)
  deriving DecidableEq, Repr

/-- `keyboard::Key`, src/key/keyboard.rs 22-29. -/
structure Key where
  keyCode : Byte
  modifiers : Byte
  deriving DecidableEq, Repr

/-- `System::key_output`, src/key/keyboard.rs 149-169. -/
def keyOutput (keys : List Key) : Ref → Res (Option KeyOutput)
  | .keyCode kc => .ok (some (KeyOutput.fromKeyCode kc))
  | .modifiers m => .ok (some (KeyOutput.fromKeyModifiers (Mods.fromByte m)))
  | .keyCodeAndModifier i => do
    let k ← Res.index keys i
    pure (some (KeyOutput.fromKeyCodeWithModifiers k.keyCode k.modifiers))

end Keyboard

namespace Consumer

/-- `System::key_output`, src/key/consumer.rs 89-97, for `Ref::UsageCode(uc)`. -/
def keyOutput (uc : Byte) : Option KeyOutput := some (KeyOutput.fromConsumerCode uc)

end Consumer

namespace Custom

/-- `System::key_output`, src/key/custom.rs 88-94, for `Ref(cc)`. -/
def keyOutput (cc : Byte) : Option KeyOutput := some (KeyOutput.fromCustomCode cc)

end Custom

namespace Mouse

/-- `mouse::Ref`, src/key/mouse.rs 9-28. -/
inductive Ref where
  | button (b : Nat)
  | cursorLeft | cursorRight | cursorUp | cursorDown
  | wheelUp | wheelDown | wheelLeft | wheelRight
  deriving DecidableEq, Repr

/-- `System::key_output`, src/key/mouse.rs 105-150. `1 << (b - 1)` overflows (a panic in the debug
profile) unless `1 ≤ b ≤ 8`. -/
def keyOutput : Ref → Res (Option KeyOutput)
  | .button b =>
    if 1 ≤ b ∧ b ≤ 8 then
      .ok (some (KeyOutput.fromMouseOutput { MouseOutput.none with buttons := 1#8 <<< (b - 1) }))
    else .panic .arith
  | .cursorLeft => .ok (some (KeyOutput.fromMouseOutput { MouseOutput.none with x := -5 }))
  | .cursorRight => .ok (some (KeyOutput.fromMouseOutput { MouseOutput.none with x := 5 }))
  | .cursorUp => .ok (some (KeyOutput.fromMouseOutput { MouseOutput.none with y := -5 }))
  | .cursorDown => .ok (some (KeyOutput.fromMouseOutput { MouseOutput.none with y := 5 }))
  | .wheelUp => .ok (some (KeyOutput.fromMouseOutput { MouseOutput.none with vscroll := 1 }))
  | .wheelDown => .ok (some (KeyOutput.fromMouseOutput { MouseOutput.none with vscroll := -1 }))
  | .wheelLeft => .ok (some (KeyOutput.fromMouseOutput { MouseOutput.none with hscroll := -1 }))
  | .wheelRight => .ok (some (KeyOutput.fromMouseOutput { MouseOutput.none with hscroll := 1 }))

end Mouse

namespace CallbackKey

/-- `System::new_pressed_key`, src/key/callback.rs 71-85: the events of pressing callback key
number `i` (the pressed-key result is `NewPressedKey(NoOp)`). Generic in the event type, as a
callback key emits no key event of its own. -/
def newPressedKey {E : Type} (keys : List Callback) (i : Nat) : Res (KeyEvents E) := do
  let cb ← Res.index keys i
  pure [SchEv.imm (.keymap (.callback cb))]

end CallbackKey

end Verif
