import Verif.Output

/-!
# Caps word, src/key/caps_word.rs
-/

namespace Verif.CapsWord

/-- `caps_word::Event`, src/key/caps_word.rs 104-109. -/
inductive Ev where
  | enable
  | disable
  deriving DecidableEq, Repr

/-- `caps_word::Context`, src/key/caps_word.rs 16-18. -/
structure Ctx where
  active : Bool
  deriving DecidableEq, Repr

/-- `Context::new`, src/key/caps_word.rs 22-24. -/
def Ctx.new : Ctx := ⟨false⟩

/-- The key output of the virtual shift key, src/key/caps_word.rs 60-63, 73-76, 82-85. -/
def shift : KeyOutput := KeyOutput.fromKeyCode 0xE1

/-- `exit_caps_word`, src/key/caps_word.rs 42-55. -/
def exits (kc mods : Byte) : Bool :=
  let isShifted := Mods.hasModifiers mods (Mods.union 0x02 0x20)
  if 0x04 ≤ kc ∧ kc ≤ 0x1D then false
  else if (0x1E ≤ kc ∧ kc ≤ 0x27) ∧ isShifted = false then false
  else if kc = 0x2A then false
  else if kc = 0x2D then false
  else if kc = 0x4C then false
  else if kc = 0xE1 then false
  else if kc = 0xE5 then false
  else if kc = 0x00 then false
  else true

/-- `Context::handle_event`, src/key/caps_word.rs 27-91. -/
def Ctx.handleEvent (c : Ctx) : Event Ev → Ctx × KeyEvents Ev
  | .keymap (.resolved _ ko) =>
    match ko.usage, c.active with
    | .keyboard kc, true =>
      if exits kc ko.mods then (⟨false⟩, [SchEv.imm (.input (.vrelease shift))]) else (c, [])
    | _, _ => (c, [])
  | .key _ .enable => (⟨true⟩, [SchEv.imm (.input (.vpress shift))])
  | .key _ .disable => (⟨false⟩, [SchEv.imm (.input (.vrelease shift))])
  | _ => (c, [])

/-- `Key::new_pressed_key`, src/key/caps_word.rs 125-136: the events of pressing the caps word key
(the pressed-key result is `NewPressedKey(NoOp)`, 187). -/
def newPressedKey (c : Ctx) (idx : Nat) : KeyEvents Ev :=
  [SchEv.imm (.key idx (if c.active then .disable else .enable))]

end Verif.CapsWord
