import Verif.Output

/-!
# Sticky modifier keys, src/key/sticky.rs
-/

namespace Verif.Sticky

/-- `StickyKeyRelease`, src/key/sticky.rs 28-33. (`StickyKeyActivation`, 18-24, has one value.) -/
inductive Release where
  | onModifiedKeyRelease
  | onNextKeyPress
  deriving DecidableEq, Repr

/-- `MAX_STICKY_MODIFIERS`, src/key/sticky.rs 80. -/
def maxStickyModifiers : Nat := 4

/-- `sticky::Context`, src/key/sticky.rs 106-115. `active` is the used prefix
`active_modifiers[..active_modifier_count]` of the array; the rest of the array is never read. -/
structure Ctx where
  release : Release
  active : List Byte
  pressedIdx : Option Nat
  deriving DecidableEq, Repr

/-- `Context::from_config`, src/key/sticky.rs 135-142. -/
def Ctx.fromConfig (r : Release) : Ctx := ⟨r, [], none⟩

/-- `sticky::Event`, src/key/sticky.rs 292-295. -/
inductive Ev where
  | activateModifiers (m : Byte)
  deriving DecidableEq, Repr

/-- The loop pushing a virtual key release per active modifier, src/key/sticky.rs 233-243 and
260-270 (`add_event` panics beyond the capacity of `KeyEvents`). -/
def releaseAll (es : KeyEvents Ev) : List Byte → Res (KeyEvents Ev)
  | [] => .ok es
  | m :: ms => do
    let es ← es.push (SchEv.imm (.input (.vrelease (KeyOutput.fromKeyModifiers m))))
    releaseAll es ms

/-- `Context::handle_event`, src/key/sticky.rs 145-279. -/
def Ctx.handleEvent (c : Ctx) : Event Ev → Res (Ctx × KeyEvents Ev)
  | .key _ (.activateModifiers m) =>
    if c.active.length < maxStickyModifiers then .ok ({ c with active := c.active ++ [m] }, [])
    else .ok (c, [])
  | .keymap (.resolved idx _) =>
    if c.active.length > 0 then .ok ({ c with pressedIdx := some idx }, []) else .ok (c, [])
  | .input (.release idx) =>
    if some idx = c.pressedIdx ∧ c.active.length > 0 then do
      let es ← releaseAll [] c.active
      pure ({ c with active := [], pressedIdx := none }, es)
    else .ok (c, [])
  | .input (.press _) =>
    if c.pressedIdx.isSome ∧ c.release = .onNextKeyPress then do
      let es ← releaseAll [] c.active
      pure ({ c with active := [], pressedIdx := none }, es)
    else .ok (c, [])
  | _ => .ok (c, [])

/-- `Behavior`, src/key/sticky.rs 322-327, which is the whole of `KeyState` (331-333). -/
inductive Behavior where
  | sticky
  | regular
  deriving DecidableEq, Repr

/-- `KeyState::update_state`, src/key/sticky.rs 353-398, for a key with sticky modifiers `mods`. -/
def updateState (ks : Behavior) (mods : Byte) (idx : Nat) (ev : Event Ev) :
    Behavior × KeyEvents Ev :=
  match ks with
  | .sticky =>
    match ev with
    | .keymap (.resolved _ _) => (.regular, [])
    | .input (.release ki) =>
      if ki = idx then
        (.sticky,
          [SchEv.imm (.key idx (.activateModifiers mods)),
           SchEv.imm (.input (.vpress (KeyOutput.fromKeyModifiers mods)))])
      else (.sticky, [])
    | _ => (.sticky, [])
  | .regular => (.regular, [])

/-- `KeyState::key_output`, src/key/sticky.rs 401-406. -/
def keyOutput (ks : Behavior) (mods : Byte) : Option KeyOutput :=
  match ks with
  | .sticky => none
  | .regular => some (KeyOutput.fromKeyModifiers mods)

/-- `System::new_pressed_key`, src/key/sticky.rs 433-447. A key is its `sticky_modifiers`. -/
def sysNewPressedKey (keys : List Byte) (i : Nat) : Res Behavior := do
  let _ ← Res.index keys i
  pure .sticky

/-- `System::update_state`, src/key/sticky.rs 460-470. -/
def sysUpdateState (keys : List Byte) (ks : Behavior) (i idx : Nat) (ev : Event Ev) :
    Res (Behavior × KeyEvents Ev) := do
  let m ← Res.index keys i
  pure (updateState ks m idx ev)

/-- `System::key_output`, src/key/sticky.rs 472-479. -/
def sysKeyOutput (keys : List Byte) (i : Nat) (ks : Behavior) : Res (Option KeyOutput) := do
  let m ← Res.index keys i
  pure (keyOutput ks m)

end Verif.Sticky
