import Verif.Types

/-!
# Tap-hold keys, src/key/tap_hold.rs
-/

namespace Verif.TapHold

/-- `tap_hold::Key<R>`, src/key/tap_hold.rs 15-21. -/
structure Key (R : Type) where
  tap : R
  hold : R
  deriving DecidableEq, Repr

/-- `InterruptResponse`, src/key/tap_hold.rs 42-51. -/
inductive InterruptResponse where
  | ignore | holdOnKeyPress | holdOnKeyTap
  deriving DecidableEq, Repr

/-- `tap_hold::Config`, src/key/tap_hold.rs 55-70. -/
structure Config where
  timeout : Nat
  interruptResponse : InterruptResponse
  requiredIdleTime : Option Nat
  deriving DecidableEq, Repr

/-- `DEFAULT_CONFIG`, src/key/tap_hold.rs 87-91. -/
def Config.default : Config := ⟨200, .ignore, none⟩

/-- `tap_hold::Context`, src/key/tap_hold.rs 109-112. -/
structure Ctx where
  config : Config
  idle : Nat
  deriving DecidableEq, Repr

/-- `Context::from_config`, src/key/tap_hold.rs 116-121. -/
def Ctx.fromConfig (c : Config) : Ctx := ⟨c, 0⟩

/-- `Context::update_keymap_context`, src/key/tap_hold.rs 124-129. -/
def Ctx.setIdle (c : Ctx) (idle : Nat) : Ctx := { c with idle := idle }

/-- `TapHoldState`, src/key/tap_hold.rs 134-139. -/
inductive State where
  | tap | hold
  deriving DecidableEq, Repr

/-- `tap_hold::Event`, src/key/tap_hold.rs 143-146. -/
inductive Ev where
  | timeout
  deriving DecidableEq, Repr

/-- `tap_hold::PendingKeyState`, src/key/tap_hold.rs 150-153. -/
structure PKS where
  otherPressed : Option Nat
  deriving DecidableEq, Repr

/-- `PendingKeyState::new`, src/key/tap_hold.rs 157-161. -/
def PKS.new : PKS := ⟨none⟩

/-- `PendingKeyState::hold_resolution`, src/key/tap_hold.rs 165-240. -/
def PKS.holdResolution (p : PKS) (ir : InterruptResponse) (idx : Nat) (ev : Event Ev) :
    Option State :=
  match ir with
  | .holdOnKeyPress =>
    match ev with
    | .input (.press _) => some .hold
    | .input (.release ki) => if idx = ki then some .tap else none
    | .key _ .timeout => some .hold
    | _ => none
  | .holdOnKeyTap =>
    match ev with
    | .input (.release ki) =>
      if idx = ki then some .tap else if some ki = p.otherPressed then some .hold else none
    | .key _ .timeout => some .hold
    | _ => none
  | .ignore =>
    match ev with
    | .input (.release ki) => if idx = ki then some .tap else none
    | .key _ .timeout => some .hold
    | _ => none

/-- `PendingKeyState::handle_event`, src/key/tap_hold.rs 243-258. -/
def PKS.handleEvent (p : PKS) (c : Ctx) (idx : Nat) (ev : Event Ev) : PKS × Option State :=
  let p := match ev with
    | .input (.press ki) => { p with otherPressed := some ki }
    | _ => p
  (p, p.holdResolution c.config.interruptResponse idx ev)

/-- `System::new_pending_key`, src/key/tap_hold.rs 277-290, with the events of 317 and 335. -/
def newPending (c : Ctx) (idx : Nat) : PKS × KeyEvents Ev :=
  (PKS.new, [SchEv.after c.config.timeout (.key idx .timeout)])

variable {R : Type}

/-- The two possible results of pressing a tap-hold key: pending, or the key `r`. -/
inductive Pressed (R : Type) where
  | pending (p : PKS)
  | key (r : R)
  deriving DecidableEq, Repr

/-- `System::new_pressed_key`, src/key/tap_hold.rs 302-339. -/
def newPressedKey (keys : List (Key R)) (idx : Nat) (c : Ctx) (i : Nat) :
    Res (Pressed R × KeyEvents Ev) :=
  match c.config.requiredIdleTime with
  | some req =>
    if c.idle ≥ req then
      let (p, es) := newPending c idx
      .ok (.pending p, es)
    else do
      let k ← Res.index keys i
      pure (.key k.tap, [])
  | none =>
    let (p, es) := newPending c idx
    .ok (.pending p, es)

/-- `System::update_pending_state`, src/key/tap_hold.rs 341-364. -/
def updatePending (keys : List (Key R)) (p : PKS) (idx : Nat) (c : Ctx) (i : Nat) (ev : Event Ev) :
    Res (PKS × Option (NPK R) × KeyEvents Ev) :=
  let (p, st) := p.handleEvent c idx ev
  match st with
  | some st => do
    let k ← Res.index keys i
    pure (p, some (.key (match st with | .tap => k.tap | .hold => k.hold)), [])
  | none => .ok (p, none, [])

end Verif.TapHold
