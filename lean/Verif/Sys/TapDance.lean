import Verif.Types

/-!
# Tap-dance keys, src/key/tap_dance.rs
-/

namespace Verif.TapDance

/-- `tap_dance::Key<R, N>`, src/key/tap_dance.rs 48-54: the array of `N` optional definitions. -/
structure Key (R : Type) where
  definitions : List (Option R)
  deriving DecidableEq, Repr

variable {R : Type}

/-- `Key::from_definitions`, src/key/tap_dance.rs 84-93, with `max` definitions. -/
def Key.fromDefinitions (max : Nat) (defs : List R) : Key R :=
  ⟨(defs.take max).map some ++ List.replicate (max - defs.length) none⟩

/-- `tap_dance::Config`, src/key/tap_dance.rs 15-19. -/
structure Config where
  timeout : Nat
  deriving DecidableEq, Repr

/-- `DEFAULT_CONFIG`, src/key/tap_dance.rs 29-31. -/
def Config.default : Config := ⟨200⟩

/-- `tap_dance::Event`, src/key/tap_dance.rs 115-118. -/
inductive Ev where
  | nextPressTimeout (n : Nat)
  deriving DecidableEq, Repr

/-- `tap_dance::PendingKeyState`, src/key/tap_dance.rs 122-124. -/
structure PKS where
  pressCount : Nat
  deriving DecidableEq, Repr

/-- `PendingKeyState::handle_event`, src/key/tap_dance.rs 132-169. The configuration is the whole of
the context (98-100). `press_count` is a `u8`: its overflow panics in the debug profile. The
resolution `TapDanceResolution(n)` is the number `n`. -/
def PKS.handleEvent (p : PKS) (c : Config) (idx : Nat) (ev : Event Ev) :
    Res (PKS × Option Nat × KeyEvents Ev) :=
  match ev with
  | .key ki (.nextPressTimeout n) =>
    if ki = idx ∧ n = p.pressCount then .ok (p, some p.pressCount, []) else .ok (p, none, [])
  | .input (.press ki) =>
    if ki = idx then
      if p.pressCount + 1 < 256 then
        .ok (⟨p.pressCount + 1⟩, none,
          [SchEv.after c.timeout (.key idx (.nextPressTimeout (p.pressCount + 1)))])
      else .panic .arith
    else .ok (p, none, [])
  | _ => .ok (p, none, [])

/-- `System::new_pressed_key`, src/key/tap_dance.rs 210-233: always pending. -/
def newPressedKey (c : Config) (idx : Nat) : PKS × KeyEvents Ev :=
  (⟨0⟩, [SchEv.after c.timeout (.key idx (.nextPressTimeout 0))])

/-- `key.definitions.iter().filter(|o| o.is_some()).count()`, src/key/tap_dance.rs 255. -/
def Key.definitionCount (k : Key R) : Nat := k.definitions.countP Option.isSome

/-- `System::update_pending_state`, src/key/tap_dance.rs 235-268. `definition_count - 1` underflows
(a panic in the debug profile) for a key without definitions. -/
def updatePending (keys : List (Key R)) (p : PKS) (idx : Nat) (c : Config) (i : Nat)
    (ev : Event Ev) : Res (PKS × Option (NPK R) × KeyEvents Ev) := do
  let k ← Res.index keys i
  let (p, res, es) ← p.handleEvent c idx ev
  match res with
  | some n => do
    let d ← Res.index k.definitions n
    let r ← Res.unwrap d
    pure (p, some (.key r), es)
  | none =>
    if k.definitionCount = 0 then .panic .arith
    else if p.pressCount ≥ k.definitionCount - 1 then do
      let d ← Res.index k.definitions (k.definitionCount - 1)
      let r ← Res.unwrap d
      pure (p, some (.key r), es)
    else .ok (p, none, es)

end Verif.TapDance
