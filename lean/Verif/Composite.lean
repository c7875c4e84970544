import Verif.Keymap
import Verif.Sys.Simple
import Verif.Sys.CapsWord
import Verif.Sys.TapHold
import Verif.Sys.TapDance
import Verif.Sys.Sticky
import Verif.Sys.Automation
import Verif.Sys.Layered
import Verif.Sys.Chorded

/-!
# The aggregate key system, src/key/composite.rs

Key tables (arrays or `Vec`s in Rust, see the `Keys` trait 841-935) are lists. The systems without
any context, pending state or events (callback, consumer, custom, keyboard, mouse) contribute no
case to the context, the pending states and the event type: those Rust types are unit structs that
are never constructed as events.
-/

namespace Verif.Comp

/-- `composite::Ref`, src/key/composite.rs 235-260. -/
inductive Ref where
  | automation (i : Nat)
  | callback (i : Nat)
  | capsWord
  | chorded (r : Chorded.Ref)
  | consumer (uc : Byte)
  | custom (cc : Byte)
  | keyboard (r : Keyboard.Ref)
  | layered (r : Layered.Ref)
  | mouse (r : Mouse.Ref)
  | sticky (i : Nat)
  | tapDance (i : Nat)
  | tapHold (i : Nat)
  deriving DecidableEq, Repr

/-- `composite::Event`, src/key/composite.rs 387-412. -/
inductive Ev where
  | automation (e : Automation.Ev)
  | capsWord (e : CapsWord.Ev)
  | chorded (e : Chorded.Ev)
  | layered (e : Layered.Ev)
  | sticky (e : Sticky.Ev)
  | tapDance (e : TapDance.Ev)
  | tapHold (e : TapHold.Ev)
  deriving DecidableEq, Repr

namespace Ev
/-- `TryFrom<Event> for AutomationEvent`, src/key/composite.rs 486-495. -/
def toAutomation? : Ev → Option Automation.Ev | .automation e => some e | _ => none
/-- `TryFrom<Event> for CapsWordEvent`, src/key/composite.rs 497-506. -/
def toCapsWord? : Ev → Option CapsWord.Ev | .capsWord e => some e | _ => none
/-- `TryFrom<Event> for ChordedEvent`, src/key/composite.rs 508-517. -/
def toChorded? : Ev → Option Chorded.Ev | .chorded e => some e | _ => none
/-- `TryFrom<Event> for LayeredEvent`, src/key/composite.rs 541-550. -/
def toLayered? : Ev → Option Layered.Ev | .layered e => some e | _ => none
/-- `TryFrom<Event> for StickyEvent`, src/key/composite.rs 563-572. -/
def toSticky? : Ev → Option Sticky.Ev | .sticky e => some e | _ => none
/-- `TryFrom<Event> for TapDanceEvent`, src/key/composite.rs 574-583. -/
def toTapDance? : Ev → Option TapDance.Ev | .tapDance e => some e | _ => none
/-- `TryFrom<Event> for TapHoldEvent`, src/key/composite.rs 585-594. -/
def toTapHold? : Ev → Option TapHold.Ev | .tapHold e => some e | _ => none
end Ev

/-- The inhabited cases of `composite::PendingKeyState`, src/key/composite.rs 599-624. -/
inductive PKS where
  | chorded (p : Chorded.PKS)
  | tapDance (p : TapDance.PKS)
  | tapHold (p : TapHold.PKS)
  deriving DecidableEq, Repr

/-- `composite::KeyState`, src/key/composite.rs 733-760 (the cases that are constructed). -/
inductive KS where
  | noOp
  | automation
  | consumer
  | custom
  | keyboard
  | layerModifier (b : Layered.Behavior)
  | mouse
  | sticky (b : Sticky.Behavior)
  deriving DecidableEq, Repr

/-- `composite::Context`, src/key/composite.rs 303-317. `tapDance` is the tap-dance configuration
(the whole of its context). `keymap_context` is only passed on to `chorded` and `tap_hold`. -/
structure Ctx where
  automation : Automation.Ctx
  capsWord : CapsWord.Ctx
  chorded : Chorded.Ctx
  layered : Layered.Ctx
  sticky : Sticky.Ctx
  tapDance : TapDance.Config
  tapHold : TapHold.Ctx
  deriving DecidableEq, Repr

/-- `composite::Config`, src/key/composite.rs 270-286, with the constants of `crate::init` (the
number of layers and of chords). -/
structure Config where
  automation : Automation.Config
  chorded : Chorded.Config
  sticky : Sticky.Release
  tapDance : TapDance.Config
  tapHold : TapHold.Config
  layerCount : Nat
  maxChords : Nat
  deriving DecidableEq, Repr

/-- `Context::from_config`, src/key/composite.rs 321-337. -/
def Ctx.fromConfig (c : Config) : Ctx where
  automation := Automation.Ctx.fromConfig c.automation
  capsWord := CapsWord.Ctx.new
  chorded := Chorded.Ctx.fromConfig c.maxChords c.chorded
  layered := Layered.Ctx.new c.layerCount
  sticky := Sticky.Ctx.fromConfig c.sticky
  tapDance := c.tapDance
  tapHold := TapHold.Ctx.fromConfig c.tapHold

/-- Applies one sub-context to the event if the event converts, src/key/composite.rs 352-370 (one
of the five `if let`s). -/
def sub {E C : Type} (conv : Ev → Option E) (inj : E → Ev) (h : C → Event E → Res (C × KeyEvents E))
    (c : C) (pke : KeyEvents Ev) (ev : Event Ev) : Res (C × KeyEvents Ev) :=
  match ev.tryInto conv with
  | some e => do
    let (c, es) ← h c e
    let pke ← pke.extend (KeyEvents.mapEv inj es)
    pure (c, pke)
  | none => .ok (c, pke)

/-- `Context::handle_event`, src/key/composite.rs 349-373. -/
def Ctx.handleEvent (c : Ctx) (ev : Event Ev) : Res (Ctx × KeyEvents Ev) := do
  let (automation, pke) ←
    sub Ev.toAutomation? .automation Automation.Ctx.handleEvent c.automation [] ev
  let (capsWord, pke) ←
    sub Ev.toCapsWord? .capsWord (fun c e => .ok (c.handleEvent e)) c.capsWord pke ev
  let (chorded, pke) ←
    sub Ev.toChorded? .chorded (fun c e => (·, []) <$> c.handleEvent e) c.chorded pke ev
  let (layered, pke) ←
    sub Ev.toLayered? .layered (fun c e => (·, []) <$> c.handleEvent e) c.layered pke ev
  let (sticky, pke) ← sub Ev.toSticky? .sticky Sticky.Ctx.handleEvent c.sticky pke ev
  pure ({ c with automation, capsWord, chorded, layered, sticky }, pke)

/-- `Context::set_keymap_context`, src/key/composite.rs 377-382. -/
def Ctx.setKeymapContext (c : Ctx) (_time idle : Nat) : Ctx :=
  { c with chorded := c.chorded.setIdle idle, tapHold := c.tapHold.setIdle idle }

/-- The key tables of `composite::System`, src/key/composite.rs 937-953. -/
structure Keys where
  automation : List Automation.Key := []
  callback : List Callback := []
  chorded : List (Chorded.Key Ref) := []
  chordedAux : List Ref := []
  keyboard : List Keyboard.Key := []
  layerMods : List Layered.ModifierKey := []
  layered : List (Layered.LayeredKey Ref) := []
  sticky : List Byte := []
  tapDance : List (TapDance.Key Ref) := []
  tapHold : List (TapHold.Key Ref) := []

/-- `System::new_pressed_key`, src/key/composite.rs 1047-1130. -/
def newPressedKey (K : Keys) (idx : Nat) (c : Ctx) : Ref → Res (PKR Ref PKS KS × KeyEvents Ev)
  | .automation i => do
    let es ← Automation.sysNewPressedKey K.automation idx i
    pure (.resolved .automation, es.mapEv .automation)
  | .callback i => do
    let es ← CallbackKey.newPressedKey K.callback i
    pure (.newPressedKey .noOp, es)
  | .capsWord =>
    .ok (.newPressedKey .noOp, (CapsWord.newPressedKey c.capsWord idx).mapEv .capsWord)
  | .chorded r => do
    let (p, es) ← Chorded.sysNewPressedKey K.chorded K.chordedAux idx c.chorded r
    pure (match p with
      | .pending p => .pending (.chorded p)
      | .npk n => .newPressedKey n, es.mapEv .chorded)
  | .consumer _ => .ok (.resolved .consumer, [])
  | .custom _ => .ok (.resolved .custom, [])
  | .keyboard _ => .ok (.resolved .keyboard, [])
  | .layered r => do
    let (p, es) ← Layered.sysNewPressedKey K.layerMods K.layered idx c.layered r
    pure (match p with
      | .resolved b => .resolved (.layerModifier b)
      | .key r => .newPressedKey (.key r), es.mapEv .layered)
  | .mouse _ => .ok (.resolved .mouse, [])
  | .sticky i => do
    let b ← Sticky.sysNewPressedKey K.sticky i
    pure (.resolved (.sticky b), [])
  | .tapDance _ =>
    let (p, es) := TapDance.newPressedKey c.tapDance idx
    .ok (.pending (.tapDance p), es.mapEv .tapDance)
  | .tapHold i => do
    let (p, es) ← TapHold.newPressedKey K.tapHold idx c.tapHold i
    pure (match p with
      | .pending p => .pending (.tapHold p)
      | .key r => .newPressedKey (.key r), es.mapEv .tapHold)

/-- `System::update_pending_state`, src/key/composite.rs 1132-1185. -/
def updatePending (K : Keys) (p : PKS) (idx : Nat) (c : Ctx) (r : Ref) (ev : Event Ev) :
    Res (PKS × Option (NPK Ref) × KeyEvents Ev) :=
  match r, p with
  | .chorded r, .chorded p =>
    match ev.tryInto Ev.toChorded? with
    | some ev => do
      let (p, npk, es) ← Chorded.sysUpdatePending K.chorded K.chordedAux p idx c.chorded r ev
      pure (.chorded p, npk, es.mapEv .chorded)
    | none => .ok (.chorded p, none, [])
  | .tapDance i, .tapDance p =>
    match ev.tryInto Ev.toTapDance? with
    | some ev => do
      let (p, npk, es) ← TapDance.updatePending K.tapDance p idx c.tapDance i ev
      pure (.tapDance p, npk, es.mapEv .tapDance)
    | none => .ok (.tapDance p, none, [])
  | .tapHold i, .tapHold p =>
    match ev.tryInto Ev.toTapHold? with
    | some ev => do
      let (p, npk, es) ← TapHold.updatePending K.tapHold p idx c.tapHold i ev
      pure (.tapHold p, npk, es.mapEv .tapHold)
    | none => .ok (.tapHold p, none, [])
  | _, _ => .panic .explicit

/-- `System::update_state`, src/key/composite.rs 1187-1268. The `Consumer` and `Keyboard` cases
always return no events and have no state, so that they fall under the last case here. -/
def updateState (K : Keys) (ks : KS) (r : Ref) (_c : Ctx) (idx : Nat) (ev : Event Ev) :
    Res (KS × KeyEvents Ev) :=
  match r, ks with
  | .automation i, .automation =>
    match ev.tryInto Ev.toAutomation? with
    | some ev => do
      let es ← Automation.sysUpdateState K.automation i idx ev
      pure (.automation, es.mapEv .automation)
    | none => .ok (.automation, [])
  | .layered r, .layerModifier b =>
    match ev.tryInto Ev.toLayered? with
    | some ev => do
      let (b, es) ← Layered.sysUpdateState K.layerMods b r idx ev
      pure (.layerModifier b, es.mapEv .layered)
    | none => .ok (.layerModifier b, [])
  | .sticky i, .sticky b =>
    match ev.tryInto Ev.toSticky? with
    | some ev => do
      let (b, es) ← Sticky.sysUpdateState K.sticky b i idx ev
      pure (.sticky b, es.mapEv .sticky)
    | none => .ok (.sticky b, [])
  | _, ks => .ok (ks, [])

/-- `System::key_output`, src/key/composite.rs 1270-1283. -/
def keyOutput (K : Keys) (r : Ref) (ks : KS) : Res (Option KeyOutput) :=
  match r, ks with
  | .consumer uc, .consumer => .ok (Consumer.keyOutput uc)
  | .custom cc, .custom => .ok (Custom.keyOutput cc)
  | .keyboard r, .keyboard => Keyboard.keyOutput K.keyboard r
  | .mouse r, .mouse => Mouse.keyOutput r
  | .sticky i, .sticky b => Sticky.sysKeyOutput K.sticky i b
  | _, _ => .ok none

/-- `impl key::System<Ref> for System<K>`, src/key/composite.rs 1040-1284. -/
def system (K : Keys) : System Ref Ev Ctx PKS KS where
  newPressedKey := newPressedKey K
  updatePending := updatePending K
  updateState := updateState K
  keyOutput := keyOutput K
  ctxEvent := Ctx.handleEvent
  setCtx := Ctx.setKeymapContext
  noOp := .noOp

end Verif.Comp
