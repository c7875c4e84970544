import Verif.Res

/-!
# Data types of `src/input.rs` and `src/key.rs`
-/

namespace Verif

/-- `u8`. -/
abbrev Byte := BitVec 8

/-- `MouseOutput`, src/key.rs 607-620. The `i8` fields are integers (range -128..127, see
`MouseOutput.combine`). -/
structure MouseOutput where
  buttons : Byte
  x : Int
  y : Int
  vscroll : Int
  hscroll : Int
  deriving DecidableEq, Repr

/-- `KeyUsage`, src/key.rs 435-446. -/
inductive KeyUsage where
  | keyboard (kc : Byte)
  | consumer (uc : Byte)
  | custom (cc : Byte)
  | mouse (mo : MouseOutput)
  deriving DecidableEq, Repr

/-- `KeyOutput`, src/key.rs 459-466. `KeyboardModifiers` (264-265) is its byte. -/
structure KeyOutput where
  usage : KeyUsage
  mods : Byte
  deriving DecidableEq, Repr

/-- `input::Event`, src/input.rs 6-28. Keymap indices are natural numbers (`u16` in Rust). -/
inductive InputEvent where
  | press (idx : Nat)
  | release (idx : Nat)
  | vpress (ko : KeyOutput)
  | vrelease (ko : KeyOutput)
  deriving DecidableEq, Repr

/-- `BluetoothProfileCommand`, src/keymap.rs 156-171. -/
inductive BtCommand where
  | disconnect | clear | clearAll | previous | next
  | select (n : Nat)
  deriving DecidableEq, Repr

/-- `KeymapCallback`, src/keymap.rs 173-184. -/
inductive Callback where
  | reset | resetToBootloader
  | bluetooth (c : BtCommand)
  | custom (a b : Nat)
  deriving DecidableEq, Repr

/-- `KeymapEvent`, src/keymap.rs 212-224. -/
inductive KeymapEvent where
  | callback (c : Callback)
  | resolved (idx : Nat) (ko : KeyOutput)
  deriving DecidableEq, Repr

/-- `key::Event<T>`, src/key.rs 686-705. -/
inductive Event (E : Type) where
  | input (e : InputEvent)
  | key (idx : Nat) (e : E)
  | keymap (e : KeymapEvent)
  deriving DecidableEq, Repr

/-- `Schedule`, src/key.rs 763-772. -/
inductive Schedule where
  | immediate
  | after (delay : Nat)
  deriving DecidableEq, Repr

/-- `key::ScheduledEvent<T>`, src/key.rs 774-781. -/
structure SchEv (E : Type) where
  schedule : Schedule
  event : Event E
  deriving DecidableEq, Repr

namespace SchEv
/-- `ScheduledEvent::immediate`, src/key.rs 783-791. -/
def imm {E : Type} (e : Event E) : SchEv E := ⟨.immediate, e⟩
/-- `ScheduledEvent::after`, src/key.rs 793-799. -/
def after {E : Type} (d : Nat) (e : Event E) : SchEv E := ⟨.after d, e⟩
end SchEv

/-- `KeyEvents<E>`, src/key.rs 38-40: at most `MAX_KEY_EVENTS` scheduled events. The capacity is
enforced by `KeyEvents.push`/`extend`. -/
abbrev KeyEvents (E : Type) := List (SchEv E)

/-- `MAX_KEY_EVENTS`, src/key.rs 36. -/
def maxKeyEvents : Nat := 4

namespace KeyEvents
variable {E F : Type}

/-- `KeyEvents::add_event` / `schedule_event`, src/key.rs 58-71. -/
def push (xs : KeyEvents E) (e : SchEv E) : Res (KeyEvents E) := pushCap maxKeyEvents xs e

/-- `KeyEvents::extend`, src/key.rs 63-66. -/
def extend (xs : KeyEvents E) : KeyEvents E → Res (KeyEvents E)
  | [] => .ok xs
  | e :: es => do
    let xs' ← push xs e
    extend xs' es

end KeyEvents

namespace Event
variable {E F : Type}

/-- `Event::map_key_event` / `into_key_event`, src/key.rs 716-734. -/
def map (f : E → F) : Event E → Event F
  | .input e => .input e
  | .key i e => .key i (f e)
  | .keymap e => .keymap e

/-- `Event::try_into_key_event`, src/key.rs 736-756 (`none` for `UnmappableEvent`). -/
def tryInto (f : E → Option F) : Event E → Option (Event F)
  | .input e => some (.input e)
  | .key i e => (f e).map (Event.key i)
  | .keymap e => some (.keymap e)

end Event

/-- `ScheduledEvent::map_scheduled_event`, src/key.rs 801-807. -/
def SchEv.map {E F : Type} (f : E → F) (s : SchEv E) : SchEv F := ⟨s.schedule, s.event.map f⟩

/-- `KeyEvents::map_events` / `into_events`, src/key.rs 73-96 (`collect` keeps all of the at most
`MAX_KEY_EVENTS` events). -/
def KeyEvents.mapEv {E F : Type} (f : E → F) (xs : KeyEvents E) : KeyEvents F := List.map (SchEv.map f) xs

/-- `NewPressedKey<R>`, src/key.rs 108-115. -/
inductive NPK (R : Type) where
  | key (r : R)
  | noOp
  deriving DecidableEq, Repr

/-- `PressedKeyResult<R, PKS, KS>`, src/key.rs 137-146. -/
inductive PKR (R PKS KS : Type) where
  | pending (p : PKS)
  | newPressedKey (n : NPK R)
  | resolved (k : KS)
  deriving DecidableEq, Repr

/-- `PressedInput<R, KS>` with the fields of `PressedKey`, src/input.rs 30-48. -/
inductive PressedInput (R KS : Type) where
  | key (idx : Nat) (r : R) (ks : KS)
  | virt (ko : KeyOutput)
  deriving DecidableEq, Repr

/-- The `key::System` trait together with the `key::Context` and `SetKeymapContext` traits of its
context, src/key.rs 181-261, src/keymap.rs 206-210. Rust's `&mut` arguments are returned; `Res`
allows panics. `noOp` is `KS::from(NoOpKeyState)`. -/
structure System (R Ev Ctx PKS KS : Type) where
  newPressedKey : Nat → Ctx → R → Res (PKR R PKS KS × KeyEvents Ev)
  updatePending : PKS → Nat → Ctx → R → Event Ev → Res (PKS × Option (NPK R) × KeyEvents Ev)
  updateState : KS → R → Ctx → Nat → Event Ev → Res (KS × KeyEvents Ev)
  keyOutput : R → KS → Res (Option KeyOutput)
  ctxEvent : Ctx → Event Ev → Res (Ctx × KeyEvents Ev)
  setCtx : Ctx → (time idle : Nat) → Ctx
  noOp : KS

end Verif
