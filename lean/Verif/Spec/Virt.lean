import Verif.Spec.Board

/-!
# A keyboard with sticky modifiers, caps word and macros

What a keymap of plain keys, layer keys, sticky modifier keys, caps word keys and macro keys is meant to
do. A key can be held by the firmware rather than by a finger: the modifier of a tapped sticky key, the
shift of caps word, a letter of a macro. So a held thing is a key of the keyboard or an output held by the
firmware. The macros themselves are in `Spec/Macro.lean`.
-/

namespace Verif.Virt

open Board (Cell lookup)

/-- What a key does. -/
inductive Act where
  /-- a plain key or a layer key -/
  | cell (c : Cell)
  /-- a sticky modifier -/
  | sticky (m : Byte)
  /-- it turns caps word on or off -/
  | capsWord
  /-- it types these outputs, one after the other -/
  | string (kos : List KeyOutput)
  deriving DecidableEq

/-- What a position of the keymap holds: a key, or a base key with a key, or none, for each layer. -/
inductive Pos where
  | act (a : Act)
  | layered (base : Act) (as : List (Option Act))
  deriving DecidableEq

/-- A held thing: the key `i` (for a sticky modifier: whether another key was typed since it was pressed),
or an output held by the firmware. -/
inductive Slot where
  | key (i : Nat) (a : Act) (used : Bool)
  | virt (ko : KeyOutput)
  deriving DecidableEq

/-- When the modifiers of tapped sticky keys are let go: when the key they modified is released, or
already when the next key is pressed. -/
inductive Mode where
  | onRelease
  | onNextPress
  deriving DecidableEq

/-- The state: the held things, in the order they came; the layers; whether caps word is on; the modifiers
of the tapped sticky keys, and the key they modify. -/
structure State where
  held : List Slot
  on : List Bool
  dflt : Option Nat
  caps : Bool
  active : List Byte
  modified : Option Nat
  deriving DecidableEq

/-- The modifier `m`, as an output. -/
def modKey (m : Byte) : KeyOutput := ⟨.keyboard 0, m⟩

/-- The left shift modifier. -/
def shiftKey : KeyOutput := modKey 2

/-- The index of a held key. -/
def Slot.index : Slot → Option Nat
  | .key i _ _ => some i
  | .virt _ => none

/-- What a held thing sends. A sticky modifier is sent once another key was typed. -/
def Slot.output : Slot → Option KeyOutput
  | .key _ (.cell c) _ => c.output
  | .key _ (.sticky m) true => some (modKey m)
  | .key _ _ _ => none
  | .virt ko => some ko

/-- A sticky modifier when another key is typed. -/
def Slot.interrupt : Slot → Slot
  | .key i (.sticky m) _ => .key i (.sticky m) true
  | x => x

/-- The outputs, in the order they came. -/
def State.outputs (s : State) : List KeyOutput := s.held.filterMap Slot.output

/-- Key `i` is held. -/
def State.holds (s : State) (i : Nat) : Bool := s.held.any (fun x => x.index == some i)

/-- What a key pressed now does. -/
def Pos.pick (s : State) : Pos → Act
  | .act a => a
  | .layered base as => lookup s.on s.dflt base as

/-- Letting go of modifiers held by the firmware. -/
def letGo (ms : List Byte) (held : List Slot) : List Slot := ms.foldl (fun h m => h.erase (.virt (modKey m))) held

/-- The layers when a plain key or layer key is pressed. -/
def State.pressLayers (s : State) (c : Cell) : State :=
  let b := c.press ⟨[], s.on, s.dflt⟩
  { s with on := b.on, dflt := b.dflt }

/-- The layers when it is released. -/
def State.releaseLayers (s : State) (c : Cell) : State :=
  let b := c.release ⟨[], s.on, s.dflt⟩
  { s with on := b.on, dflt := b.dflt }

/-- The keys that continue a word: letters; digits, unless shifted; backspace, delete, minus, the shift
keys, and no key. -/
def wordKey (kc mods : Byte) : Bool :=
  decide (0x04 ≤ kc.toNat ∧ kc.toNat ≤ 0x1D) ||
  decide (0x1E ≤ kc.toNat ∧ kc.toNat ≤ 0x27 ∧ mods.getLsbD 1 = false ∧ mods.getLsbD 5 = false) ||
  decide (kc.toNat ∈ [0x2A, 0x4C, 0x2D, 0xE1, 0xE5, 0x00])

/-- The output ends a word. -/
def endsWord (ko : KeyOutput) : Bool :=
  match ko.usage with
  | .keyboard kc => !wordKey kc ko.mods
  | _ => false

/-- Caps word goes off if it is on. -/
def State.capsOff (s : State) : State := { s with caps := false, held := s.held.erase (.virt shiftKey) }

/-- Key `i` is pressed, and sends `ko`: the held sticky modifiers are used; it is the key the tapped ones
modify; it may end a word. -/
def State.type (s : State) (i : Nat) (ko : KeyOutput) : State :=
  let s := { s with
    held := s.held.map Slot.interrupt ++ [.key i (.cell (.out ko)) false]
    modified := if s.active = [] then s.modified else some i }
  if s.caps ∧ endsWord ko then s.capsOff else s

/-- A new key is pressed; `none`: too much is held. -/
def State.start (s : State) (i : Nat) : Act → Option State
  | .cell (.out ko) => some (s.type i ko)
  | .cell c => some { s.pressLayers c with held := s.held ++ [.key i (.cell c) false] }
  | .sticky m => some { s with held := s.held ++ [.key i (.sticky m) false] }
  | .capsWord =>
    let s1 : State := { s with held := s.held ++ [.key i .capsWord false] }
    if s.caps then some s1.capsOff
    else if s1.held.length < 16 then some { s1 with caps := true, held := s1.held ++ [.virt shiftKey] }
    else none
  | .string _ => none

/-- The tapped modifiers are let go. -/
def State.unstick (s : State) : State := { s with active := [], modified := none, held := letGo s.active s.held }

/-- Key `i` is pressed; `none`: it is not a key of the keymap, or too much is held. -/
def State.press (layout : List Pos) (mode : Mode) (s : State) (i : Nat) : Option State :=
  let s1 := if mode = .onNextPress ∧ s.modified.isSome then s.unstick else s
  if s.holds i then some s1
  else if s.held.length < 16 then (layout[i]?).bind fun p => s1.start i (p.pick s)
  else none

/-- What the release of a held thing does: a sticky modifier that was only tapped is held by the firmware
from then on (at most four are kept in mind). -/
def Slot.finish (s : State) : Slot → State
  | .key _ (.cell c) _ => s.releaseLayers c
  | .key _ (.sticky m) false =>
    { s with active := if s.active.length < 4 then s.active ++ [m] else s.active, held := s.held ++ [.virt (modKey m)] }
  | _ => s

/-- Key `i` is released. If it is the key the tapped modifiers modify, they are let go. -/
def State.release (s : State) (i : Nat) : State :=
  let gone := if s.modified = some i then s.active else []
  let s1 := { s with
    held := s.held.filter (fun x => x.index != some i)
    active := if s.modified = some i then [] else s.active
    modified := if s.modified = some i ∧ s.active ≠ [] then none else s.modified }
  let s2 := match s.held.find? (fun x => x.index == some i) with
    | some x => x.finish s1
    | none => s1
  { s2 with held := letGo gone s2.held }

/-- A key event. -/
def State.input (layout : List Pos) (mode : Mode) (s : State) : InputEvent → Option State
  | .press i => s.press layout mode i
  | .release i => some (s.release i)
  | _ => none

/-- Key events, one after the other. -/
def State.inputs (layout : List Pos) (mode : Mode) (s : State) : List InputEvent → Option State
  | [] => some s
  | e :: es => (s.input layout mode e).bind fun s => s.inputs layout mode es

/-- The firmware holds the modifiers of the tapped sticky keys, and the shift of caps word if it is on, and
nothing else. -/
def State.Balanced (s : State) : Prop :=
  ∀ ko, s.held.count (.virt ko) = (s.active.map modKey).count ko + (if s.caps = true ∧ ko = shiftKey then 1 else 0)

/-- A sticky modifier is tapped while four are already waiting for the key they modify. -/
def State.fifth (s : State) : InputEvent → Bool
  | .release i => s.held.any (fun x => match x with | .key j (.sticky _) false => i == j | _ => false) && s.active.length == 4
  | _ => false

/-- That never happens. -/
def State.AtMostFour (layout : List Pos) (mode : Mode) (s : State) : List InputEvent → Prop
  | [] => True
  | e :: es => s.fifth e = false ∧ ∀ s', s.input layout mode e = some s' → s'.AtMostFour layout mode es

/-- The event is the press of a key that sends something. -/
def State.types (layout : List Pos) (s : State) : InputEvent → Bool
  | .press i => !s.holds i && match layout[i]? with
    | some p => match p.pick s with
      | .cell (.out _) => true
      | _ => false
    | none => false
  | _ => false

/-- One of the events is. -/
def State.typesAny (layout : List Pos) (mode : Mode) (s : State) : List InputEvent → Bool
  | [] => false
  | e :: es => s.types layout e || match s.input layout mode e with
    | some s' => s'.typesAny layout mode es
    | none => false

/-- The keyboard with the queue of input events: at most 31 wait; one is taken per tick; an event that
finds none waiting is taken at once, unless one was taken since the last tick. -/
structure Queued where
  board : State
  queue : List InputEvent
  /-- ticks until the next event may be taken -/
  delay : Nat
  deriving DecidableEq

/-- Taking the oldest event. -/
def Queued.take (layout : List Pos) (mode : Mode) (board : State) : List InputEvent → Option Queued
  | [] => none
  | e :: q => (board.input layout mode e).map fun s => ⟨s, q, 1⟩

/-- An input event arrives. -/
def Queued.input (layout : List Pos) (mode : Mode) (m : Queued) (e : InputEvent) : Option Queued :=
  if m.queue.length ≥ 31 then some m
  else if m.delay = 0 then Queued.take layout mode m.board (m.queue ++ [e])
  else some { m with queue := m.queue ++ [e] }

/-- A tick. -/
def Queued.tick (layout : List Pos) (mode : Mode) (m : Queued) : Option Queued :=
  if m.delay = 0 ∧ m.queue ≠ [] then (Queued.take layout mode m.board m.queue).map fun m => { m with delay := 0 }
  else some { m with delay := m.delay - 1 }

/-- The keyboard after some calls; `none`: overloaded. -/
def Queued.run (layout : List Pos) (mode : Mode) (m : Queued) : List Board.Call → Option Queued
  | [] => some m
  | .input e :: cs => (m.input layout mode e).bind fun m => m.run layout mode cs
  | .tick :: cs => (m.tick layout mode).bind fun m => m.run layout mode cs
  | .report :: cs => m.run layout mode cs

/-- At the beginning, with `n` layers. -/
def State.new (n : Nat) : State := ⟨[], List.replicate n false, none, false, [], none⟩

/-- At the beginning, with `n` layers. -/
def Queued.new (n : Nat) : Queued := ⟨State.new n, [], 0⟩

end Verif.Virt
