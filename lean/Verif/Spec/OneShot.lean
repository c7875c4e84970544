import Verif.Spec.Board

/-!
# A keyboard with sticky layers

What a keymap of plain keys and layer keys, sticky layer keys among them, is meant to do. A sticky layer key
that is tapped turns its layer on for the next key. A sticky layer key during which another key is pressed
is a key that holds its layer.
-/

namespace Verif.OneShot

open Board (Cell lookup)

/-- The state of a layer: off, on, or on for one key. -/
inductive Light where
  | off
  | on
  | once
  deriving DecidableEq

/-- What a key does. -/
inductive Act where
  /-- a plain key or a layer key -/
  | cell (c : Cell)
  /-- a sticky layer key -/
  | oneShot (l : Nat)
  deriving DecidableEq

/-- What a position of the keymap holds: a key, or a base key with a key, or none, for each layer. -/
inductive Pos where
  | act (a : Act)
  | layered (base : Act) (as : List (Option Act))
  deriving DecidableEq

/-- The state: the held keys in the order they were pressed, with what each of them does; the layers; the
default layer; the key that was pressed since a layer was turned on for one key. -/
structure State where
  held : List (Nat × Act)
  layers : List Light
  dflt : Option Nat
  user : Option Nat
  deriving DecidableEq

/-- Which layers are active. -/
def State.on (s : State) : List Bool := s.layers.map fun x => decide (x ≠ .off)

/-- The lowest layer that is on for one key. -/
def State.once (s : State) : Option Nat := (s.layers.findIdx? fun x => x == .once).map (· + 1)

/-- Layer `l` is turned on, off, or on for one key. -/
def State.turn (s : State) (l : Nat) (x : Light) : State := { s with layers := s.layers.set (l - 1) x }

/-- What a key pressed now does. -/
def Pos.pick (s : State) : Pos → Act
  | .act a => a
  | .layered base as => lookup s.on s.dflt base as

/-- The layers when a key is pressed. -/
def Act.press (s : State) : Act → State
  | .cell (.hold l) => s.turn l .on
  | .cell (.toggle l) => s.turn l (if s.layers.getD (l - 1) .off = .off then .on else .off)
  | .cell (.setLayers b) =>
    { s with layers := s.layers.mapIdx fun i x => if i + 1 ≤ 31 then (if b.getLsbD (i + 1) then .on else .off) else x }
  | .cell (.default l) => { s with dflt := if l = 0 then none else some l }
  | .oneShot l => { s.turn l .once with user := none }
  | _ => s

/-- The layers when a key is released. -/
def Act.release (s : State) : Act → State
  | .cell (.hold l) => s.turn l .off
  | .cell (.default l) => { s with dflt := if l = 0 then none else some l }
  | _ => s

/-- The layer that is on for one key, when key `i` is pressed: it is the key; a second key turns the layer
off. -/
def State.use (s : State) (i : Nat) : State :=
  match s.once with
  | none => s
  | some l => if s.user.isSome then { s.turn l .off with user := none } else { s with user := some i }

/-- The layer that is on for one key, when key `i` is released: it goes off if `i` is the key. -/
def State.used (s : State) (i : Nat) : State :=
  match s.once with
  | none => s
  | some l => if s.user = some i then { s.turn l .off with user := none } else s

/-- A sticky layer key during which another key is pressed. -/
def Act.interrupt : Act → Act
  | .oneShot l => .cell (.hold l)
  | a => a

/-- The layers of some sticky layer keys are turned on. -/
def State.holdAll (s : State) : List (Nat × Act) → State
  | [] => s
  | (_, .oneShot l) :: ps => (s.turn l .on).holdAll ps
  | _ :: ps => s.holdAll ps

/-- The held sticky layer keys when another key is pressed. -/
def State.interrupt (s : State) : State :=
  { s.holdAll s.held with held := s.held.map fun p => (p.1, p.2.interrupt) }

/-- Key `i` is held. -/
def State.holds (s : State) (i : Nat) : Bool := s.held.any (fun p => p.1 == i)

/-- Key `i` is pressed; `none`: it is not a key of the keymap, or too many keys are held. -/
def State.press (layout : List Pos) (s : State) (i : Nat) : Option State :=
  let s1 := s.use i
  let s2 := s1.interrupt
  if s.holds i then some s2
  else if s.held.length < 16 then
    (layout[i]?).map fun p => (p.pick s1).press { s2 with held := s2.held ++ [(i, p.pick s1)] }
  else none

/-- Key `i` is released. -/
def State.release (s : State) (i : Nat) : State :=
  let s1 := s.used i
  match s.held.find? (fun p => p.1 == i) with
  | some p => p.2.release { s1 with held := s.held.filter (fun p => p.1 != i) }
  | none => s1

/-- A key event. -/
def State.input (layout : List Pos) (s : State) : InputEvent → Option State
  | .press i => s.press layout i
  | .release i => some (s.release i)
  | _ => none

/-- Key events, one after the other. -/
def State.inputs (layout : List Pos) (s : State) : List InputEvent → Option State
  | [] => some s
  | e :: es => (s.input layout e).bind fun s => s.inputs layout es

/-- The output of a held key. -/
def Act.output : Act → Option KeyOutput
  | .cell c => c.output
  | .oneShot _ => none

/-- The outputs of the held keys, in the order they were pressed. -/
def State.outputs (s : State) : List KeyOutput := s.held.filterMap fun p => p.2.output

/-- The keyboard with the queue of input events: at most 31 wait; one is taken per tick; an event that
finds none waiting is taken at once, unless one was taken since the last tick. -/
structure Queued where
  board : State
  queue : List InputEvent
  /-- ticks until the next event may be taken -/
  delay : Nat
  deriving DecidableEq

/-- Taking the oldest event. -/
def Queued.take (layout : List Pos) (board : State) : List InputEvent → Option Queued
  | [] => none
  | e :: q => (board.input layout e).map fun s => ⟨s, q, 1⟩

/-- An input event arrives. -/
def Queued.input (layout : List Pos) (m : Queued) (e : InputEvent) : Option Queued :=
  if m.queue.length ≥ 31 then some m
  else if m.delay = 0 then Queued.take layout m.board (m.queue ++ [e])
  else some { m with queue := m.queue ++ [e] }

/-- A tick. -/
def Queued.tick (layout : List Pos) (m : Queued) : Option Queued :=
  if m.delay = 0 ∧ m.queue ≠ [] then (Queued.take layout m.board m.queue).map fun m => { m with delay := 0 }
  else some { m with delay := m.delay - 1 }

/-- The keyboard after some calls; `none`: overloaded. -/
def Queued.run (layout : List Pos) (m : Queued) : List Board.Call → Option Queued
  | [] => some m
  | .input e :: cs => (m.input layout e).bind fun m => m.run layout cs
  | .tick :: cs => (m.tick layout).bind fun m => m.run layout cs
  | .report :: cs => m.run layout cs

/-- At the beginning, with `n` layers. -/
def State.new (n : Nat) : State := ⟨[], List.replicate n .off, none, none⟩

/-- At the beginning, with `n` layers. -/
def Queued.new (n : Nat) : Queued := ⟨State.new n, [], 0⟩

end Verif.OneShot
