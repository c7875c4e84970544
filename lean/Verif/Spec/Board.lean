import Verif.Output

/-!
# A keyboard without timing

What a keymap of plain keys and layer keys is meant to do, written without queues of events, key states
or contexts: a list of held keys and the active layers.
-/

namespace Verif.Board

/-- What a key does. -/
inductive Cell where
  /-- it sends this output while it is held -/
  | out (ko : KeyOutput)
  /-- it activates a layer while it is held -/
  | hold (l : Nat)
  /-- it flips a layer -/
  | toggle (l : Nat)
  /-- it makes exactly the layers of a set active, of the layers 1 to 31 -/
  | setLayers (s : BitVec 32)
  /-- it chooses the default layer (0: none) -/
  | default (l : Nat)
  /-- it has no effect on the board -/
  | nothing
  deriving DecidableEq

/-- What a position of the keymap holds: a key, or a base key with a key, or none, for each layer. -/
inductive Entry where
  | cell (c : Cell)
  | layered (base : Cell) (cs : List (Option Cell))
  deriving DecidableEq

/-- The state of the board: the held keys in the order they were pressed, with what each of them does;
which of the layers 1, 2, ... are active; the default layer. -/
structure State where
  held : List (Nat × Cell)
  on : List Bool
  dflt : Option Nat
  deriving DecidableEq

/-- The entry of the highest active layer that has one. -/
def highest {α : Type} : List Bool → List (Option α) → Option α
  | b :: bs, c :: cs =>
    match highest bs cs with
    | some c => some c
    | none => if b then c else none
  | _, _ => none

/-- The entry of the highest active layer that has one, else of the default layer, else the base. -/
def lookup {α : Type} (on : List Bool) (dflt : Option Nat) (base : α) (cs : List (Option α)) : α :=
  match highest on cs with
  | some c => c
  | none => ((dflt.bind fun d => cs[d - 1]?).join).getD base

/-- What a key pressed now does. -/
def Entry.pick (s : State) : Entry → Cell
  | .cell c => c
  | .layered base cs => lookup s.on s.dflt base cs

/-- The layers when a key is pressed. -/
def Cell.press (s : State) : Cell → State
  | .hold l => { s with on := s.on.set (l - 1) true }
  | .toggle l => { s with on := s.on.set (l - 1) (!(s.on.getD (l - 1) false)) }
  | .setLayers b => { s with on := s.on.mapIdx fun i x => if i + 1 ≤ 31 then b.getLsbD (i + 1) else x }
  | .default l => { s with dflt := if l = 0 then none else some l }
  | _ => s

/-- The layers when a key is released. -/
def Cell.release (s : State) : Cell → State
  | .hold l => { s with on := s.on.set (l - 1) false }
  | .default l => { s with dflt := if l = 0 then none else some l }
  | _ => s

/-- Key `i` is held. -/
def State.holds (s : State) (i : Nat) : Bool := s.held.any (fun p => p.1 == i)

/-- The board after a key event; pressing a held key and releasing a key that is not held do nothing. -/
def State.input (layout : List Entry) (s : State) : InputEvent → State
  | .press i =>
    if s.holds i then s
    else match layout[i]? with
      | some e => (e.pick s).press { s with held := s.held ++ [(i, e.pick s)] }
      | none => s
  | .release i =>
    match s.held.find? (fun p => p.1 == i) with
    | some p => p.2.release { s with held := s.held.filter (fun p => p.1 != i) }
    | none => s
  | _ => s

/-- The output of a held key. -/
def Cell.output : Cell → Option KeyOutput
  | .out ko => some ko
  | _ => none

/-- The outputs of the held keys, in the order they were pressed. -/
def State.outputs (s : State) : List KeyOutput := s.held.filterMap fun p => p.2.output

/-- The board can take the event: a press must be of a key of the keymap, and at most 16 keys can be
held. -/
def State.takes (layout : List Entry) (s : State) : InputEvent → Bool
  | .press i => s.holds i || (decide (i < layout.length) && decide (s.held.length < 16))
  | _ => true

/-- The board with the queue of input events: at most 31 wait; one is taken per tick; an event that finds
none waiting is taken at once, unless one was taken since the last tick. -/
structure Queued where
  board : State
  queue : List InputEvent
  /-- ticks until the next event may be taken -/
  delay : Nat
  deriving DecidableEq

/-- Taking the oldest event; `none`: the board cannot take it. -/
def Queued.take (layout : List Entry) (board : State) : List InputEvent → Option Queued
  | [] => none
  | e :: q => if board.takes layout e then some ⟨board.input layout e, q, 1⟩ else none

/-- An input event arrives. -/
def Queued.input (layout : List Entry) (m : Queued) (e : InputEvent) : Option Queued :=
  if m.queue.length ≥ 31 then some m
  else if m.delay = 0 then Queued.take layout m.board (m.queue ++ [e])
  else some { m with queue := m.queue ++ [e] }

/-- A tick. -/
def Queued.tick (layout : List Entry) (m : Queued) : Option Queued :=
  if m.delay = 0 ∧ m.queue ≠ [] then (Queued.take layout m.board m.queue).map fun m => { m with delay := 0 }
  else some { m with delay := m.delay - 1 }

/-- What the host does with a keyboard. -/
inductive Call where
  | input (e : InputEvent)
  | tick
  | report
  deriving DecidableEq

/-- The board after some calls; `none`: overloaded. -/
def Queued.run (layout : List Entry) (m : Queued) : List Call → Option Queued
  | [] => some m
  | .input e :: cs => (m.input layout e).bind fun m => m.run layout cs
  | .tick :: cs => (m.tick layout).bind fun m => m.run layout cs
  | .report :: cs => m.run layout cs

/-- The board at the beginning, with `n` layers. -/
def Queued.new (n : Nat) : Queued := ⟨⟨[], List.replicate n false, none⟩, [], 0⟩

end Verif.Board
