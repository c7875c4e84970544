import Verif.Spec.Board

/-!
# A keyboard with tap-dance keys

The board of `Spec/Board.lean`, with keys that do different things when tapped once, twice, and so on.
Pressing such a key makes it wait for the next press; while it waits, the key events are kept; once it is
decided, it is held like any other key, and the kept events follow one per tick.
-/

namespace Verif.Dance

open Board (Cell)

/-- The settings of the tap-dance keys. -/
structure Rules where
  /-- how long a tap-dance key waits for the next press, in ms -/
  timeout : Nat
  /-- length of a tick in ms -/
  ms : Nat
  deriving DecidableEq

/-- What a key does. -/
inductive Act where
  | cell (c : Cell)
  /-- the keys for one press, two presses, and so on -/
  | dance (cs : List Cell)
  deriving DecidableEq

/-- What a position of the keymap holds: a key, or a base key with a key, or none, for each layer. -/
inductive Pos where
  | act (a : Act)
  | layered (base : Act) (as : List (Option Act))
  deriving DecidableEq

/-- What a key pressed now does. -/
def Pos.pick (b : Board.State) : Pos → Act
  | .act a => a
  | .layered base as => Board.lookup b.on b.dflt base as

/-- A tap-dance key that waits. -/
structure Waiting where
  key : Nat
  cells : List Cell
  /-- the presses after the first -/
  again : Nat
  /-- the time at which it is decided if it is not pressed again -/
  deadline : Nat
  /-- the events since it waits, oldest first -/
  seen : List InputEvent
  deriving DecidableEq

structure State where
  board : Board.State
  waiting : Option Waiting
  /-- events that arrived and were not taken -/
  queue : List InputEvent
  /-- ticks until the next event may be taken -/
  delay : Nat
  /-- ms since the start -/
  clock : Nat
  /-- the deadlines that were set and are still to come, also those that no longer matter -/
  timers : List Nat
  deriving DecidableEq

/-- A key is held from now on. -/
def hold (b : Board.State) (i : Nat) (c : Cell) : Board.State := c.press { b with held := b.held ++ [(i, c)] }

/-- The event is of key `i`. -/
def ofKey (i : Nat) : InputEvent → Bool
  | .press j | .release j => i = j
  | _ => false

/-- The kept events: those of other keys, then the last one of the key itself. -/
def Waiting.kept (w : Waiting) : List InputEvent :=
  w.seen.filter (fun e => !ofKey w.key e) ++ (w.seen.filter (ofKey w.key)).getLast?.toList

/-- The waiting key is decided: it is the key for the number of presses; the kept events come before those
that arrived and were not taken. `none`: too many events (more than 31). -/
def State.settle (s : State) (w : Waiting) : Option State :=
  if (w.kept ++ s.queue).length ≤ 31 then
    (w.cells[w.again]?).map fun c => { s with board := hold s.board w.key c, waiting := none, queue := w.kept ++ s.queue }
  else none

/-- A timer is set. `none`: too many timers (32), or the clock ends. -/
def State.set (r : Rules) (s : State) : Option State :=
  if s.timers.length < 32 ∧ s.clock + r.timeout < 2 ^ 32 then some { s with timers := s.timers ++ [s.clock + r.timeout] }
  else none

/-- The waiting key is pressed again. At the last of its keys there is nothing to wait for. -/
def State.again (r : Rules) (s : State) (w : Waiting) : Option State :=
  (s.set r).bind fun s =>
    let w := { w with again := w.again + 1, deadline := s.clock + r.timeout }
    if w.again + 1 < w.cells.length then some { s with waiting := some w } else s.settle w

/-- A key that is not held is pressed, and no key waits. -/
def State.press (r : Rules) (s : State) (i : Nat) : Act → Option State
  | .cell c => some { s with board := hold s.board i c }
  | .dance cs => (s.set r).map fun s => { s with waiting := some ⟨i, cs, 0, s.clock + r.timeout, []⟩ }

/-- A key event is taken. `none`: more than 16 events while a key waits, a 17th key, or a key outside the
keymap. -/
def State.take (layout : List Pos) (r : Rules) (s : State) (e : InputEvent) : Option State :=
  match s.waiting with
  | some w =>
    if w.seen.length < 16 then
      let w := { w with seen := w.seen ++ [e] }
      if e = .press w.key then s.again r w else some { s with waiting := some w }
    else none
  | none =>
    match e with
    | .press i =>
      if s.board.holds i then some s
      else if s.board.held.length < 16 then (layout[i]?).bind fun p => s.press r i (p.pick s.board)
      else none
    | e => some { s with board := s.board.input [] e }

/-- The oldest event is taken. -/
def State.takeOldest (layout : List Pos) (r : Rules) (s : State) : Option State :=
  match s.queue with
  | [] => none
  | e :: q => { s with queue := q }.take layout r e

/-- An input event arrives. At most 31 wait; an event that finds none waiting is taken at once, unless one
was taken since the last tick. -/
def State.input (layout : List Pos) (r : Rules) (s : State) (e : InputEvent) : Option State :=
  if s.queue.length ≥ 31 then some s
  else
    let s := { s with queue := s.queue ++ [e] }
    if s.delay = 0 then (s.takeOldest layout r).map fun s => { s with delay := 1 }
    else some s

/-- Time passes: a key whose deadline has come is decided. `none`: the clock ends. -/
def State.pass (r : Rules) (s : State) : Option State :=
  if s.clock + r.ms < 2 ^ 32 then
    let s := { s with clock := s.clock + r.ms, timers := s.timers.filter (fun t => s.clock + r.ms < t) }
    match s.waiting with
    | some w => if w.deadline ≤ s.clock then s.settle w else some s
    | none => some s
  else none

/-- A tick: an event is taken, if one may be; then time passes. -/
def State.tick (layout : List Pos) (r : Rules) (s : State) : Option State :=
  (if s.delay = 0 ∧ s.queue ≠ [] then s.takeOldest layout r else some { s with delay := s.delay - 1 }).bind fun s => s.pass r

/-- The board after some calls; `none`: overloaded. -/
def State.run (layout : List Pos) (r : Rules) (s : State) : List Board.Call → Option State
  | [] => some s
  | .input e :: cs => (s.input layout r e).bind fun s => s.run layout r cs
  | .tick :: cs => (s.tick layout r).bind fun s => s.run layout r cs
  | .report :: cs => s.run layout r cs

/-- The board at the beginning, with `n` layers. -/
def State.new (n : Nat) : State := ⟨⟨[], List.replicate n false, none⟩, none, [], 0, 0, []⟩

end Verif.Dance
