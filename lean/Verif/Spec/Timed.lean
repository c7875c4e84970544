import Verif.Spec.Board

/-!
# A keyboard with tap-hold keys

The board of `Spec/Board.lean`, with keys that do one thing when tapped and another when held. Pressing
such a key makes it wait; while it waits, the other key events are kept; once it is decided, it is held
like any other key, and the kept events follow one per tick.
-/

namespace Verif.Timed

open Board (Cell)

/-- When a waiting key is taken as held before its time, because of another key. -/
inductive Interrupt where
  | never
  /-- when another key is pressed -/
  | onPress
  /-- when another key is pressed and released -/
  | onTap
  deriving DecidableEq

/-- The settings of the tap-hold keys. -/
structure Rules where
  /-- how long a tap-hold key waits, in ms -/
  timeout : Nat
  interrupt : Interrupt
  /-- a tap-hold key does not wait, and is taken as tapped, unless no event arrived for so long (ms) -/
  requiredIdle : Option Nat
  /-- length of a tick in ms -/
  ms : Nat
  deriving DecidableEq

/-- What a key does. -/
inductive Act where
  | cell (c : Cell)
  | tapHold (tap hold : Cell)
  deriving DecidableEq

/-- What a position of the keymap holds: a key, or a base key with a key, or none, for each layer. -/
inductive Pos where
  | act (a : Act)
  | layered (base : Act) (as : List (Option Act))
  deriving DecidableEq

/-- What a key pressed now does. -/
def Pos.pick (b : Board.State) : Pos → Act
  | .act a => a
  | .layered base as => Board.lookup b.on b.dflt base as

/-- A tap-hold key that waits. -/
structure Waiting where
  key : Nat
  tap : Cell
  hold : Cell
  /-- the time at which it is taken as held -/
  deadline : Nat
  /-- the key pressed last since it waits -/
  other : Option Nat
  /-- the events since it waits, oldest first -/
  seen : List InputEvent
  deriving DecidableEq

structure State where
  board : Board.State
  waiting : Option Waiting
  /-- events that arrived and were not taken -/
  queue : List InputEvent
  /-- ticks until the next event may be taken -/
  delay : Nat
  /-- ms since the start -/
  clock : Nat
  /-- ms since the last event arrived -/
  idle : Nat
  /-- `idle` at the beginning of the last tick -/
  idleSeen : Nat
  /-- the deadlines that were set and are still to come, also those that no longer matter -/
  timers : List Nat
  deriving DecidableEq

/-- A key is held from now on. -/
def hold (b : Board.State) (i : Nat) (c : Cell) : Board.State := c.press { b with held := b.held ++ [(i, c)] }

/-- The event is of key `i`. -/
def ofKey (i : Nat) : InputEvent → Bool
  | .press j | .release j => i = j
  | _ => false

/-- The kept events: those of other keys, then the last one of the key itself. -/
def Waiting.kept (w : Waiting) : List InputEvent :=
  w.seen.filter (fun e => !ofKey w.key e) ++ (w.seen.filter (ofKey w.key)).getLast?.toList

/-- The waiting key is decided; the kept events come before those that arrived and were not taken.
`none`: too many events (more than 31). -/
def State.settle (s : State) (w : Waiting) (c : Cell) : Option State :=
  if (w.kept ++ s.queue).length ≤ 31 then
    some { s with board := hold s.board w.key c, waiting := none, queue := w.kept ++ s.queue }
  else none

/-- Whether an event decides a waiting key, and how. -/
def Waiting.decided (r : Rules) (w : Waiting) : InputEvent → Option Cell
  | .press _ => if r.interrupt = .onPress then some w.hold else none
  | .release j =>
    if j = w.key then some w.tap
    else if r.interrupt = .onTap ∧ w.other = some j then some w.hold
    else none
  | _ => none

/-- The waiting key with one more event. -/
def Waiting.see (w : Waiting) (e : InputEvent) : Waiting :=
  { w with
    seen := w.seen ++ [e]
    other := match e with | .press j => some j | _ => w.other }

/-- No event arrived for as long as is required for a tap-hold key to wait. -/
def State.rested (r : Rules) (s : State) : Bool :=
  match r.requiredIdle with
  | some t => decide (t ≤ s.idleSeen)
  | none => true

/-- A key that is not held is pressed, and no key waits. `none`: too many timers (32), or the clock ends. -/
def State.press (r : Rules) (s : State) (i : Nat) : Act → Option State
  | .cell c => some { s with board := hold s.board i c }
  | .tapHold t h =>
    if s.rested r then
      if s.timers.length < 32 ∧ s.clock + r.timeout < 2 ^ 32 then
        some { s with
          waiting := some ⟨i, t, h, s.clock + r.timeout, none, []⟩
          timers := s.timers ++ [s.clock + r.timeout] }
      else none
    else some { s with board := hold s.board i t }

/-- A key event is taken. `none`: more than 16 events while a key waits, a 17th key, or a key outside the
keymap. -/
def State.take (layout : List Pos) (r : Rules) (s : State) (e : InputEvent) : Option State :=
  match s.waiting with
  | some w =>
    if w.seen.length < 16 then
      match w.decided r e with
      | some c => s.settle (w.see e) c
      | none => some { s with waiting := some (w.see e) }
    else none
  | none =>
    match e with
    | .press i =>
      if s.board.holds i then some s
      else if s.board.held.length < 16 then (layout[i]?).bind fun p => s.press r i (p.pick s.board)
      else none
    | e => some { s with board := s.board.input [] e }

/-- The oldest event is taken. -/
def State.takeOldest (layout : List Pos) (r : Rules) (s : State) : Option State :=
  match s.queue with
  | [] => none
  | e :: q => { s with queue := q }.take layout r e

/-- An input event arrives. At most 31 wait; an event that finds none waiting is taken at once, unless one
was taken since the last tick. -/
def State.input (layout : List Pos) (r : Rules) (s : State) (e : InputEvent) : Option State :=
  let s := { s with idle := 0 }
  if s.queue.length ≥ 31 then some s
  else
    let s := { s with queue := s.queue ++ [e] }
    if s.delay = 0 then (s.takeOldest layout r).map fun s => { s with delay := 1 }
    else some s

/-- Time passes: a key whose deadline has come is taken as held. `none`: the clock ends. -/
def State.pass (r : Rules) (s : State) : Option State :=
  if s.clock + r.ms < 2 ^ 32 then
    let s := { s with clock := s.clock + r.ms, timers := s.timers.filter (fun t => s.clock + r.ms < t) }
    match s.waiting with
    | some w => if w.deadline ≤ s.clock then s.settle w w.hold else some s
    | none => some s
  else none

/-- A tick: an event is taken, if one may be; then time passes. -/
def State.tick (layout : List Pos) (r : Rules) (s : State) : Option State :=
  let s := { s with idleSeen := s.idle }
  let s := if s.delay = 0 ∧ s.queue ≠ [] then s.takeOldest layout r else some { s with delay := s.delay - 1 }
  (s.bind fun s => s.pass r).map fun s => { s with idle := s.idle + r.ms }

/-- The board after some calls; `none`: overloaded. -/
def State.run (layout : List Pos) (r : Rules) (s : State) : List Board.Call → Option State
  | [] => some s
  | .input e :: cs => (s.input layout r e).bind fun s => s.run layout r cs
  | .tick :: cs => (s.tick layout r).bind fun s => s.run layout r cs
  | .report :: cs => s.run layout r cs

/-- The board at the beginning, with `n` layers. -/
def State.new (n : Nat) : State := ⟨⟨[], List.replicate n false, none⟩, none, [], 0, 0, 0, 0, []⟩

end Verif.Timed
