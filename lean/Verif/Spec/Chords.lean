import Verif.Spec.Board

/-!
# A keyboard with chords

The board of `Spec/Board.lean`, with chords: sets of keys that do something else when they are pressed
together. Each chord has a first key; what the chord does is done by that key, and the other keys of the
chord do nothing. A key that belongs to chords waits when it is pressed; while it waits, the key events are
kept; once it is decided whether it is pressed for a chord or alone, it is held like any other key, and
the kept events follow one per tick.
-/

namespace Verif.Chords

open Board (Cell Entry)

/-- The settings of the chords. -/
structure Rules where
  /-- how long a key waits for the other keys of a chord, in ms -/
  timeout : Nat
  /-- the keys of each chord -/
  chords : List (List Nat)
  /-- a key does not wait, and is pressed alone, unless no event arrived for so long (ms) -/
  requiredIdle : Nat
  /-- so many keys can be pressed while a key waits, itself included -/
  size : Nat
  /-- so many keys can be held -/
  room : Nat
  /-- length of a tick in ms -/
  ms : Nat
  deriving DecidableEq

/-- The keys of chord `id`. -/
def Rules.keys (r : Rules) (id : Nat) : List Nat := (r.chords[id]?).getD []

/-- What a position of the keymap holds: a key that belongs to no chord, the first key of some chords (with
the numbers of the chords, what they do, and what the key does alone), or another key of some chords. -/
inductive Pos where
  | plain (e : Entry)
  | first (cs : List (Nat × Entry)) (alone : Entry)
  | other (alone : Entry)
  deriving DecidableEq

/-- What a key of a chord was pressed for. -/
inductive Outcome where
  | chord (id : Nat)
  | alone
  deriving DecidableEq

/-- What key `i` does. -/
def Pos.entry (r : Rules) (i : Nat) : Outcome → Pos → Entry
  | _, .plain e => e
  | .alone, .first _ e => e
  | .alone, .other e => e
  | .chord id, .first cs _ => if (r.keys id).head? = some i then (cs.lookup id).getD (.cell .nothing) else .cell .nothing
  | .chord _, .other _ => .cell .nothing

/-- A key that waits. -/
structure Waiting where
  key : Nat
  pos : Pos
  /-- the chords that have all the keys pressed so far -/
  maybe : List Nat
  /-- the keys pressed so far, the waiting key included -/
  pressed : List Nat
  /-- the time at which it is decided -/
  deadline : Nat
  /-- the events since it waits, oldest first -/
  seen : List InputEvent
  deriving DecidableEq

structure State where
  board : Board.State
  /-- for each chord, whether it is down -/
  down : List Bool
  /-- the chord that was pressed last -/
  latest : Option Nat
  waiting : Option Waiting
  /-- events that arrived and were not taken -/
  queue : List InputEvent
  /-- ticks until the next event may be taken -/
  delay : Nat
  /-- ms since the start -/
  clock : Nat
  /-- ms since the last event arrived -/
  idle : Nat
  /-- `idle` at the beginning of the last tick -/
  idleSeen : Nat
  /-- the deadlines that were set and are still to come, also those that no longer matter -/
  timers : List Nat
  deriving DecidableEq

/-- A key is held from now on. -/
def hold (b : Board.State) (i : Nat) (c : Cell) : Board.State := c.press { b with held := b.held ++ [(i, c)] }

/-- The event is of key `i`. -/
def ofKey (i : Nat) : InputEvent → Bool
  | .press j | .release j => i = j
  | _ => false

/-- The kept events: those of other keys, then the last one of the key itself. -/
def Waiting.kept (w : Waiting) : List InputEvent :=
  w.seen.filter (fun e => !ofKey w.key e) ++ (w.seen.filter (ofKey w.key)).getLast?.toList

/-- All keys of the chord were pressed. -/
def Waiting.complete (r : Rules) (w : Waiting) (id : Nat) : Bool := (r.keys id).all fun i => w.pressed.contains i

/-- What the key was pressed for, if it is to be decided: a complete chord, or alone. -/
def Waiting.outcome (r : Rules) (w : Waiting) : Outcome :=
  match w.maybe.find? (w.complete r) with
  | some id => .chord id
  | none => .alone

/-- The waiting key with one more press. -/
def Waiting.join (r : Rules) (w : Waiting) (j : Nat) : Waiting :=
  { w with maybe := w.maybe.filter (fun id => (r.keys id).contains j), pressed := j :: w.pressed }

/-- Whether the press of `j` decides the waiting key, and how: no chord has all the keys any more (then it
was pressed for the chord that was complete before, if there was one), or only one has, and is complete. -/
def Waiting.decided (r : Rules) (w : Waiting) (j : Nat) : Option Outcome :=
  match (w.join r j).maybe with
  | [] => some (w.outcome r)
  | [id] => if (w.join r j).complete r id then some (.chord id) else none
  | _ => none

/-- The chord is down. -/
def State.mark (s : State) : Outcome → State
  | .chord id => { s with down := s.down.set id true, latest := some id }
  | .alone => s

/-- The waiting key is decided; the kept events come before those that arrived and were not taken.
`none`: too many events (more than 31). -/
def State.settle (r : Rules) (s : State) (w : Waiting) (o : Outcome) : Option State :=
  if (w.kept ++ s.queue).length ≤ 31 then
    some { s.mark o with
      board := hold s.board w.key ((w.pos.entry r w.key o).pick s.board)
      waiting := none
      queue := w.kept ++ s.queue }
  else none

/-- The chord is down. -/
def State.isDown (s : State) (id : Nat) : Bool := (s.down[id]?).getD false

/-- The numbers of the chords. -/
def Rules.ids (r : Rules) : List Nat := List.range r.chords.length

/-- The keys of the chords that are down. -/
def State.busy (r : Rules) (s : State) : List Nat := (r.ids.filter s.isDown).flatMap r.keys

/-- The chord that is down and has key `i`. -/
def State.downWith (r : Rules) (s : State) (i : Nat) : Option Nat :=
  r.ids.find? fun id => s.isDown id && (r.keys id).contains i

/-- The chords key `i` may be pressed for: those that have it, and no key of a chord that is down. -/
def State.maybe (r : Rules) (s : State) (i : Nat) : List Nat :=
  r.ids.filter fun id => (r.keys id).contains i && (r.keys id).all (fun k => !(s.busy r).contains k)

/-- No event arrived for as long as is required for a key to wait, or the key belongs to the chord that was
pressed last. -/
def State.rested (r : Rules) (s : State) (i : Nat) : Bool :=
  decide (r.requiredIdle ≤ s.idleSeen) || s.latest.any (fun id => (r.keys id).contains i)

/-- A key that is not held is pressed, and no key waits. `none`: too many timers (32), or the clock ends. -/
def State.press (r : Rules) (s : State) (i : Nat) (p : Pos) : Option State :=
  let held (o : Outcome) := { s with board := hold s.board i ((p.entry r i o).pick s.board) }
  match p with
  | .plain _ => some (held .alone)
  | _ =>
    match s.downWith r i with
    | some id => some (held (.chord id))
    | none =>
      if s.maybe r i = [] ∨ s.rested r i = false then some (held .alone)
      else if s.timers.length < 32 ∧ s.clock + r.timeout < 2 ^ 32 then
        some { s with
          waiting := some ⟨i, p, s.maybe r i, [i], s.clock + r.timeout, []⟩
          timers := s.timers ++ [s.clock + r.timeout] }
      else none

/-- A list without the repetitions. -/
def once : List Nat → List Nat → List Nat
  | seen, [] => seen
  | seen, i :: is => once (if seen.contains i then seen else seen ++ [i]) is

/-- A key event is taken. `none`: more than 16 events, or too many presses, while a key waits; chords with
too many keys are down; too many keys are held (more than 16, or than there is room for); or a key outside
the keymap. -/
def State.take (layout : List Pos) (r : Rules) (s : State) (e : InputEvent) : Option State :=
  match s.waiting with
  | some w =>
    let seen := w.seen ++ [e]
    if w.seen.length < 16 then
      match e with
      | .press j =>
        if w.pressed.length < r.size then
          match w.decided r j with
          | some o => s.settle r { w.join r j with seen := seen } o
          | none => some { s with waiting := some { w.join r j with seen := seen } }
        else none
      | .release j =>
        if j = w.key then s.settle r { w with seen := seen } (w.outcome r)
        else some { s with waiting := some { w with seen := seen } }
      | _ => some { s with waiting := some { w with seen := seen } }
    else none
  | none =>
    match e with
    | .press i =>
      if (once [] (s.busy r)).length ≤ r.room then
        if s.board.holds i then some s
        else if s.board.held.length < 16 ∧ s.board.held.length < r.room then (layout[i]?).bind fun p => s.press r i p
        else none
      else none
    | .release i =>
      some { s with
        board := s.board.input [] (.release i)
        down := s.down.mapIdx fun id d => d && !(r.keys id).contains i }
    | _ => some s

/-- The oldest event is taken. -/
def State.takeOldest (layout : List Pos) (r : Rules) (s : State) : Option State :=
  match s.queue with
  | [] => none
  | e :: q => { s with queue := q }.take layout r e

/-- An input event arrives. At most 31 wait; an event that finds none waiting is taken at once, unless one
was taken since the last tick. -/
def State.input (layout : List Pos) (r : Rules) (s : State) (e : InputEvent) : Option State :=
  let s := { s with idle := 0 }
  if s.queue.length ≥ 31 then some s
  else
    let s := { s with queue := s.queue ++ [e] }
    if s.delay = 0 then (s.takeOldest layout r).map fun s => { s with delay := 1 }
    else some s

/-- Time passes: a key whose deadline has come is decided. `none`: the clock ends. -/
def State.pass (r : Rules) (s : State) : Option State :=
  if s.clock + r.ms < 2 ^ 32 then
    let s := { s with clock := s.clock + r.ms, timers := s.timers.filter (fun t => s.clock + r.ms < t) }
    match s.waiting with
    | some w => if w.deadline ≤ s.clock then s.settle r w (w.outcome r) else some s
    | none => some s
  else none

/-- A tick: an event is taken, if one may be; then time passes. -/
def State.tick (layout : List Pos) (r : Rules) (s : State) : Option State :=
  let s := { s with idleSeen := s.idle }
  let s := if s.delay = 0 ∧ s.queue ≠ [] then s.takeOldest layout r else some { s with delay := s.delay - 1 }
  (s.bind fun s => s.pass r).map fun s => { s with idle := s.idle + r.ms }

/-- The board after some calls; `none`: overloaded. -/
def State.run (layout : List Pos) (r : Rules) (s : State) : List Board.Call → Option State
  | [] => some s
  | .input e :: cs => (s.input layout r e).bind fun s => s.run layout r cs
  | .tick :: cs => (s.tick layout r).bind fun s => s.run layout r cs
  | .report :: cs => s.run layout r cs

/-- The board at the beginning, with `n` layers and `k` chords. -/
def State.new (n k : Nat) : State :=
  ⟨⟨[], List.replicate n false, none⟩, List.replicate k false, none, none, [], 0, 0, 0, 0, []⟩

end Verif.Chords
