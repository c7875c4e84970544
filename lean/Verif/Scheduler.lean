import Verif.Types

/-!
# `EventScheduler`, src/keymap/event_scheduler.rs

The vector `scheduled_events` (latest event first, soonest last) is modelled as a list in the
opposite order: soonest first. `pop()` is then taking the head.
-/

namespace Verif

/-- Largest `u32`, plus one. -/
def u32Size : Nat := 4294967296

/-- A behaviour of `slice::binary_search_by(..).unwrap_or_else(|e| e)` as used by `schedule_after`
(event_scheduler.rs 61-64), which the standard library leaves open for equal elements ("if there
are multiple matches, any one of them could be returned").

Stated for the model's order (soonest first): `pos l t` is the number of events of `l` that will be
popped before the inserted event of time `t`. On a sorted list everything before the position is
`≤ t`, everything after is `≥ t`; and if an event of time `t` is present, the position found is that
of some such event, so that the new one is popped right after it. -/
structure Search where
  pos : List Nat → Nat → Nat
  pos_le : ∀ (l : List Nat) (t : Nat), pos l t ≤ l.length
  before : ∀ (l : List Nat) (t : Nat), l.Pairwise (· ≤ ·) → ∀ x ∈ l.take (pos l t), x ≤ t
  after : ∀ (l : List Nat) (t : Nat), l.Pairwise (· ≤ ·) → ∀ x ∈ l.drop (pos l t), t ≤ x
  hit : ∀ (l : List Nat) (t : Nat), l.Pairwise (· ≤ ·) → t ∈ l → ∃ k, pos l t = k + 1 ∧ l[k]? = some t

/-- `event_scheduler::ScheduledEvent<E>`, 12-17. -/
structure Timed (E : Type) where
  time : Nat
  event : Event E
  live : Bool
  deriving DecidableEq, Repr

/-- `EventScheduler<E>`, 19-24. -/
structure Sched (E : Type) where
  /-- `pending_events`, oldest first; `none` is a cancelled event (98-104) -/
  pending : List (Option (Event E))
  /-- `scheduled_events`, soonest first -/
  scheduled : List (Timed E)
  /-- `schedule_counter` -/
  counter : Nat
  deriving DecidableEq, Repr

namespace Sched

variable {E : Type}

/-- `MAX_PENDING_EVENTS` (9) is 32; an `spsc::Queue` of size 32 holds 31 elements. -/
def pendingCap : Nat := 31
/-- `MAX_SCHEDULED_EVENTS`, 10. -/
def scheduledCap : Nat := 32

/-- `EventScheduler::new`, 27-33. -/
def new : Sched E := ⟨[], [], 0⟩

/-- The loop `while self.pending_events.dequeue().flatten().is_some() {}` of `init`, 36. -/
def initDrain : List (Option (Event E)) → List (Option (Event E))
  | some _ :: q => initDrain q
  | none :: q => q
  | [] => []

/-- `EventScheduler::init`, 35-39. -/
def init (s : Sched E) : Sched E := ⟨initDrain s.pending, [], 0⟩

/-- `EventScheduler::enqueue_event`, 52-54 (and 103). -/
def enqueue (s : Sched E) (e : Option (Event E)) : Res (Sched E) := do
  let q ← pushCap pendingCap s.pending e
  pure { s with pending := q }

/-- `EventScheduler::schedule_after`, 56-75. -/
def scheduleAfter (S : Search) (s : Sched E) (delay : Nat) (e : Event E) : Res (Sched E) :=
  let time := s.counter + delay
  if time < u32Size then
    if s.scheduled.length < scheduledCap then
      let k := S.pos (s.scheduled.map Timed.time) time
      .ok { s with scheduled := s.scheduled.take k ++ ⟨time, e, true⟩ :: s.scheduled.drop k }
    else .panic .capacity
  else .panic .arith

/-- `EventScheduler::schedule_event`, 41-50. -/
def scheduleEvent (S : Search) (s : Sched E) (e : SchEv E) : Res (Sched E) :=
  match e.schedule with
  | .immediate => s.enqueue (some e.event)
  | .after d => s.scheduleAfter S d e.event

/-- `key_events.into_iter().for_each(|sch_ev| self.event_scheduler.schedule_event(sch_ev))`,
the loop used throughout src/keymap.rs. -/
def scheduleAll (S : Search) (s : Sched E) : KeyEvents E → Res (Sched E)
  | [] => .ok s
  | e :: es => do
    let s' ← s.scheduleEvent S e
    scheduleAll S s' es

/-- The body of the loop in `cancel_events_for_keymap_index`, 80-89. -/
def cancelOne (idx : Nat) (t : Timed E) : Timed E :=
  match t.event with
  | .key ki _ => if ki = idx then { t with live := false } else t
  | _ => t

/-- `EventScheduler::cancel_events_for_keymap_index`, 77-90. -/
def cancel (s : Sched E) (idx : Nat) : Sched E :=
  { s with scheduled := s.scheduled.map (cancelOne idx) }

/-- `EventScheduler::tick`, 92-107. -/
def tick (s : Sched E) (delta : Nat) : Res (Sched E) :=
  let counter := s.counter + delta
  if counter < u32Size then
    match s.scheduled with
    | t :: rest =>
      if t.time ≤ counter then
        { s with counter, scheduled := rest }.enqueue (if t.live then some t.event else none)
      else .ok { s with counter }
    | [] => .ok { s with counter }
  else .panic .arith

/-- `EventScheduler::dequeue`, 109-111: removes the oldest entry; a cancelled entry yields `None`
like an empty queue does. -/
def dequeue (s : Sched E) : Option (Event E) × Sched E :=
  match s.pending with
  | [] => (none, s)
  | e :: q => (e, { s with pending := q })

/-- `EventScheduler::next_event_time`, 114-122. -/
def nextEventTime (s : Sched E) : Res (Option Nat) :=
  match s.pending with
  | _ :: _ => .ok (some 0)
  | [] =>
    match s.scheduled with
    | [] => .ok none
    | t :: _ => if s.counter ≤ t.time then .ok (some (t.time - s.counter)) else .panic .arith

end Sched

end Verif
