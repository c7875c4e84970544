import Verif.Scheduler

/-!
# What a user of the event scheduler sees

A history is a list of calls. The specification side of the theorems is computed from the calls
alone: the clock, and the list of requests with their due times.
-/

namespace Verif

/-- The calls of `EventScheduler` (event_scheduler.rs 41-111). -/
inductive SOp (E : Type) where
  | schedule (e : SchEv E)
  | cancel (idx : Nat)
  | tick (delta : Nat)
  | dequeue
  deriving DecidableEq, Repr

/-- Runs the calls; also yields the results of the `dequeue` calls, in order. -/
def srun {E : Type} (S : Search) : Sched E → List (SOp E) → Res (Sched E × List (Option (Event E)))
  | s, [] => .ok (s, [])
  | s, .schedule e :: ops => do
    let s ← s.scheduleEvent S e
    srun S s ops
  | s, .cancel i :: ops => srun S (s.cancel i) ops
  | s, .tick d :: ops => do
    let s ← s.tick d
    srun S s ops
  | s, .dequeue :: ops => do
    let (s', outs) ← srun S s.dequeue.2 ops
    pure (s', s.dequeue.1 :: outs)

namespace Spec

variable {E : Type}

/-- Milliseconds that pass during the calls. -/
def clock : List (SOp E) → Nat
  | [] => 0
  | .tick d :: ops => d + clock ops
  | _ :: ops => clock ops

/-- The requests made by the calls, each with the time at which it is due, when the clock shows
`now` at the start. -/
def requests (now : Nat) : List (SOp E) → List (Event E × Nat)
  | [] => []
  | .schedule ⟨.immediate, e⟩ :: ops => (e, now) :: requests now ops
  | .schedule ⟨.after d, e⟩ :: ops => (e, now + d) :: requests now ops
  | .tick d :: ops => requests (now + d) ops
  | _ :: ops => requests now ops

/-- `e` is an event of key `i`. -/
def ofKey (i : Nat) : Event E → Bool
  | .key j _ => i == j
  | _ => false

/-- Some call cancels the events of the key `e` belongs to. -/
def cancelled (e : Event E) (ops : List (SOp E)) : Bool :=
  ops.any fun
    | .cancel i => ofKey i e
    | _ => false

/-- Hide the events of key `i`. -/
def hide (i : Nat) : Option (Event E) → Option (Event E)
  | some e => if ofKey i e then none else some e
  | none => none

/-- The calls without the cancellations of key `i`. -/
def withoutCancel (i : Nat) (ops : List (SOp E)) : List (SOp E) :=
  ops.filter fun
    | .cancel j => i != j
    | _ => true

/-- `k` milliseconds, taking an event from the queue after each. -/
def milliseconds : Nat → List (SOp E)
  | 0 => []
  | k + 1 => .tick 1 :: .dequeue :: milliseconds k

end Spec

/-- A state the scheduler can be in. -/
def SReachable {E : Type} (S : Search) (s : Sched E) : Prop :=
  ∃ ops outs, srun S Sched.new ops = .ok (s, outs)

end Verif
