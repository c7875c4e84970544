import Verif.RticSplit

/-!
# The halves of a split keyboard with embassy

stm32-embassy-smart-keyboard/examples/minif4_36-rev2021_5-lhs.rs and minif4_36-rev2021_5-rhs.rs. The left half has the keymap and the USB device; the right half
sends its key events to the left half.

On the left half there are three tasks: `keyboard_matrix_scan`, `keyboard_split_rx` and `keyboard_backend`. Each runs until it waits. The first two send messages to
the third through a channel for eight messages; a task that sends to a full channel waits.
-/

namespace Verif.EmbSplit

open Verif.Rtic
open Verif.RticSplit (Msg advance)

/-- What happens next on the left half. -/
inductive Input where
  /-- the timer of `keyboard_matrix_scan`: the switches are read with these levels -/
  | timer (raw : Levels)
  /-- `keyboard_matrix_scan` goes on, with the next event of the scan -/
  | go
  /-- a byte from the right half -/
  | byte (b : Byte)
  /-- reading from the UART fails -/
  | fault
  /-- `keyboard_split_rx` goes on, with the event it has read -/
  | deliver
  /-- `keyboard_backend` handles a message, and whether each `write` succeeds -/
  | handle (keyboard mouse consumer : Bool)

variable {R Ev Ctx PKS KS : Type}

/-- The variables of `keyboard_backend`, minif4_36-rev2021_5-lhs.rs 352-363; those of `keyboard_split_rx`: the bytes of the buffer of `read` that are filled, and the event
that is to be sent; the channel, line 61; where `keyboard_matrix_scan` is: the events of the scan that are still to be sent; and, as ghost traces, the levels read, the
events read from the UART, and the events the keymap was given. -/
structure Left (R Ev Ctx PKS KS : Type) extends Loop R Ev Ctx PKS KS where
  buf : List Byte
  event : Option InputEvent
  queue : List Msg
  todo : Option (List Backend.Event)
  scanned : List Levels
  got : List InputEvent
  heard : List InputEvent

/-- At power on, minif4_36-rev2021_5-lhs.rs 205-344. -/
def Left.new (rows cols : Nat) (km : KM R Ev Ctx PKS KS) : Left R Ev Ctx PKS KS where
  toLoop := .new rows cols km
  buf := []
  event := none
  queue := []
  todo := none
  scanned := []
  got := []
  heard := []

/-- The capacity of the channel, minif4_36-rev2021_5-lhs.rs 61. -/
def capacity : Nat := 8

section

variable (C : Cfg R Ev Ctx PKS KS) (n : Nat) (indices : List (List (Option Nat)))

/-- The start of a turn of `keyboard_matrix_scan`, minif4_36-rev2021_5-lhs.rs 433-435. -/
def Left.timer (s : Left R Ev Ctx PKS KS) (raw : Levels) : Res (Left R Ev Ctx PKS KS) := do
  let (deb, es) ← keyboardEvents s.deb raw
  .ok { s with deb := deb, todo := some es, scanned := s.scanned ++ [raw] }

/-- A turn of the inner loop of `keyboard_matrix_scan`, or the message `Tick` after it, minif4_36-rev2021_5-lhs.rs 435-440. While the channel is full, the task waits. -/
def Left.go (s : Left R Ev Ctx PKS KS) : Res (Left R Ev Ctx PKS KS) :=
  match s.todo with
  | none => .ok s
  | some [] => if s.queue.length < capacity then .ok { s with queue := s.queue ++ [.tick], todo := none } else .ok s
  | some (e :: es) => do
    match ← Backend.keymapIndexOf indices e with
    | some ie => if s.queue.length < capacity then .ok { s with queue := s.queue ++ [.event ie], todo := some es } else .ok s
    | none => .ok { s with todo := some es }

/-- `TransportReader::read`, minif4_36-rev2021_5-lhs.rs 484-493: a byte arrives. Four bytes are one message, whatever they are. (Simplified: a byte that arrives while
the task waits to send an event, and so does not read, is lost. The UART may keep the first such byte, or report the loss at the next `read`.) -/
def Left.rx (s : Left R Ev Ctx PKS KS) (b : Byte) : Left R Ev Ctx PKS KS :=
  match s.event with
  | some _ => s
  | none =>
    if s.buf.length + 1 < Split.bufferSize then { s with buf := s.buf ++ [b] }
    else { s with buf := [], event := Split.deserialize (s.buf ++ [b]), got := s.got ++ (Split.deserialize (s.buf ++ [b])).toList }

/-- `TransportReader::read`, minif4_36-rev2021_5-lhs.rs 486-492, when reading fails: what was read is forgotten. -/
def Left.fault (s : Left R Ev Ctx PKS KS) : Left R Ev Ctx PKS KS := { s with buf := [] }

/-- `keyboard_split_rx` sends, minif4_36-rev2021_5-lhs.rs 451-453. While the channel is full, the task waits. -/
def Left.deliver (s : Left R Ev Ctx PKS KS) : Left R Ev Ctx PKS KS :=
  match s.event with
  | none => s
  | some e => if s.queue.length < capacity then { s with queue := s.queue ++ [.event e], event := none } else s

/-- A turn of `keyboard_backend`, minif4_36-rev2021_5-lhs.rs 366-423. (Lines 371-422 are lines 209-259 of stm32-embassy-smart-keyboard/src/main.rs. What the other tasks
do while this one waits for a `write` they do after it.) -/
def Left.handle (s : Left R Ev Ctx PKS KS) (keyboard mouse consumer : Bool) : Res (Left R Ev Ctx PKS KS) :=
  match s.queue with
  | [] => .ok s
  | .event e :: q => do
    let b ← s.backend.event C n e
    .ok { s with backend := b, queue := q, heard := s.heard ++ [e] }
  | .tick :: q => do
    let core ← advance C n s.toCore
    let loop : Loop R Ev Ctx PKS KS := { s.toLoop with toCore := core }
    let loop ← ((loop.writeKeyboard keyboard).writeMouse mouse).writeConsumer consumer
    .ok { s with toLoop := loop, queue := q }

/-- What happens next. -/
def Left.step (s : Left R Ev Ctx PKS KS) : Input → Res (Left R Ev Ctx PKS KS)
  | .timer raw => if s.todo = none then s.timer raw else .ok s
  | .go => s.go indices
  | .byte b => .ok (s.rx b)
  | .fault => .ok s.fault
  | .deliver => .ok s.deliver
  | .handle keyboard mouse consumer => s.handle C n keyboard mouse consumer

/-- A history. -/
def Left.run (s : Left R Ev Ctx PKS KS) : List Input → Res (Left R Ev Ctx PKS KS)
  | [] => .ok s
  | i :: is => do
    let s ← s.step C n indices i
    s.run is

end

/-- The right half: its debouncer; and, as ghost traces, the levels read and the bytes sent. -/
structure Right where
  deb : Debouncer
  scanned : List Levels
  tx : List Byte
  deriving DecidableEq

/-- At power on, minif4_36-rev2021_5-rhs.rs 172-216. -/
def Right.new (rows cols : Nat) : Right where
  deb := ⟨List.replicate rows (List.replicate cols false), List.replicate rows (List.replicate cols false), 0⟩
  scanned := []
  tx := []

section

variable (indices : List (List (Option Nat)))

/-- The bytes for the events of a scan, minif4_36-rev2021_5-rhs.rs 221-228. (Simplified: writing to the UART does not fail.) -/
def transmit : List Backend.Event → Res (List Byte)
  | [] => .ok []
  | e :: es => do
    match ← Backend.keymapIndexOf indices e with
    | some ie =>
      let bytes ← Split.serialize ie
      let rest ← transmit es
      .ok (bytes ++ rest)
    | none => transmit es

/-- A turn of the loop, minif4_36-rev2021_5-rhs.rs 218-229. -/
def Right.step (s : Right) (raw : Levels) : Res Right := do
  let (deb, es) ← keyboardEvents s.deb raw
  let bytes ← transmit indices es
  .ok ⟨deb, s.scanned ++ [raw], s.tx ++ bytes⟩

/-- A history. -/
def Right.run (s : Right) : List Levels → Res Right
  | [] => .ok s
  | raw :: raws => do
    let s ← s.step indices raw
    s.run raws

end

end Verif.EmbSplit
