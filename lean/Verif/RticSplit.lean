import Verif.Rtic
import Verif.Split

/-!
# The halves of a split keyboard with RTIC

stm32f4-rtic-smart-keyboard/examples/minif4_36-rev2021_4-lhs.rs and minif4_36-rev2021_4-rhs.rs, which differ in the pins, in the table of the keys and in the name
of the product only; with stm32f4-rtic-smart-keyboard/src/split/transport.rs. Each half has a keymap and a USB device, and sends its key events to the other half.
The line numbers are those of the left half.

The tasks, by priority: `rx` (5), `layout` (3), the two of the USB driver (2), `tick` (1). A task of a higher priority runs at once when it has something to do; so
`tick` goes on only when `layout` has no messages.
-/

namespace Verif.RticSplit

open Verif.Rtic

/-- `BackendMessage`, keyberon-smart-keyboard/src/split.rs 6-11. -/
inductive Msg where
  | event (e : InputEvent)
  | tick
  deriving DecidableEq

/-- What happens next. -/
inductive Input where
  /-- the timer: `tick` starts, and the switches are read with these levels -/
  | timer (raw : Levels)
  /-- `tick` goes on, with the next event of the scan -/
  | go
  /-- a byte from the other half -/
  | byte (b : Byte)
  /-- `layout` handles a message; whether the USB device is configured, and what the driver answers to the reports -/
  | layout (configured : Bool) (keyboard consumer mouse : Answer)

variable {R Ev Ctx PKS KS : Type}

/-- The resources of the tasks, minif4_36-rev2021_4-lhs.rs 106-115; the messages to `layout`; where `tick` is: the events of the scan that are still to be sent;
and, as ghost traces, the levels read, the bytes written, and the events the keymap was given. -/
structure Half (R Ev Ctx PKS KS : Type) extends Board R Ev Ctx PKS KS where
  buf : List Byte
  queue : List Msg
  todo : Option (List Backend.Event)
  scanned : List Levels
  tx : List Byte
  heard : List InputEvent

/-- At power on, minif4_36-rev2021_4-lhs.rs 117-185. -/
def Half.new (rows cols : Nat) (km : KM R Ev Ctx PKS KS) : Half R Ev Ctx PKS KS where
  toBoard := .new rows cols km
  buf := List.replicate Split.bufferSize 0
  queue := []
  todo := none
  scanned := []
  tx := []
  heard := []

/-- The capacity of `layout`, minif4_36-rev2021_4-lhs.rs 207. -/
def capacity : Nat := 8

/-- `layout::spawn(…).unwrap()`. A message leaves its place when `layout` starts on it. -/
def spawn (q : List Msg) (m : Msg) : Res (List Msg) :=
  if q.length < capacity then .ok (q ++ [m]) else .panic .unwrap

section

variable (C : Cfg R Ev Ctx PKS KS) (n : Nat) (indices : List (List (Option Nat)))

/-- The start of `tick`, minif4_36-rev2021_4-lhs.rs 289-299. A timer that fires while `tick` runs makes it run once more at its end. -/
def Half.timer (s : Half R Ev Ctx PKS KS) (raw : Levels) : Res (Half R Ev Ctx PKS KS) := do
  let (deb, es) ← keyboardEvents s.deb raw
  .ok { s with deb := deb, todo := some es, scanned := s.scanned ++ [raw] }

/-- `TransportWriter::write`, stm32f4-rtic-smart-keyboard/src/split/transport.rs 35-42, and `layout::spawn`, minif4_36-rev2021_4-lhs.rs 301-302. (Simplified: the
four bytes are written at once. What `rx` and `layout` do in the meantime, they do before.) -/
def Half.send (s : Half R Ev Ctx PKS KS) (e : InputEvent) : Res (Half R Ev Ctx PKS KS) := do
  let bytes ← Split.serialize e
  let q ← spawn s.queue (.event e)
  .ok { s with tx := s.tx ++ bytes, queue := q }

/-- A turn of the loop of `tick`, or its end, minif4_36-rev2021_4-lhs.rs 299-307. -/
def Half.go (s : Half R Ev Ctx PKS KS) : Res (Half R Ev Ctx PKS KS) :=
  match s.todo with
  | none => .ok s
  | some [] => do
    let q ← spawn s.queue .tick
    .ok { s with queue := q, todo := none }
  | some (e :: es) => do
    match ← Backend.keymapIndexOf indices e with
    | some ie =>
      let s ← s.send ie
      .ok { s with todo := some es }
    | none => .ok { s with todo := some es }

/-- `rx`, minif4_36-rev2021_4-lhs.rs 187-193, and `TransportReader::read`, stm32f4-rtic-smart-keyboard/src/split/transport.rs 25-31. (A byte that cannot be read
does nothing, and is not an input here.) -/
def Half.rx (s : Half R Ev Ctx PKS KS) (b : Byte) : Res (Half R Ev Ctx PKS KS) :=
  match Split.receiveByte s.buf b with
  | (buf, none) => .ok { s with buf := buf }
  | (buf, some e) => do
    let q ← spawn s.queue (.event e)
    .ok { s with buf := buf, queue := q }

/-- The keymap, at the message `Tick`, minif4_36-rev2021_4-lhs.rs 219-222. -/
def advance (s : Core R Ev Ctx PKS KS) : Res (Core R Ev Ctx PKS KS) :=
  if s.success then do
    let (b, _) ← s.backend.tick C n
    .ok { s with backend := b, made := s.made ++ [b.out] }
  else .ok s

/-- `layout`, minif4_36-rev2021_4-lhs.rs 207-287. -/
def Half.layout (s : Half R Ev Ctx PKS KS) (configured : Bool) (keyboard consumer mouse : Answer) : Res (Half R Ev Ctx PKS KS) :=
  match s.queue with
  | [] => .ok s
  | .event e :: q => do
    let b ← s.backend.event C n e
    .ok { s with backend := b, queue := q, heard := s.heard ++ [e] }
  | .tick :: q => do
    let core ← advance C n s.toCore
    let board : Board R Ev Ctx PKS KS := { s.toBoard with toCore := core }
    if configured then
      let board ← board.write ⟨[], keyboard, consumer, mouse⟩
      .ok { s with toBoard := board, queue := q }
    else .ok { s with toBoard := board, queue := q }

/-- What happens next. `tick` starts when it is not running, and runs when `layout` has no messages. -/
def Half.step (s : Half R Ev Ctx PKS KS) : Input → Res (Half R Ev Ctx PKS KS)
  | .timer raw => if s.todo = none ∧ s.queue = [] then s.timer raw else .ok s
  | .go => if s.queue = [] then s.go indices else .ok s
  | .byte b => s.rx b
  | .layout configured keyboard consumer mouse => s.layout C n configured keyboard consumer mouse

/-- A history. -/
def Half.run (s : Half R Ev Ctx PKS KS) : List Input → Res (Half R Ev Ctx PKS KS)
  | [] => .ok s
  | i :: is => do
    let s ← s.step C n indices i
    s.run is

end

/-- `KEYMAP_INDICES` of the left half, minif4_36-rev2021_4-lhs.rs 12-18; also stm32-embassy-smart-keyboard/examples/minif4_36-rev2021_5-lhs.rs 94-99. -/
def lhs : List (List (Option Nat)) :=
  [[some 0, some 1, some 2, some 3, some 4], [some 10, some 11, some 12, some 13, some 14], [some 20, some 21, some 22, some 23, some 24],
   [some 30, some 31, some 32, none, none]]

/-- `KEYMAP_INDICES` of the right half, minif4_36-rev2021_4-rhs.rs 12-18; also stm32-embassy-smart-keyboard/examples/minif4_36-rev2021_5-rhs.rs 61-66. -/
def rhs : List (List (Option Nat)) :=
  [[some 5, some 6, some 7, some 8, some 9], [some 15, some 16, some 17, some 18, some 19], [some 25, some 26, some 27, some 28, some 29],
   [some 33, some 34, some 35, none, none]]

/-- `KEYMAP_INDICES` of a keyboard in one piece, rp2040-rtic-smart-keyboard/examples/pico42.rs 17-23. -/
def pico42 : List (List (Option Nat)) :=
  [[some 0, some 1, some 2, some 3, some 4, none, none, some 5, some 6, some 7, some 8, some 9],
   [some 10, some 11, some 12, some 13, some 14, none, none, some 15, some 16, some 17, some 18, some 19],
   [some 20, some 21, some 22, some 23, some 24, none, none, some 25, some 26, some 27, some 28, some 29],
   [some 30, some 31, some 32, some 33, some 34, some 35, some 36, some 37, some 38, some 39, some 40, some 41]]

end Verif.RticSplit
