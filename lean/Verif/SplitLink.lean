import Verif.Split

/-!
# The ch32x035 firmware: the wire between the two halves

firmware/ch32x035-usb-device-compositekm-c/keyboard/keyboard_split_tx_dma.c and keyboard_split_rx_dma.c. Each half queues its key events,
serializes them one at a time into a buffer, and lets the DMA controller copy this buffer to the UART. The UART of the other half has its DMA
controller copy the bytes to one of two buffers; two interrupts swap them and give the bytes to the keymap.

Not modelled: the UART itself (start and stop bits, noise, parity, baud rate); the set-up of the peripherals.
-/

namespace Verif.SplitLink

open Verif.Split
open Verif.CApi (CEvent)

/-! ## Sending -/

/-- `TX_QUEUE_SIZE`, keyboard_split_tx_dma.c 17. -/
def txQueueSize : Nat := 16

/-- `MESSAGE_BUFFER_LEN`, smart_keymap/src/lib.rs 41. -/
def messageLen : Nat := 4

/-- Where `keyboard_split_write` is, keyboard_split_tx_dma.c 100-142. -/
inductive Writing where
  /-- not called -/
  | no
  /-- at 112, with `ev` and `next_head` -/
  | store (ev : CEvent) (next : Nat)
  /-- at 113 -/
  | move (next : Nat)
  /-- at the critical section, 116-139 -/
  | critical
  deriving DecidableEq, Repr

/-- The variables of keyboard_split_tx_dma.c 23-29 (`queue`, `head`, `tail`, `dmaBuf`, `busy`), the channel of the DMA controller (`left`: its
counter; `tc`: its "transfer complete" flag), where `keyboard_split_write` is, and what is seen from outside: the bytes sent, the events
`keyboard_split_write` took (it went past the test of the queue), and those it did not take (it returned -1). -/
structure Tx where
  queue : List CEvent := List.replicate txQueueSize ⟨.press, 0⟩
  head : Nat := 0
  tail : Nat := 0
  dmaBuf : List Byte := List.replicate messageLen 0
  busy : Bool := false
  left : Nat := 0
  tc : Bool := false
  writing : Writing := .no
  out : List Byte := []
  taken : List CEvent := []
  dropped : List CEvent := []
  deriving DecidableEq, Repr

/-- What happens on the sending half. -/
inductive TxAct where
  /-- `keyboard_split_write` is called -/
  | write (ev : CEvent)
  /-- it runs on to the next of its steps -/
  | go
  /-- the DMA controller copies a byte to the UART -/
  | byte
  /-- the interrupt of the DMA controller -/
  | irq
  deriving DecidableEq, Repr

/-- `next_head`, keyboard_split_tx_dma.c 101, and the new tail, 40 and 125: `& (TX_QUEUE_SIZE - 1)`, and the size is a power of two. -/
def txNext (i : Nat) : Nat := (i + 1) % txQueueSize

/-- keyboard_split_tx_dma.c 39-46 and 124-134: take the event at the tail, serialize it, and start the DMA controller. An index out of the
array is an error here; it never happens (`C68_no_panic`). -/
def Tx.start (s : Tx) : Res Tx :=
  match s.queue[s.tail]? with
  | none => .panic .index
  | some ev => do
    let bytes ← serializeEvent ev
    .ok { s with tail := txNext s.tail, dmaBuf := bytes, left := messageLen }

/-- One step of the sending half: `KEYBOARD_SPLIT_TX_DMA_IRQ_HANDLER`, keyboard_split_tx_dma.c 32-53, or a part of `keyboard_split_write`,
100-142. The interrupt may come between any two of these parts, but not within the critical section. (In the firmware
`keyboard_split_write` is called in an interrupt of the same preemption priority, keyboard_matrix.c 24, so that in fact it never does.)
A call while the function runs, a byte without a transfer and an interrupt without its flag do not happen: they change nothing. -/
def Tx.step (s : Tx) : TxAct → Res Tx
  | .write ev =>
    match s.writing with
    | .no =>
      let next := txNext s.head
      if next = s.tail then .ok { s with dropped := s.dropped ++ [ev] }
      else .ok { s with writing := .store ev next, taken := s.taken ++ [ev] }
    | _ => .ok s
  | .go =>
    match s.writing with
    | .no => .ok s
    | .store ev next => .ok { s with queue := s.queue.set s.head ev, writing := .move next }
    | .move next => .ok { s with head := next, writing := .critical }
    | .critical =>
      let s := { s with writing := .no }
      if s.busy = false then
        if s.head ≠ s.tail then ({ s with busy := true } : Tx).start else .ok s
      else .ok s
  | .byte =>
    if s.left = 0 then .ok s
    else .ok { s with
      out := s.out ++ (s.dmaBuf[messageLen - s.left]?).toList
      left := s.left - 1
      tc := if s.left = 1 then true else s.tc }
  | .irq =>
    if s.tc = true then
      let s := { s with tc := false }
      if s.head ≠ s.tail then do
        let s ← s.start
        .ok { s with busy := true }
      else .ok { s with busy := false }
    else .ok s

/-- Several steps. -/
def Tx.run (s : Tx) : List TxAct → Res Tx
  | [] => .ok s
  | a :: as => do
    let s ← s.step a
    s.run as

/-! ## Receiving -/

/-- `RX_BUFFER_SIZE`, keyboard_split_rx_dma.c 15. -/
def rxBufferSize : Nat := 16

/-- Where the interrupts of the receiving half are. They have the same preemption priority (keyboard_split_rx_dma.c 118 and 130), so that
one does not interrupt the other. -/
inductive Handling where
  /-- neither runs -/
  | no
  /-- `KEYBOARD_SPLIT_USART_IRQ_HANDLER` at 46 -/
  | idle
  /-- `KEYBOARD_SPLIT_USART_IRQ_HANDLER` at 47, with `rx_len` -/
  | swap (len : Nat)
  /-- `KEYBOARD_SPLIT_USART_IRQ_HANDLER` at 61: `old_buffer` and `rx_len` -/
  | process (old : Bool) (len : Nat)
  /-- `KEYBOARD_SPLIT_RX_DMA_IRQ_HANDLER` at 69 -/
  | full
  /-- `KEYBOARD_SPLIT_RX_DMA_IRQ_HANDLER` at 81: `old_buffer` -/
  | processFull (old : Bool)
  deriving DecidableEq, Repr

/-- The variables of keyboard_split_rx_dma.c 17-25 (`msg`, `cur`, the two buffers), the channel of the DMA controller (`counter`, `target`:
the buffer `MADDR` points to, `tc`), the UART (`idle`: its flag; `held`: a byte in its data register that the DMA controller has not yet
copied), where the interrupts are, and what is seen from outside: the events given to `keymap_register_input_event`, and the bytes that came
in while the data register was in use (they are lost). -/
structure Rx where
  msg : List Byte := List.replicate messageLen 0
  cur : Bool := false
  buf0 : List Byte := List.replicate rxBufferSize 0
  buf1 : List Byte := List.replicate rxBufferSize 0
  counter : Nat := rxBufferSize
  target : Bool := false
  tc : Bool := false
  idle : Bool := false
  held : Option Byte := none
  handling : Handling := .no
  events : List CEvent := []
  lost : List Byte := []
  deriving DecidableEq, Repr

/-- What happens on the receiving half. -/
inductive RxAct where
  /-- the UART has received a byte -/
  | byte (b : Byte)
  /-- the UART finds the line idle -/
  | quiet
  /-- the interrupt that runs goes on to its next step; if none runs, one that is pending is entered -/
  | go
  deriving DecidableEq, Repr

/-- `rx_buffers.rx_buffer[i]`. -/
def Rx.buffer (s : Rx) : Bool → List Byte
  | false => s.buf0
  | true => s.buf1

/-- The DMA controller writes a byte to memory: at the place after those already written. -/
def Rx.store (s : Rx) (b : Byte) : Rx :=
  let i := rxBufferSize - s.counter
  let s := if s.target then { s with buf1 := s.buf1.set i b } else { s with buf0 := s.buf0.set i b }
  { s with counter := s.counter - 1, tc := if s.counter = 1 then true else s.tc }

/-- A byte comes in. In "normal" mode (keyboard_split_rx_dma.c 107) the DMA controller stops when its counter is zero. -/
def Rx.byte (s : Rx) (b : Byte) : Rx :=
  if s.counter ≠ 0 then s.store b
  else match s.held with
    | none => { s with held := some b }
    | some _ => { s with lost := s.lost ++ [b] }

/-- keyboard_split_rx_dma.c 49-56 and 72-78: swap the buffers and start the DMA controller, which at once copies a byte that has waited.
Simplified: one step. A byte that comes while the controller is disabled waits in the data register of the UART, as one that comes just before
would if the counter was zero and as one that comes just after does not. -/
def Rx.restart (s : Rx) : Rx :=
  let s := { s with cur := !s.cur, counter := rxBufferSize, target := !s.cur }
  match s.held with
  | none => s
  | some b => { s with held := none }.store b

/-- `keymap_split_receive_bytes`, keyboard_split_rx_dma.c 31-42, of the first bytes of a buffer. -/
def Rx.process (s : Rx) (old : Bool) (len : Nat) : Res Rx := do
  let (msg, evs) ← receiveBytes s.msg ((s.buffer old).take len)
  .ok { s with msg := msg, events := s.events ++ evs }

/-- One step of the receiving half: `KEYBOARD_SPLIT_USART_IRQ_HANDLER`, keyboard_split_rx_dma.c 44-63, or
`KEYBOARD_SPLIT_RX_DMA_IRQ_HANDLER`, 65-85. When both are pending the one of the DMA controller is entered first: the sub-priorities are the same
(119 and 131), and then the smaller number goes first (DMA1 channel 6: 27, USART2: 39). Simplified: the flags are tested when a handler is
entered (45 and 68 find them set); reading the counter, 46, is one step and swapping the buffers another. Line 58 clears the idle flag in the
same step as 49-56. -/
def Rx.step (s : Rx) : RxAct → Res Rx
  | .byte b => .ok (s.byte b)
  | .quiet => .ok { s with idle := true }
  | .go =>
    match s.handling with
    | .no =>
      if s.tc = true then .ok { s with handling := .full }
      else if s.idle = true then .ok { s with handling := .idle }
      else .ok s
    | .idle => .ok { s with handling := .swap (rxBufferSize - s.counter) }
    | .swap len => .ok { s.restart with idle := false, handling := .process s.cur len }
    | .process old len => do
      let s ← s.process old len
      .ok { s with handling := .no }
    | .full => .ok { s.restart with handling := .processFull s.cur }
    | .processFull old => do
      let s ← s.process old rxBufferSize
      .ok { s with handling := .no, tc := false }

/-- Several steps. -/
def Rx.run (s : Rx) : List RxAct → Res Rx
  | [] => .ok s
  | a :: as => do
    let s ← s.step a
    s.run as

/-! ## Both halves -/

/-- One half that sends, one that receives, and the bytes on the wire. -/
structure Link where
  tx : Tx := {}
  wire : List Byte := []
  rx : Rx := {}
  deriving DecidableEq, Repr

/-- What happens on the link. -/
inductive LinkAct where
  /-- on the sending half -/
  | tx (a : TxAct)
  /-- the next byte on the wire comes in at the receiving half -/
  | arrive
  /-- the UART of the receiving half finds the line idle -/
  | quiet
  /-- the interrupts of the receiving half go on -/
  | go
  deriving DecidableEq, Repr

/-- One step of the link. -/
def Link.step (s : Link) : LinkAct → Res Link
  | .tx a => do
    let t ← s.tx.step a
    .ok { s with tx := t, wire := s.wire ++ t.out.drop s.tx.out.length }
  | .arrive =>
    match s.wire with
    | [] => .ok s
    | b :: bs => do
      let r ← s.rx.step (.byte b)
      .ok { s with wire := bs, rx := r }
  | .quiet => do
    let r ← s.rx.step .quiet
    .ok { s with rx := r }
  | .go => do
    let r ← s.rx.step .go
    .ok { s with rx := r }

/-- Several steps. -/
def Link.run (s : Link) : List LinkAct → Res Link
  | [] => .ok s
  | a :: as => do
    let s ← s.step a
    s.run as

end Verif.SplitLink
