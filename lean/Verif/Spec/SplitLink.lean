import Verif.SplitLink
import Verif.Props.Split

/-!
# What the link between the halves is to do
-/

namespace Verif.SplitLink

open Verif.Split
open Verif.CApi (CEvent)

/-- The four bytes of an event. -/
def message (ev : CEvent) : List Byte := Split.wire ev.toInput

/-- An event that fits a message: a press or release of one of the first 128 keys. -/
def Fits (ev : CEvent) : Prop := (ev.type = .press ∨ ev.type = .release) ∧ ev.value < 128

/-- All events given to `keyboard_split_write` fit. -/
def TxAct.Fits : TxAct → Prop
  | .write ev => SplitLink.Fits ev
  | _ => True

/-- The bytes that come in at the receiving half. -/
def arriving : List RxAct → List Byte
  | [] => []
  | .byte b :: as => b :: arriving as
  | _ :: as => arriving as

/-- The receiving half keeps up with a byte that comes in: the data register of the UART is free if the DMA controller has stopped; the byte
does not come between reading the counter and stopping the DMA controller; and it does not fill the buffer while the interrupt of the idle
line is about to read the counter, nor while the interrupt of the DMA controller still works on the other buffer. -/
def Rx.KeepsUp (s : Rx) : Prop :=
  (s.counter = 0 → s.held = none) ∧ (∀ len, s.handling ≠ .swap len) ∧
  (s.handling = .idle ∨ (∃ old, s.handling = .processFull old) → s.counter ≠ 1)

/-- It does so whenever a byte comes in. -/
def Rx.Along (s : Rx) : List RxAct → Prop
  | [] => True
  | a :: as => (∀ b, a = .byte b → s.KeepsUp) ∧ ∀ s', s.step a = .ok s' → s'.Along as

/-- The same on the link. -/
def Link.Along (s : Link) : List LinkAct → Prop
  | [] => True
  | a :: as => (a = .arrive → s.wire ≠ [] → s.rx.KeepsUp) ∧ ∀ s', s.step a = .ok s' → s'.Along as

/-- All events written on the link fit. -/
def LinkAct.Fits : LinkAct → Prop
  | .tx a => a.Fits
  | _ => True

end Verif.SplitLink
