import Verif.EmbSplit
import Verif.Spec.RticSplit

/-!
# Words for the halves of a split keyboard with embassy
-/

namespace Verif.EmbSplit

open Verif.Rtic
open Verif.RticSplit (eventsOf)

/-- The bytes that arrive. -/
def bytesOf (is : List Input) : List Byte :=
  is.filterMap fun | .byte b => some b | _ => none

/-- The events that some bytes are, if each four of them are one message. -/
def messages : List Byte → List InputEvent
  | a :: b :: c :: d :: rest => (Split.deserialize [a, b, c, d]).toList ++ messages rest
  | _ => []

section

variable {R Ev Ctx PKS KS : Type} (C : Cfg R Ev Ctx PKS KS) (n : Nat) (indices : List (List (Option Nat)))

/-- No byte is lost: when a byte arrives, no event waits for room in the channel, and reading does not fail. -/
def Attentive (s : Left R Ev Ctx PKS KS) : List Input → Prop
  | [] => True
  | i :: is => ((∃ b, i = .byte b) → s.event = none) ∧ i ≠ .fault ∧ ∀ s', s.step C n indices i = .ok s' → Attentive s' is

/-- There is room in the keymap for each key event: not more than 30 wait when it comes. -/
def Roomy (s : Left R Ev Ctx PKS KS) : List Input → Prop
  | [] => True
  | i :: is =>
    ((∃ a b c, i = .handle a b c) → (∃ e q, s.queue = .event e :: q) → s.backend.km.inq.length < 31) ∧
    ∀ s', s.step C n indices i = .ok s' → Roomy s' is

variable (layout : List Board.Entry) (b : Board.State) (rows cols : Nat)

/-- What the left half can stand. The messages that arrive are of keys of the keymap. In a scan no more than eight switches change. No more than sixteen keys are held
at a time. There is room in the keymap for each key event. -/
structure Bears (s : Left R Ev Ctx PKS KS) (i : Input) : Prop where
  keys : ∀ x e, i = .byte x → s.buf.length = 3 → Split.deserialize (s.buf ++ [x]) = some e → ∃ k, k < layout.length ∧ (e = .press k ∨ e = .release k)
  few : ∀ raw, i = .timer raw → Size rows cols raw ∧ (s.deb.events raw).2.length ≤ 8
  sixteen : Keyboard.AtMostSixteen layout b (s.heard ++ eventsOf s.queue)
  room : (∃ a b c, i = .handle a b c) → (∃ e q, s.queue = .event e :: q) → s.backend.km.inq.length < 31

/-- In each step of a history. -/
def Bearable (s : Left R Ev Ctx PKS KS) : List Input → Prop
  | [] => True
  | i :: is => Bears layout b rows cols s i ∧ ∀ s', s.step C n indices i = .ok s' → Bearable s' is

end

end Verif.EmbSplit
