import Verif.Spec.Device
import Verif.Spec.Board
import Verif.Spec.Hid
import Verif.Hid

/-!
# From the switches to what the computer takes for pressed
-/

namespace Verif.Keyboard


open Hid (On Usage keyPage consumerPage)

/-- A scan of the switches, after which the main loop goes round, the computer asks for a report of each kind, and the main loop goes round again. -/
def cycle (n1 n2 : Nat) (raw : List Bool) : List Device.Event :=
  .timer raw :: (List.replicate n1 .main ++ Device.round ++ List.replicate n2 .main)

/-- The switches do not move for `k` scans. -/
def still (n1 n2 : Nat) (raw : List Bool) : Nat → List Device.Event
  | 0 => []
  | k + 1 => still n1 n2 raw k ++ cycle n1 n2 raw

variable {R Ev Ctx PKS KS : Type} (C : Cfg R Ev Ctx PKS KS) (n : Nat)

/-- There is room for the key events of each scan: no more than 31 wait in the keymap. -/
def Roomy (d : Device R Ev Ctx PKS KS) : List Device.Event → Prop
  | [] => True
  | e :: es => (∀ raw, e = .timer raw → d.km.inq.length + (Firmware.scan d.keys raw).2.length ≤ 31) ∧
    ∀ d', Device.step C n d e = .ok d' → Roomy d' es

/-- The key codes among outputs. -/
def codes (outs : List KeyOutput) : List Byte :=
  outs.filterMap fun o => match o.usage with
    | .keyboard k => if k = 0 then none else some k
    | _ => none

/-- The consumer codes among outputs. -/
def consumer (outs : List KeyOutput) : List Byte :=
  outs.filterMap fun o => match o.usage with
    | .consumer k => some k
    | _ => none

/-- Modifiers are given as modifiers, not by their key codes. -/
def Proper (o : KeyOutput) : Prop := ∀ k, o.usage = .keyboard k → k.toNat < 0xE0 ∨ 0xE7 < k.toNat

/-- What a key of this entry may do. -/
def Has : Board.Entry → Board.Cell → Prop
  | .cell c, x => x = c
  | .layered base cs, x => x = base ∨ some x ∈ cs

/-- What the computer has read of the keyboard, `r`, is what these outputs ask for: their modifiers, and the first six of their keys (of those up to
145, which are the ones the descriptor has room for). -/
structure Shows (outs : List KeyOutput) (r : List (Usage × Int)) : Prop where
  modifiers : ∀ i, i < 8 → (On r (keyPage, 0xE0 + i) ↔ ∃ o ∈ outs, o.mods.getLsbD i = true)
  keys : ∀ k : Byte, k ≠ 0 → k.toNat ≤ 145 → (On r (keyPage, k.toNat) ↔ k ∈ (codes outs).take 6)
  only : ∀ p u, On r (p, u) → p = keyPage ∧ (u ≤ 145 ∨ 0xE0 ≤ u ∧ u ≤ 0xE7)

/-- And of the consumer controls: the first four. -/
def ShowsConsumer (outs : List KeyOutput) (r : List (Usage × Int)) : Prop :=
  ∀ p u, 1 ≤ u → (On r (p, u) ↔ p = consumerPage ∧ ∃ k ∈ (consumer outs).take 4, k.toNat = u)

/-- What the computer takes for pressed: its reading, with the report descriptor of the end-point, of the last report it got, or of nothing pressed if
it got none. -/
def pressed (u : Usb.State) : Option (List (Usage × Int)) :=
  Hid.reading Hid.usbKeyboard 0 (u.keyboard.host.getLastD (List.replicate 8 0))

def pressedConsumer (u : Usb.State) : Option (List (Usage × Int)) :=
  Hid.reading Hid.usbConsumer 0 (u.consumer.host.getLastD (List.replicate 4 0))

/-- In the course of these events there are never more than sixteen keys held. -/
def AtMostSixteen (layout : List Board.Entry) (b : Board.State) (evs : List InputEvent) : Prop :=
  ∀ first, first <+: evs → (first.foldl (Board.State.input layout) b).held.length ≤ 16

/-- The events of the debounced switches. -/
def moves (count : Nat) (raws : List (List Bool)) : List InputEvent := (Firmware.scans (List.replicate count Firmware.Key.new) raws).2

end Verif.Keyboard
