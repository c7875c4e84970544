import Verif.Spec.Ble
import Verif.Spec.Keyboard

/-!
# What the host of a ch58x keyboard takes for pressed
-/

namespace Verif.Ble

open Hid

variable {R Ev Ctx PKS KS : Type}

/-- How many switches have moved since the keyboard last read them. -/
def fresh (s : State R Ev Ctx PKS KS) : Nat := ((s.matrix.debounced.zip s.closed).filter fun p => p.1 != p.2).length

/-- Whenever the program goes on there is room for the key events: those that wait, and those of the switches that have moved, are 31 at most. -/
def roomy (C : Cfg R Ev Ctx PKS KS) (n : Nat) (row : Nat → Nat) (rows : Nat) (s : State R Ev Ctx PKS KS) : List Input → Bool
  | [] => true
  | i :: is =>
    (match i with
      | .process _ => decide (s.km.inq.length + fresh s ≤ 31)
      | _ => true) &&
    match s.step C n row rows i with
    | .ok s => roomy C n row rows s is
    | _ => true

/-- Whenever the program goes on, the state is as `P` says. -/
def whenever (P : State R Ev Ctx PKS KS → Bool) (C : Cfg R Ev Ctx PKS KS) (n : Nat) (row : Nat → Nat) (rows : Nat) (s : State R Ev Ctx PKS KS) : List Input → Bool
  | [] => true
  | i :: is =>
    (match i with
      | .process _ => P s
      | _ => true) &&
    match s.step C n row rows i with
    | .ok s => whenever P C n row rows s is
    | _ => true

/-- At most sixteen switches are closed, those counted that have been opened since they were last read. -/
def few (s : State R Ev Ctx PKS KS) : Bool := decide (((s.matrix.debounced.zip s.closed).filter fun p => p.1 || p.2).length ≤ 16)

/-- The clock of the keymap, which counts milliseconds, has not come to its end (after seven weeks), and does not with the time that has passed since it was
last set and the ticks for the switches that have moved. -/
def early (s : State R Ev Ctx PKS KS) : Bool := decide (s.km.sched.counter + deltaMs s.clock s.updated + 8 * (fresh s + 1) < 4294967296)

/-- Which switches are closed, after a history. -/
def closedAfter (closed : List Bool) : List Input → List Bool
  | [] => closed
  | .move c :: is => closedAfter c is
  | _ :: is => closedAfter closed is

/-- The last keyboard report that was sent; if none was, nothing is pressed. -/
def lastKeyboard (s : State R Ev Ctx PKS KS) : List Byte := (keyboards s.sent).getLastD (List.replicate 8 0)

/-- The last mouse report. -/
def lastMouse (s : State R Ev Ctx PKS KS) : MouseOutput := (mice s.sent).getLastD MouseOutput.none

/-- The last report of consumer controls. -/
def lastConsumer (s : State R Ev Ctx PKS KS) : List Byte := (consumers s.sent).getLastD (List.replicate 4 0)

/-- What the host takes for pressed: its reading, with the report map, of the last keyboard report. -/
def hostPressed (s : State R Ev Ctx PKS KS) : Option (List (Usage × Int)) :=
  reading bleMap (bleBytes (.keyboard (lastKeyboard s))).1 (bleBytes (.keyboard (lastKeyboard s))).2

/-- What the host has read, `r`, is what these outputs ask for: their modifiers, and the first six of their keys (of those up to 101, which are the
ones the report map has room for). -/
structure ShowsBle (outs : List KeyOutput) (r : List (Usage × Int)) : Prop where
  modifiers : ∀ i, i < 8 → (On r (keyPage, 0xE0 + i) ↔ ∃ o ∈ outs, o.mods.getLsbD i = true)
  keys : ∀ k : Byte, k ≠ 0 → k.toNat ≤ 101 → (On r (keyPage, k.toNat) ↔ k ∈ (Keyboard.codes outs).take 6)
  only : ∀ p u, On r (p, u) → p = keyPage ∧ (u ≤ 101 ∨ 0xE0 ≤ u ∧ u ≤ 0xE7)

end Verif.Ble
