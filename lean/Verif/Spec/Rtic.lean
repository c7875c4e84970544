import Verif.Rtic

/-!
# Words for the reports of the Rust firmwares
-/

namespace Verif.Rtic

/-- Of entries in a row that are the same, one. -/
def once {α : Type} [DecidableEq α] : List α → List α
  | [] => []
  | [r] => [r]
  | r :: s :: rs => if r = s then once (s :: rs) else r :: once (s :: rs)

/-- The entry at row `r` and column `c`. -/
def entry {α : Type} (m : List (List α)) (r c : Nat) : Option α := (m[r]?).bind (·[c]?)

/-- The matrix has this many rows and columns. -/
def Size {α : Type} (rows cols : Nat) (m : List (List α)) : Prop := m.length = rows ∧ ∀ r ∈ m, r.length = cols

variable {R Ev Ctx PKS KS : Type}

section

variable (C : Cfg R Ev Ctx PKS KS) (n : Nat) (indices : List (List (Option Nat)))

/-- The driver says `Duplicate` only to a report that is the one it has accepted last. `make` is the report it makes of key codes. -/
def Lawful {Rep : Type} (make : List Byte → Rep) (s : Board R Ev Ctx PKS KS) : List Milli → Prop
  | [] => True
  | m :: ms =>
    (m.keyboard = .duplicate → ∀ s1 codes, s.scan C n indices m.raw = .ok s1 → s1.backend.out.pressedKeyCodes = .ok codes →
      s.sent.getLast?.map make = some (make codes)) ∧
    ∀ s', s.step C n indices m = .ok s' → Lawful make s' ms

end

end Verif.Rtic

namespace Verif.Rtic

/-- The levels after debouncing, from what has been read (newest first): those that have been read 26 times in a row last; `z` if none have. -/
def stable (z : Levels) : List Levels → Levels
  | [] => z
  | r :: h => if (r :: h).take 26 = List.replicate 26 r then r else stable z h

/-- Scanning again and again: the debouncer, and the events of each scan. -/
def scans (d : Debouncer) : List Levels → Debouncer × List (List Backend.Event)
  | [] => (d, [])
  | raw :: raws =>
    let (d, es) := d.events raw
    let (d, ess) := scans d raws
    (d, es :: ess)

/-- The place of an event. -/
def place : Backend.Event → Nat × Nat
  | .press r c => (r, c)
  | .release r c => (r, c)

/-- Row by row, and in each from left to right. -/
def Before (p q : Nat × Nat) : Prop := p.1 < q.1 ∨ p.1 = q.1 ∧ p.2 < q.2

end Verif.Rtic

namespace Verif.Rtic

/-! ## From the switches to the reports -/

/-- The key of a place of the matrix, if there is one. -/
def KeyAt (indices : List (List (Option Nat))) (r c i : Nat) : Prop := entry indices r c = some (some i)

/-- The places of the matrix with a key have different keys, of the first `count`. -/
structure Laid (rows cols count : Nat) (indices : List (List (Option Nat))) : Prop where
  size : Size rows cols indices
  within : ∀ r c i, KeyAt indices r c i → i < count
  different : ∀ r c r' c' i, KeyAt indices r c i → KeyAt indices r' c' i → r = r' ∧ c = c'

/-- The event of the keymap. -/
def keyEvent (indices : List (List (Option Nat))) : Backend.Event → Option InputEvent
  | .press r c => (entry indices r c).join.map .press
  | .release r c => (entry indices r c).join.map .release

/-- No switch is closed. -/
abbrev allOpen (rows cols : Nat) : Levels := List.replicate rows (List.replicate cols false)

/-- The events of the debounced switches. -/
def moves (rows cols : Nat) (indices : List (List (Option Nat))) (raws : List Levels) : List InputEvent :=
  (scans ⟨allOpen rows cols, allOpen rows cols, 0⟩ raws).2.flatten.filterMap (keyEvent indices)

section

variable {R Ev Ctx PKS KS : Type} (C : Cfg R Ev Ctx PKS KS) (n : Nat) (indices : List (List (Option Nat)))

/-- A scan with these levels; then the keyboard report is taken, or not. -/
def Core.turn (s : Core R Ev Ctx PKS KS) (x : Levels × Bool) : Res (Core R Ev Ctx PKS KS) := do
  let s ← s.scan C n indices x.1
  .ok { s with success := x.2 }

/-- There is room for the key events of each scan: no more than 31 wait in the keymap. -/
def Roomy (s : Core R Ev Ctx PKS KS) : List (Levels × Bool) → Prop
  | [] => True
  | x :: xs => s.backend.km.inq.length + (s.deb.events x.1).2.length ≤ 31 ∧ ∀ s', s.turn C n indices x = .ok s' → Roomy s' xs

end

/-- Of a millisecond: the levels, and whether the keyboard report is taken. -/
def Milli.turn (m : Milli) : Levels × Bool := (m.raw, m.keyboard != .wouldBlock)

/-- Of a turn of the loop. -/
def Turn.turn (m : Turn) : Levels × Bool := (m.raw, m.keyboard)

/-- In no scan do more than eight switches change, after debouncing. -/
def Few (d : Debouncer) : List Levels → Prop
  | [] => True
  | raw :: raws => (d.events raw).2.length ≤ 8 ∧ Few (d.events raw).1 raws

/-- The first four codes, 0 in the places that are left. -/
def firstFour (codes : List Byte) : List Byte := [codes.getD 0 0, codes.getD 1 0, codes.getD 2 0, codes.getD 3 0]

end Verif.Rtic
