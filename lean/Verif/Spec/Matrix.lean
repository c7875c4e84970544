import Verif.Matrix

/-!
# What a scan of the switches should give
-/

namespace Verif.Matrix

/-- A board on which no pin is used twice, no key has two switches, and the tables fit their C types. -/
structure WellFormed (b : Board) : Prop where
  rows : b.rows.Nodup
  cols : b.cols.Nodup
  apart : ∀ p ∈ b.rows, p ∉ b.cols
  inRange : ∀ r c k, r < b.rows.length → c < b.cols.length → b.index r c = some k → k < b.keyCount
  once : ∀ r c r' c' k, r < b.rows.length → c < b.cols.length → r' < b.rows.length → c' < b.cols.length →
    b.index r c = some k → b.index r' c' = some k → r = r' ∧ c = c'
  small : b.rows.length ≤ 255 ∧ b.cols.length ≤ 255 ∧ b.keyCount ≤ 32768

/-- In `buf` there is, for each key, whether its switch was closed at some time in the interval (and nothing is pressed where
there is no switch). -/
structure Reads (b : Board) (sw : Switches) (start stop : Nat) (buf : List Bool) : Prop where
  length : buf.length = b.keyCount
  switch : ∀ r c k, r < b.rows.length → c < b.cols.length → b.index r c = some k →
    ∃ t, start ≤ t ∧ t < stop ∧ buf[k]? = some (sw t r c)
  missing : ∀ k, k < b.keyCount → (∀ r c, r < b.rows.length → c < b.cols.length → b.index r c ≠ some k) →
    buf[k]? = some false

/-- The scans come one after another, each gives what the switches are while it lasts. -/
def AllRead (b : Board) (sw : Switches) : Nat → List Scan → Prop
  | _, [] => True
  | t, x :: xs => t ≤ x.start ∧ x.start ≤ x.stop ∧ Reads b sw x.start x.stop x.buf ∧ AllRead b sw x.stop xs

/-- Each key has a switch. -/
def Covers (b : Board) (keys : List Nat) : Prop :=
  ∀ k, k ∈ keys ↔ ∃ r c, r < b.rows.length ∧ c < b.cols.length ∧ b.index r c = some k

end Verif.Matrix
