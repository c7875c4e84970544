import Verif.Res
import Verif.Firmware

/-!
# Reading the switches of a keyboard

firmware/ch32x035-usb-device-compositekm-c/keyboard/matrix/{col_to_row,row_to_col}.c and
firmware/ch58x-ble-hid-keyboard-c/keyboard/matrix/col_to_row.c, with the tables which
keyboard/ncl/keyboard/keyboard_matrix.ncl generates from the description of a board, and the boards in ncl/boards.

The electrical side is part of the model: there is a switch with a diode between each row and each column, the
pins are set and read one after another, and switches may open and close at any time, also in the middle of a
scan. `Delay_Us(5)` is taken to be long enough for the lines to settle.
-/

namespace Verif.Matrix

/-- `keyboard_gpio_t`, keyboard/keyboard_gpio.h (ch32x035) 6-11: a port and a pin of it. -/
structure Pin where
  port : Nat
  pin : Nat
  deriving DecidableEq, Repr

/-- The description of a board, keyboard_matrix.ncl (ch32x035) 5-18: `matrix.rows`, `matrix.cols`, `matrix.key_count`
and `keymap_index_for_key { row_index, column_index }` (`none`: `'NoKey`). -/
structure Board where
  rows : List Pin
  cols : List Pin
  keyCount : Nat
  index : Nat → Nat → Option Nat

/-- An entry of `keymap_indices`: `match { 'NoKey => "-1", 'Key index => std.to_string index }`, keyboard_matrix.ncl
(ch32x035) 61-64. -/
def entry : Option Nat → Int
  | none => -1
  | some i => i

/-- The generated table `keymap_indices`, keyboard_matrix.ncl (ch32x035) 54-70, (ch58x) 59-75. The entries are
`int16_t`; see `WellFormed.small` for boards on which they do not overflow. -/
def Board.indices (b : Board) : List (List Int) :=
  b.rows.mapIdx fun r _ => b.cols.mapIdx fun c _ => entry (b.index r c)

/-! ## The electrical side -/

/-- Which way the diodes let current flow. -/
inductive Diode where
  | colToRow
  | rowToCol
  deriving DecidableEq

/-- Which switches are closed: at which time, in which row and column. -/
abbrev Switches := Nat → Nat → Nat → Bool

/-- The levels which the processor puts on its output pins (true: high), and the time. -/
structure Gpio where
  out : Pin → Bool
  now : Nat

/-- `keyboard_gpio_set`, `keyboard_gpio_reset`, keyboard_gpio.c (ch32x035) 40-48, (ch58x) 59-85. -/
def Gpio.put (g : Gpio) (p : Pin) (level : Bool) : Gpio :=
  { g with out := fun q => if q = p then level else g.out q }

/-- The pin on the side of a switch from which current comes. -/
def Board.anode (b : Board) : Diode → Nat → Nat → Option Pin
  | .colToRow, _, c => b.cols[c]?
  | .rowToCol, r, _ => b.rows[r]?

/-- The pin on the side of a switch to which current goes. -/
def Board.cathode (b : Board) : Diode → Nat → Nat → Option Pin
  | .colToRow, r, _ => b.rows[r]?
  | .rowToCol, _, c => b.cols[c]?

/-- The places of a matrix. -/
def Board.places (b : Board) : List (Nat × Nat) :=
  (List.range b.rows.length).flatMap fun r => (List.range b.cols.length).map fun c => (r, c)

/-- The level of an input pin with a pull-up resistor is low if current flows from it through a closed switch into
a pin which is low. -/
def Board.pulledDown (b : Board) (d : Diode) (sw : Switches) (g : Gpio) (p : Pin) : Bool :=
  b.places.any fun (r, c) =>
    sw g.now r c && decide (b.anode d r c = some p) && (b.cathode d r c).any fun q => !g.out q

/-- The level of an input pin with a pull-down resistor is high if current flows into it through a closed switch
from a pin which is high. -/
def Board.pulledUp (b : Board) (d : Diode) (sw : Switches) (g : Gpio) (p : Pin) : Bool :=
  b.places.any fun (r, c) =>
    sw g.now r c && decide (b.cathode d r c = some p) && (b.anode d r c).any fun q => g.out q

/-- The pins, and the buffer into which a scan writes (`scan_buf`, the static array `current_raw_scan`). -/
structure St where
  gpio : Gpio
  buf : List Bool

/-- Reading an array of C; reading beyond its end is undefined behaviour, here an error. -/
def at' {α : Type} (xs : List α) (i : Nat) : Res α :=
  match xs[i]? with
  | some x => .ok x
  | none => .panic .index

/-- Writing `scan_buf[i]`. -/
def St.write (s : St) (i : Nat) (v : Bool) : Res St :=
  if i < s.buf.length then .ok { s with buf := s.buf.set i v } else .panic .index

def St.put (s : St) (p : Pin) (level : Bool) : St := { s with gpio := s.gpio.put p level }

/-- Time passes. -/
def St.later (s : St) : St := { s with gpio := { s.gpio with now := s.gpio.now + 1 } }

/-- `for (uint8_t i = 0; i < n; i++)`: the counter wraps before it gets to 256. -/
def forUpTo (n : Nat) (f : Nat → St → Res St) (s : St) : Res St :=
  if n ≤ 255 then (List.range n).foldlM (fun s i => f i s) s else .fuel

/-! ## ch32x035 -/

/-- `keyboard_matrix_scan_column_for_row`, matrix/col_to_row.c (ch32x035) 35-46. -/
def colForRow (b : Board) (sw : Switches) (row_index column_index : Nat) (s : St) : Res St := do
  let col ← at' b.cols column_index
  let line ← at' b.indices row_index
  let i ← at' line column_index
  if i ≥ 0 then s.later.write i.toNat (b.pulledDown .colToRow sw s.gpio col)
  else pure s.later

/-- `keyboard_matrix_scan_row`, matrix/col_to_row.c (ch32x035) 48-63. -/
def scanRow (b : Board) (sw : Switches) (row_index : Nat) (s : St) : Res St := do
  let row ← at' b.rows row_index
  let s := s.put row false
  let s ← forUpTo b.cols.length (colForRow b sw row_index) s
  pure (s.put row true)

/-- `keyboard_matrix_scan_raw`, matrix/col_to_row.c (ch32x035) 65-70. -/
def scanRows (b : Board) (sw : Switches) (s : St) : Res St := forUpTo b.rows.length (scanRow b sw) s

/-- `keyboard_matrix_scan_row_for_column`, matrix/row_to_col.c (ch32x035) 35-46. -/
def rowForCol (b : Board) (sw : Switches) (column_index row_index : Nat) (s : St) : Res St := do
  let row ← at' b.rows row_index
  let line ← at' b.indices row_index
  let i ← at' line column_index
  if i ≥ 0 then s.later.write i.toNat (b.pulledDown .rowToCol sw s.gpio row)
  else pure s.later

/-- `keyboard_matrix_scan_column`, matrix/row_to_col.c (ch32x035) 48-63. -/
def scanCol (b : Board) (sw : Switches) (column_index : Nat) (s : St) : Res St := do
  let col ← at' b.cols column_index
  let s := s.put col false
  let s ← forUpTo b.rows.length (rowForCol b sw column_index) s
  pure (s.put col true)

/-- `keyboard_matrix_scan_raw`, matrix/row_to_col.c (ch32x035) 65-70. -/
def scanCols (b : Board) (sw : Switches) (s : St) : Res St := forUpTo b.cols.length (scanCol b sw) s

/-- Which of the two files is compiled: `KEYBOARD_MATRIX_IMPL_...`, keyboard_matrix.ncl (ch32x035) 29. -/
def scanRaw (d : Diode) (b : Board) (sw : Switches) (s : St) : Res St :=
  match d with
  | .colToRow => scanRows b sw s
  | .rowToCol => scanCols b sw s

/-- `keyboard_matrix_init`: matrix/col_to_row.c (ch32x035) 13-33, matrix/row_to_col.c (ch32x035) 13-33. The outputs are
set high. Configuring the pins as inputs and outputs is not modelled. -/
def init (d : Diode) (b : Board) (s : St) : St :=
  (match d with
   | .colToRow => b.rows
   | .rowToCol => b.cols).foldl (fun s p => s.put p true) s

/-- `keyboard_matrix_is_sw_1_1_pressed`: matrix/col_to_row.c (ch32x035) 72-78, matrix/row_to_col.c (ch32x035) 72-78. -/
def isSw11Pressed (d : Diode) (b : Board) (sw : Switches) (s : St) : Res (Bool × St) := do
  let col ← at' b.cols 0
  let row ← at' b.rows 0
  let s := s.put (match d with | .colToRow => row | .rowToCol => col) false
  pure (b.pulledDown d sw s.gpio (match d with | .colToRow => col | .rowToCol => row), s.later)

/-- What becomes of the keyboard at power on. -/
inductive Boot where
  | bootloader
  | running (s : St)

/-- `keyboard_init`, keyboard/keyboard.c (ch32x035) 25-30: the boot loader is started if the first key is held. `out` is what
the output pins are before; the array `current_raw_scan` starts with `false`, keyboard_matrix.c (ch32x035) 31. -/
def powerOn (d : Diode) (b : Board) (sw : Switches) (out : Pin → Bool) : Res Boot := do
  let s := init d b ⟨⟨out, 0⟩, List.replicate b.keyCount false⟩
  let (held, s) ← isSw11Pressed d b sw s
  pure (if held then .bootloader else .running s)

/-- One scan: when it begins, what is in the buffer after it, and when it has ended. -/
structure Scan where
  start : Nat
  buf : List Bool
  stop : Nat

/-- Scanning once and again, at the given times of rest between one scan and the next
(`keyboard_matrix_scan`, keyboard_matrix.c (ch32x035) 34, called from the timer interrupt). -/
def scanning (d : Diode) (b : Board) (sw : Switches) (s : St) : List Nat → Res (List Scan)
  | [] => pure []
  | rest :: rests => do
    let s := { s with gpio := { s.gpio with now := s.gpio.now + rest } }
    let s' ← scanRaw d b sw s
    let more ← scanning d b sw s' rests
    pure (⟨s.gpio.now, s'.buf, s'.gpio.now⟩ :: more)

/-! ## ch58x -/

namespace Ch58

/-- `keyboard_matrix_configure_for_scanning`, matrix/col_to_row.c (ch58x) 11-27: the columns are low. -/
def forScanning (b : Board) (s : St) : St := b.cols.foldl (fun s p => s.put p false) s

/-- `keyboard_matrix_configure_for_interrupt`, matrix/col_to_row.c (ch58x) 29-46: the columns are high. -/
def forInterrupt (b : Board) (s : St) : St := b.cols.foldl (fun s p => s.put p true) s

/-- `keyboard_matrix_scan_row_for_column`, matrix/col_to_row.c (ch58x) 48-59. -/
def rowForCol (b : Board) (sw : Switches) (column_index row_index : Nat) (s : St) : Res St := do
  let row ← at' b.rows row_index
  let line ← at' b.indices row_index
  let i ← at' line column_index
  if i ≥ 0 then s.later.write i.toNat (b.pulledUp .colToRow sw s.gpio row)
  else pure s.later

/-- `keyboard_matrix_scan_column`, matrix/col_to_row.c (ch58x) 61-76. The bound of the loop over the rows is
`KEYBOARD_MATRIX_COL_COUNT`, the number of columns. -/
def scanCol (b : Board) (sw : Switches) (column_index : Nat) (s : St) : Res St := do
  let col ← at' b.cols column_index
  let s := s.put col true
  let s ← forUpTo b.cols.length (rowForCol b sw column_index) s
  pure (s.put col false)

/-- `keyboard_matrix_scan_raw`, matrix/col_to_row.c (ch58x) 78-83. The bound of the loop over the columns is
`KEYBOARD_MATRIX_ROW_COUNT`, the number of rows. -/
def scanRaw (b : Board) (sw : Switches) (s : St) : Res St := forUpTo b.rows.length (scanCol b sw) s

end Ch58

/-! ## The boards

Pins are written `port, pin` with port 0 for A, 1 for B and 2 for C (`as_keyboard_gpio_expr`,
keyboard_gpio.ncl (ch32x035) 8-15). -/

def A (n : Nat) : Pin := ⟨0, n⟩
def B (n : Nat) : Pin := ⟨1, n⟩
def C (n : Nat) : Pin := ⟨2, n⟩

/-- Looking up the index of a key in a table, as several boards do: `matrix |> std.array.at row_index |>
std.array.at column_index`. -/
def table (t : List (List (Option Nat))) (r c : Nat) : Option Nat := (t[r]?.getD [])[c]?.getD none

/-- ncl/boards/ch32x-36-lhs.ncl (ch32x035) 6-38; `implementation = "row_to_col"`. -/
def ch32x36lhs : Board where
  cols := [A 0, C 3, A 10, A 11, A 9]
  rows := [A 4, B 1, A 7, A 6]
  keyCount := 36
  index := table [
    [some 0, some 1, some 2, some 3, some 4],
    [some 10, some 11, some 12, some 13, some 14],
    [some 20, some 21, some 22, some 23, some 24],
    [none, none, some 30, some 31, some 32]]

/-- ncl/boards/ch32x-36-rhs.ncl (ch32x035) 6-38; `implementation = "row_to_col"`. -/
def ch32x36rhs : Board where
  cols := [A 0, A 1, A 4, B 1, A 6].reverse
  rows := [A 11, A 10, C 3, A 9]
  keyCount := 36
  index := table [
    [some 5, some 6, some 7, some 8, some 9],
    [some 15, some 16, some 17, some 18, some 19],
    [some 25, some 26, some 27, some 28, some 29],
    [some 33, some 34, some 35, none, none]]

/-- ncl/boards/ch32x-48.ncl (ch32x035) 6-35; `implementation = "row_to_col"`. -/
def ch32x48 : Board where
  cols := [B 1, A 6, A 9, A 0, C 3, A 10, A 11]
  rows := [A 4, C 19, A 3, A 2, A 1, C 18, A 7]
  keyCount := 48
  index r c :=
    let columnwise := c * 7 + r
    if columnwise ≥ 48 then none
    else some (columnwise % 4 * 12 + columnwise / 4)

/-- ncl/boards/ch32x-48/rev2025_2.ncl (ch32x035) 6-40; `implementation = "col_to_row"`. -/
def ch32x48rev2025_2 : Board where
  cols := [B 11, B 10, B 9, B 8, B 7, B 6, A 23, A 22, A 20, A 19, A 18, A 17]
  rows := [A 8, A 2, A 4, A 6]
  keyCount := 48
  index := table [
    [some 0, some 1, some 2, some 3, some 4, some 5, some 6, some 7, some 8, some 9, some 10, some 11],
    [some 12, some 13, some 14, some 15, some 16, some 17, some 18, some 19, some 20, some 21, some 22, some 23],
    [some 24, some 25, some 26, some 27, some 28, some 29, some 30, some 31, some 32, some 33, some 34, some 35],
    [some 36, some 37, some 38, some 39, some 40, some 41, some 42, some 43, some 44, some 45, some 46, some 47]]

/-- ncl/boards/ch32x-75.ncl (ch32x035) 4-62; `implementation = "col_to_row"`. -/
def ch32x75 : Board where
  cols := [B 1, B 2, B 3, B 4, B 5, B 13, A 13, A 12, A 11, A 15, A 16, A 17, A 18, A 19, A 20]
  rows := [A 8, A 9, A 4, A 5, A 6]
  keyCount := 75
  index := table [
    [some 0, some 1, some 2, some 3, some 4, some 5, some 6, some 7, some 8, some 9, some 10, some 11, some 12, some 13, some 14],
    [some 15, some 16, some 17, some 18, some 19, some 20, some 21, some 22, some 23, some 24, some 25, some 26, some 27, some 28, some 29],
    [some 30, some 31, some 32, some 33, some 34, some 35, some 36, some 37, some 38, some 39, some 40, some 41, some 42, some 43, some 44],
    [some 45, some 46, some 47, some 48, some 49, some 50, some 51, some 52, some 53, some 54, some 55, some 56, some 57, some 58, some 59],
    [some 60, some 61, some 62, some 63, some 64, some 65, some 66, some 67, some 68, some 69, some 70, some 71, some 72, some 73, some 74]]

/-- ncl/boards/weact-ch32x-core-board.ncl (ch32x035) 4-16; `implementation = "row_to_col"`. -/
def weact : Board where
  cols := [B 0, B 1]
  rows := [B 3, B 11]
  keyCount := 4
  index r c := some (c + r * 2)

/-- ncl/boards/wabble-60.ncl (ch58x) 6-36. -/
def wabble60 : Board where
  cols := [A 4, A 5, A 15, A 14, A 13, A 12, A 11, A 10]
  rows := [A 8, A 9, B 15, B 14, B 13, B 12, B 7, B 4]
  keyCount := 60
  index r c :=
    let columnwise := c * 8 + r
    if columnwise ≥ 60 then none
    else some (columnwise % 5 * 12 + columnwise / 5)

/-- `physical_matrix`, ncl/boards/wabble-60-with-debug.ncl (ch58x) 50-64, after the spaces are taken out. -/
def wabble60Used : List String :=
  ["OOOOOXOOOOOO",
   "XOOOOOOOXOOO",
   "OOOXOOOOOOOX",
   "OOOOOOXOOOOO",
   "OXOOOOOOOXOO"]

/-- ncl/boards/wabble-60-with-debug.ncl (ch58x) 6-74. -/
def wabble60debug : Board where
  cols := [A 4, A 5, A 15, A 14, A 13, A 12, A 11, A 10]
  rows := [A 8, A 0, B 15, B 14, B 13, B 12, B 7, B 4]
  keyCount := 60
  index r c :=
    let columnwise := c * 8 + r
    if columnwise ≥ 60 then none
    else if (wabble60Used[columnwise % 5]?.getD "").toList[columnwise / 5]? = some 'O' then
      some (columnwise % 5 * 12 + columnwise / 5)
    else none

end Verif.Matrix
