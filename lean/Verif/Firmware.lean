import Verif.Types

/-!
# Debouncing in the C firmwares

firmware/ch32x035-usb-device-compositekm-c/keyboard/keyboard_matrix.c and
firmware/ch58x-ble-hid-keyboard-c/keyboard/keyboard_matrix.c. The raw scan of the switches
(`keyboard_matrix_scan_raw`) is an input.
-/

namespace Verif.Firmware

/-- The static variables for one key, keyboard_matrix.c (ch32x035) 29-32. -/
structure Key where
  debounced : Bool
  previous : Bool
  counter : Nat
  deriving DecidableEq

/-- Their initial values. -/
def Key.new : Key := ⟨false, false, 0⟩

/-- The body of the loop of `keyboard_matrix_scan` (ch32x035), 37-52, for one key: the variables and the
new state if `key_state_changed` is called. The counter is a `uint8_t`; it never exceeds 5 (see
`Props/Firmware.lean`), so the natural number does not wrap. -/
def Key.scan (k : Key) (raw : Bool) : Key × Option Bool :=
  if raw = k.debounced then ({ k with counter := 0, previous := raw }, none)
  else
    let counter := if raw ≠ k.previous then 0 else k.counter + 1
    if counter ≥ 5 then (⟨raw, raw, counter⟩, some raw)
    else ({ k with counter := counter, previous := raw }, none)

/-- `key_state_changed`, keyboard_matrix.c (ch32x035) 14-26: the event registered with the keymap (and sent
to the other half). -/
def stateChanged (i : Nat) (b : Bool) : InputEvent := if b then .press i else .release i

/-- `keyboard_matrix_scan` (ch32x035), 28-54, from key `i` on: the keys, and the events in order. -/
def scanFrom (i : Nat) : List Key → List Bool → List Key × List InputEvent
  | k :: ks, r :: rs =>
    let (k, e) := k.scan r
    let (ks, es) := scanFrom (i + 1) ks rs
    (k :: ks, (e.map (stateChanged i)).toList ++ es)
  | ks, _ => (ks, [])

/-- `keyboard_matrix_scan` (ch32x035). -/
def scan (ks : List Key) (raw : List Bool) : List Key × List InputEvent := scanFrom 0 ks raw

/-- Scanning again and again. -/
def scans (ks : List Key) : List (List Bool) → List Key × List InputEvent
  | [] => (ks, [])
  | raw :: raws =>
    let (ks, es) := scan ks raw
    let (ks, es') := scans ks raws
    (ks, es ++ es')

/-! ## ch58x -/

/-- The static variables of keyboard_matrix.c (ch58x), 7-12; `previous_raw_scan` and `debounce_counter` are
written but have no effect there. -/
structure Ch58x where
  debounced : List Bool
  pressed : BitVec 8

/-- The loop of `keyboard_matrix_scan` (ch58x), 36-48: the keys, the number of pressed keys (a `uint8_t`) and
the new states (`none`: unchanged). -/
def scanLoop58 : List Bool → List Bool → BitVec 8 → List Bool × BitVec 8 × List (Option Bool)
  | d :: ds, r :: rs, n =>
    if r = d then
      let (ds, n, es) := scanLoop58 ds rs n
      (d :: ds, n, none :: es)
    else
      let (ds, n, es) := scanLoop58 ds rs (n + if r then 1 else -1)
      (r :: ds, n, some r :: es)
  | ds, _, n => (ds, n, [])

/-- `keyboard_matrix_scan` (ch58x), 33-49. -/
def Ch58x.scan (s : Ch58x) (raw : List Bool) : Ch58x × List (Option Bool) :=
  let (ds, n, es) := scanLoop58 s.debounced raw s.pressed
  (⟨ds, n⟩, es)

end Verif.Firmware
