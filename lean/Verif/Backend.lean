import Verif.Keymap

/-!
# keyberon-smart-keyboard

The keyboard backend and the switch matrix of the Rust firmwares.
-/

namespace Verif.Backend

section

variable {R Ev Ctx PKS KS : Type} (C : Cfg R Ev Ctx PKS KS)

/-- `KeyboardBackend`, keyberon-smart-keyboard/src/input/smart_keymap.rs 12-16. -/
structure Keyboard (R Ev Ctx PKS KS : Type) where
  km : KM R Ev Ctx PKS KS
  out : KeymapOutput

/-- `KeyboardBackend::new_with_keymap`, keyberon-smart-keyboard/src/input/smart_keymap.rs 24-30. -/
def Keyboard.new (km : KM R Ev Ctx PKS KS) : Keyboard R Ev Ctx PKS KS := ⟨km, []⟩

/-- `KeyboardBackend::event`, keyberon-smart-keyboard/src/input/smart_keymap.rs 44-47. -/
def Keyboard.event (n : Nat) (b : Keyboard R Ev Ctx PKS KS) (e : InputEvent) : Res (Keyboard R Ev Ctx PKS KS) := do
  let km ← handleInput C n b.km e
  .ok { b with km := km }

/-- `KeyboardBackend::tick`, keyberon-smart-keyboard/src/input/smart_keymap.rs 49-62: the backend and the
change flag. -/
def Keyboard.tick (n : Nat) (b : Keyboard R Ev Ctx PKS KS) : Res (Keyboard R Ev Ctx PKS KS × Bool) := do
  let km ← Verif.tick C n b.km
  let (km, out) ← reportOutput C km
  .ok (⟨km, out⟩, decide (b.out ≠ out))

end

/-- `keyberon::layout::Event`: row and column are `u8`. -/
inductive Event where
  | press (r c : Nat)
  | release (r c : Nat)
  deriving DecidableEq

/-- `indices[r as usize][c as usize]`. -/
def at' (indices : List (List (Option Nat))) (r c : Nat) : Res (Option Nat) :=
  match indices[r]? with
  | some row =>
    match row[c]? with
    | some x => .ok x
    | none => .panic .index
  | none => .panic .index

/-- `keymap_index_of`, keyberon-smart-keyboard/src/input/smart_keymap.rs 69-81. -/
def keymapIndexOf (indices : List (List (Option Nat))) : Event → Res (Option InputEvent)
  | .press r c => do
    let i ← at' indices r c
    .ok (i.map .press)
  | .release r c => do
    let i ← at' indices r c
    .ok (i.map .release)

/-! ## The switch matrix -/

/-- The pins of `Matrix`, keyberon-smart-keyboard/src/matrix.rs 51-62: whether each row is driven low, and
the number of columns. The delays are not modelled. -/
structure Pins where
  low : List Bool
  cols : Nat

/-- The environment: a column is low when a closed switch (with its diode) connects it to a row that is
driven low. -/
def columnLow (closed : Nat → Nat → Bool) (low : List Bool) (c : Nat) : Bool :=
  (List.range low.length).any fun r => low.getD r false && closed r c

/-- `Matrix::clear`, keyberon-smart-keyboard/src/matrix.rs 95-104. -/
def Pins.clear (p : Pins) : Pins := { p with low := p.low.map fun _ => false }

/-- The loop over the rows of `Matrix::get`, keyberon-smart-keyboard/src/matrix.rs 136-150: the pins and
the rows of keys found, from row `ri` on. -/
def Pins.scan (closed : Nat → Nat → Bool) (p : Pins) : (left ri : Nat) → Pins × List (List Bool)
  | 0, _ => (p, [])
  | left + 1, ri =>
    let p := { p with low := p.low.set ri true }
    let row := (List.range p.cols).map fun ci => columnLow closed p.low ci
    let p := { p with low := p.low.set ri false }
    let (p, rows) := p.scan closed left (ri + 1)
    (p, row :: rows)

/-- `Matrix::get`, keyberon-smart-keyboard/src/matrix.rs 133-152. -/
def Pins.get (closed : Nat → Nat → Bool) (p : Pins) : Pins × List (List Bool) := p.scan closed p.low.length 0

/-- `Matrix::is_boot_key_pressed`, keyberon-smart-keyboard/src/matrix.rs 114-124. -/
def Pins.bootKey (closed : Nat → Nat → Bool) (p : Pins) : Pins × Bool :=
  let p := { p with low := p.low.set 0 true }
  let b := columnLow closed p.low 0
  ({ p with low := p.low.set 0 false }, b)

end Verif.Backend
