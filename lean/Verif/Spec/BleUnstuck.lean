import Verif.Spec.BleKeyboard
import Verif.Spec.Down

/-! # Words for C97 -/

namespace Verif.Ble

variable {R Ev Ctx PKS KS : Type}

/-- The key events of a scan that found these changes, from key `i` on. -/
def told (i : Nat) : List (Option Bool) → List InputEvent
  | [] => []
  | none :: es => told (i + 1) es
  | some b :: es => (if b then .press i else .release i) :: told (i + 1) es

/-- The calls of the keymap for key events after `d` ms. -/
def after (d : Nat) : List InputEvent → List Op
  | [] => []
  | e :: es => .inputAfter d e :: .report :: after 0 es

/-- The calls of the keymap when the program goes on. -/
def nextOps (s : State R Ev Ctx PKS KS) : List Op :=
  if s.pc = .arming then []
  else if .wake ∈ s.events then []
  else if .scan ∈ s.events then after (deltaMs s.clock s.updated) (told 0 (s.matrix.scan s.closed).2)
  else if .timeout ∈ s.events then [.tickToNext, .report]
  else if .keyboard ∈ s.events ∨ .mouse ∈ s.events ∨ .consumer ∈ s.events then []
  else if .tick ∈ s.events then (told 0 (s.matrix.scan s.closed).2).map .input ++ [.tick, .report]
  else []

/-- No key event is dropped: whenever one comes, fewer than 31 are waiting. -/
def hears (C : Cfg R Ev Ctx PKS KS) (n : Nat) (row : Nat → Nat) (rows : Nat) (s : State R Ev Ctx PKS KS) (is : List Input) : Bool :=
  whenever (fun s => heard C n s.km (nextOps s)) C n row rows s is

end Verif.Ble
