import Verif.Keymap

/-! # What a user of the keymap sees -/

namespace Verif.Spec

variable {R Ev Ctx PKS KS : Type}

/-- Keymap indices of the pressed physical keys, in press order. -/
def indices (ps : List (PressedInput R KS)) : List Nat :=
  ps.filterMap fun
    | .key i _ _ => some i
    | .virt _ => none

/-- The pressed physical keys with the key each of them turned out to be, in press order. -/
def keys (ps : List (PressedInput R KS)) : List (Nat × R) :=
  ps.filterMap fun
    | .key i r _ => some (i, r)
    | .virt _ => none

/-- The pressed virtual keys, in press order. -/
def virtuals (ps : List (PressedInput R KS)) : List KeyOutput :=
  ps.filterMap fun
    | .key _ _ _ => none
    | .virt ko => some ko

/-- A press or release of a physical key. -/
def physical : Event Ev → Bool
  | .input (.press _) => true
  | .input (.release _) => true
  | _ => false

end Verif.Spec
