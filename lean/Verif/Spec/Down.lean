import Verif.Keymap

/-! # Which keys are down, from the calls alone -/

namespace Verif.Spec

/-- What an input event says about key `i`, which was down (`d`) or not. -/
def evDown (i : Nat) (d : Bool) : InputEvent → Bool
  | .press j => if j = i then true else d
  | .release j => if j = i then false else d
  | _ => d

/-- What a call says about key `i`: presses and releases, and a reset forgets that the key is down. -/
def opDown (i : Nat) (d : Bool) : Op → Bool
  | .input ev => evDown i d ev
  | .inputAfter _ ev => evDown i d ev
  | .init => false
  | _ => d

/-- Whether key `i` is down after the calls: the last word on it was a press. -/
def keyDown (i : Nat) (ops : List Op) : Bool := ops.foldl (opDown i) false

end Verif.Spec

namespace Verif

variable {R Ev Ctx PKS KS : Type}

/-- No input event is dropped: whenever one comes, fewer than 31 are waiting. -/
def heard (C : Cfg R Ev Ctx PKS KS) (n : Nat) (km : KM R Ev Ctx PKS KS) : List Op → Bool
  | [] => true
  | op :: ops =>
    (match op with
      | .input _ => decide (km.inq.length < 31)
      | .inputAfter d _ => match tickBy C n km d with
        | .ok km1 => decide (km1.inq.length < 31)
        | _ => true
      | _ => true) &&
    (match step C n km op with
      | .ok km1 => heard C n km1 ops
      | _ => true)

end Verif
