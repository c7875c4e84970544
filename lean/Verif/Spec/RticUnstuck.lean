import Verif.Spec.Rtic
import Verif.Spec.Down

/-! # Words for C96 -/

namespace Verif.Rtic

variable {R Ev Ctx PKS KS : Type} (C : Cfg R Ev Ctx PKS KS) (n : Nat) (indices : List (List (Option Nat)))

/-- No key event of a scan is dropped: whenever one comes, fewer than 31 are waiting. -/
def Hears (s : Core R Ev Ctx PKS KS) : List (Levels × Bool) → Prop
  | [] => True
  | x :: xs => heard C n s.backend.km (((s.deb.events x.1).2.filterMap (keyEvent indices)).map .input) = true ∧
    ∀ s', s.turn C n indices x = .ok s' → Hears s' xs

end Verif.Rtic
