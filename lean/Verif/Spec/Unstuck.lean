import Verif.Spec.Down
import Verif.Device

/-! # Words for C95 -/

namespace Verif.Unstuck

variable {R Ev Ctx PKS KS : Type} (C : Cfg R Ev Ctx PKS KS) (n : Nat)

/-- No key event of a scan is dropped: whenever one comes, fewer than 31 are waiting. -/
def Hears (d : Device R Ev Ctx PKS KS) : List Device.Event → Prop
  | [] => True
  | e :: es => (∀ raw, e = .timer raw → heard C n d.km ((Firmware.scan d.keys raw).2.map .input) = true) ∧
    ∀ d', Device.step C n d e = .ok d' → Hears d' es

end Verif.Unstuck
