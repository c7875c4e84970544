import Verif.Whole
import Verif.Spec.Usb
import Verif.Spec.Control

/-!
# What reports and control transfers have to do with each other
-/

namespace Verif.Whole

open Usb (Ep)

/-- The event as `Usb` has it: of the control transfers only the configuration and the bus reset matter to the reports. -/
def seen : Event → List Usb.Event
  | .main => [.main]
  | .timer r => [.timer r]
  | .poll ep => [.poll ep]
  | .control .reset => [.reset]
  | .control (.setup r) => if isConfigure r then [.configure] else []
  | .control _ => []

/-- The reports end-point `ep` has sent. -/
def sent (u : Usb.State) : Ep → List (List Byte)
  | .keyboard => u.keyboard.host
  | .mouse => u.mouse.host
  | .consumer => u.consumer.host

/-- The host does not halt end-points or clear their halt. -/
def Event.Plain : Event → Prop
  | .control (.setup r) => isFeature r = false
  | _ => True

/-- And it asks for reports only when it has configured the device, which it does once after a bus reset. -/
def Usual (s : State) : Event → Prop
  | .poll _ => s.usb.configured = true
  | .control (.setup r) => isFeature r = false ∧ (isConfigure r = true → s.usb.configured = false)
  | _ => True

/-- Every event of the history happens in a state in which it may. -/
def Along (may : State → Event → Prop) (s : State) : List Event → Prop
  | [] => True
  | e :: es => may s e ∧ ∀ s', s.step e = some s' → Along may s' es

end Verif.Whole
