import Verif.Device
import Verif.Spec.Usb

/-!
# From the switches to the host
-/

namespace Verif.Device

variable {R Ev Ctx PKS KS : Type} (C : Cfg R Ev Ctx PKS KS) (n : Nat)

/-- A keymap by itself: given key events and ticks, it makes a report at each tick. -/
inductive Call where
  | input (e : InputEvent)
  | tick

def replay (km : KM R Ev Ctx PKS KS) (r : CApi.HidReport) : List Call → Res (KM R Ev Ctx PKS KS × List CApi.HidReport)
  | [] => .ok (km, [])
  | .input e :: cs => do
    let km ← handleInput C n km e
    replay km r cs
  | .tick :: cs => do
    let (km, r) ← CApi.keymapTick C n km r
    let (km, rs) ← replay km r cs
    pure (km, r :: rs)

/-- The key events among the calls. -/
def inputs : List Call → List InputEvent
  | [] => []
  | .input e :: cs => e :: inputs cs
  | .tick :: cs => inputs cs

/-- The levels of the switches that were read. -/
def levels : List Event → List (List Bool)
  | [] => []
  | .timer raw :: es => raw :: levels es
  | _ :: es => levels es

/-- As `Usb.Prompt`: the timer interrupt does not come in the middle of copying a packet, the bus is not reset once the keyboard is
configured, and the host does not take a report before the main loop has marked the end-point busy. -/
def Prompt (s : Usb.State) : Event → Prop
  | .timer _ => ∀ ep i, s.pc ≠ .at ep (.copy i)
  | .reset => s.configured = false
  | .poll ep => s.pc ≠ .at ep .busy
  | _ => True

/-- Every event of the history happens in a state in which it may. -/
def Along (d : Device R Ev Ctx PKS KS) : List Event → Prop
  | [] => True
  | e :: es => Prompt d.usb e ∧ ∀ d', step C n d e = .ok d' → Along d' es

/-- The host asks for a report of each kind. -/
def round : List Event := [.poll .keyboard, .poll .mouse, .poll .consumer]

/-- What a host sees of the mouse. -/
structure MouseSeen where
  buttons : List Bool
  x : Int
  y : Int
  wheel : Int
  deriving DecidableEq

/-- How a host reads a mouse report, according to the report descriptor it was given (`MouseRepDesc`, app/usb_desc.c (ch32x035)
198-227): three bits for buttons 1 to 3, five unused bits, and three signed bytes X, Y and wheel. -/
def seenMouse : List Byte → Option MouseSeen
  | [b, x, y, w] => some ⟨[b.getLsbD 0, b.getLsbD 1, b.getLsbD 2], x.toInt, y.toInt, w.toInt⟩
  | _ => none

end Verif.Device
