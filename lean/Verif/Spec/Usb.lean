import Verif.Usb

/-!
# What a USB host has to get

`changes`: the reports it has to receive. `Along`: the histories the claims are about.
-/

namespace Verif.Usb

/-- The reports that differ from the one before; `prev`: the one before the first. -/
def changes (prev : List Byte) : List (List Byte) → List (List Byte)
  | [] => []
  | r :: rs => if r = prev then changes prev rs else r :: changes r rs

example : changes [0] [[0], [1], [1], [2], [0], [0]] = [[1], [2], [0]] := by decide

/-- Every event of the history happens in a state in which it may. -/
def Along (may : State → Event → Prop) (s : State) : List Event → Prop
  | [] => True
  | e :: es => may s e ∧ Along may (s.step e) es

/-- The packets have their sizes. -/
def Made.Sized (r : Made) : Prop := r.keyboard.length = 8 ∧ r.mouse.length = 4 ∧ r.consumer.length = 4

/-- The timer interrupt does not come in the middle of copying a packet, and the bus is not reset once the keyboard is configured. -/
def Calm (s : State) : Event → Prop
  | .timer r => r.Sized ∧ ∀ ep i, s.pc ≠ .at ep (.copy i)
  | .reset => s.configured = false
  | _ => True

/-- And the host does not take a report before the main loop has marked the end-point busy. -/
def Prompt (s : State) : Event → Prop
  | .poll ep => s.pc ≠ .at ep .busy
  | e => Calm s e

/-- The first list goes along the second one: it skips some and repeats some. -/
inductive Skims {α : Type} : List α → List α → Prop where
  | done {ms} : Skims [] ms
  | take {m hs ms} : Skims hs (m :: ms) → Skims (m :: hs) (m :: ms)
  | skip {m hs ms} : Skims hs ms → Skims hs (m :: ms)

example : Skims [2, 2, 4] [1, 2, 3, 4] := .skip (.take (.take (.skip (.skip (.take .done)))))

/-- The host asks for a report of each kind. -/
def round : List Event := [.poll .keyboard, .poll .mouse, .poll .consumer]

end Verif.Usb
