import Verif.Keymap

/-! # Reading off the input events of a call sequence, and the callbacks of a queue -/

namespace Verif.Spec

/-- The input events brought by the calls, in order. -/
def inputs : List Op → List InputEvent
  | [] => []
  | .input ev :: ops => ev :: inputs ops
  | .inputAfter _ ev :: ops => ev :: inputs ops
  | _ :: ops => inputs ops

/-- Calling callback `c` when the functions `regs` are registered: which function runs, if any. -/
def invoke (regs : List (Callback × Nat)) (c : Callback) : List (Callback × Nat) :=
  match regs.find? (fun x => x.1 = c) with
  | some x => [x]
  | none => []

end Verif.Spec
