import Verif.Output

/-!
# `HIDKeyboardReporter`, src/keymap/hid_keyboard_reporter.rs
-/

namespace Verif

/-- `HIDKeyboardReporter`, hid_keyboard_reporter.rs 11-15. -/
structure Reporter where
  outputs : List KeyOutput
  num : Nat
  deriving DecidableEq, Repr

namespace Reporter

/-- `HIDKeyboardReporter::new` 25-30 and `init` 33-36. -/
def init : Reporter := ⟨[], 1⟩

/-- `if self.num_reportable_keys > 1 { self.num_reportable_keys -= 1; }`, 58-60 and 68-70. -/
def dec (n : Nat) : Nat := if n > 1 then n - 1 else n

/-- The inner loop 51-62: consume previous outputs up to and including the first equal one.
Returns the remaining iterator and the new count. -/
def skipTo (k : KeyOutput) : List KeyOutput → Nat → List KeyOutput × Nat
  | [], n => ([], n)
  | p :: ps, n => if p = k then (ps, n) else skipTo k ps (dec n)

/-- The outer loop 50-63. -/
def scan : List KeyOutput → List KeyOutput → Nat → List KeyOutput × Nat
  | [], prev, n => (prev, n)
  | k :: ks, prev, n =>
    let (prev', n') := skipTo k prev n
    scan ks prev' n'

/-- The loop 65-71 over the remaining previous outputs. -/
def decAll : List KeyOutput → Nat → Nat
  | [], n => n
  | _ :: ps, n => decAll ps (dec n)

/-- `HIDKeyboardReporter::update`, 39-74. -/
def update (r : Reporter) (new : List KeyOutput) : Reporter :=
  let (prev', n') := scan new r.outputs r.num
  { outputs := new, num := decAll prev' n' }

/-- `HIDKeyboardReporter::report_sent`, 77-81. -/
def reportSent (r : Reporter) : Reporter :=
  if r.outputs.length > r.num then { r with num := r.num + 1 } else r

/-- `HIDKeyboardReporter::reportable_key_outputs`, 84-90. -/
def reportable (r : Reporter) : List KeyOutput := r.outputs.take r.num

/-- `Keymap::report_output` as seen by the reporter, src/keymap.rs 771-776. -/
def report (r : Reporter) (pressed : List KeyOutput) : Reporter × List KeyOutput :=
  let r' := (r.update pressed).reportSent
  (r', r'.reportable)

end Reporter

end Verif
