import Verif.Keymap

/-!
# Calls that keep within the limits of a keymap

What a firmware has to keep to so that only a full buffer can stop the keymap: it reports keys of the keymap only, and
the clock, a `u32` of milliseconds that `init` sets back to 0, does not run over.
-/

namespace Verif

/-- The clock stays below `limit` milliseconds during the calls, if it is at `t` and a tick takes `ms` at first. -/
def ClockBelow (limit : Nat) : (t ms : Nat) → List Op → Prop
  | t, _, [] => t < limit
  | t, ms, .tick :: ops => ClockBelow limit (t + ms) ms ops
  | t, _, .init :: ops => t < limit ∧ ClockBelow limit 0 1 ops
  | t, _, .setMsPerTick ms :: ops => ClockBelow limit t ms ops
  | t, ms, _ :: ops => ClockBelow limit t ms ops

/-- A press is of a key of the keymap. -/
def InOk (keys : Nat) : InputEvent → Prop
  | .press i => i < keys
  | _ => True

/-- The calls of the keymap, but for the two that look ahead in the schedule (`handle_input_after_time`,
`tick_to_next_scheduled_event`: see C11 and C52); a press is of one of `keys` keys. -/
def Plays (keys : Nat) : Op → Prop
  | .input e => InOk keys e
  | .inputAfter _ _ => False
  | .tickToNext => False
  | _ => True

/-- Every result but a panic for a reason other than a full buffer. -/
def OnlyFull {α : Type} : Res α → Prop
  | .panic p => p = .capacity
  | _ => True

instance (limit : Nat) : (t ms : Nat) → (ops : List Op) → Decidable (ClockBelow limit t ms ops)
  | t, _, [] => inferInstanceAs (Decidable (t < limit))
  | t, ms, .tick :: ops => instDecidableClockBelow limit (t + ms) ms ops
  | t, _, .init :: ops => by
    have := instDecidableClockBelow limit 0 1 ops
    exact inferInstanceAs (Decidable (t < limit ∧ ClockBelow limit 0 1 ops))
  | t, _, .setMsPerTick ms :: ops => instDecidableClockBelow limit t ms ops
  | t, ms, .input _ :: ops => instDecidableClockBelow limit t ms ops
  | t, ms, .report :: ops => instDecidableClockBelow limit t ms ops
  | t, ms, .setCallback _ _ :: ops => instDecidableClockBelow limit t ms ops
  | t, ms, .inputAfter _ _ :: ops => instDecidableClockBelow limit t ms ops
  | t, ms, .tickToNext :: ops => instDecidableClockBelow limit t ms ops

instance (keys : Nat) (e : InputEvent) : Decidable (InOk keys e) := by
  cases e <;> (unfold InOk; infer_instance)

instance (keys : Nat) (op : Op) : Decidable (Plays keys op) := by
  cases op <;> (unfold Plays; infer_instance)

end Verif
