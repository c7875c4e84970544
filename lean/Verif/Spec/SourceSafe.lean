import Verif.Spec.Source

/-!
# Keymap sources without a mistake

What a keymap source has to say so that only a full buffer can stop the firmware made from it. `n` is the number of layers.
-/

namespace Verif.Codegen

/-- The layer key names layers of the keymap; 0 stands for no default layer. -/
def LayerMod.Sane (n : Nat) : LayerMod → Prop
  | .hold l => 1 ≤ l ∧ l ≤ n
  | .toggle l => 1 ≤ l ∧ l ≤ n
  | .sticky l => 1 ≤ l ∧ l ≤ n
  | .default l => l ≤ n
  | .setActiveLayersTo _ => True

/-- A key without other keys: only layer keys and mouse buttons can be wrong. -/
def Leaf.Sane (n : Nat) : Leaf → Prop
  | .layerModifier m => m.Sane n
  | .mouse (.button b) => 1 ≤ b ∧ b ≤ 8
  | .compiled _ => False
  | _ => True

mutual

/-- All the keys in the key; a tap-dance key has at most 256 keys. -/
def NKey.Sane (n : Nat) : NKey → Prop
  | .leaf l => l.Sane n
  | .hold t h => t.Sane n ∧ h.Sane n
  | .dances t ds => t.Sane n ∧ AllSane n ds ∧ ds.length < 256
  | .layered b ls => b.Sane n ∧ LayersSane n ls
  | .chorded _ _ => False
  | .aux _ => False

def AllSane (n : Nat) : List NKey → Prop
  | [] => True
  | k :: ks => k.Sane n ∧ AllSane n ks

def LayersSane (n : Nat) : List (Option NKey) → Prop
  | [] => True
  | none :: ks => LayersSane n ks
  | some k :: ks => k.Sane n ∧ LayersSane n ks

end

/-- The keys on all layers and of all chords; a chord has at least one key. -/
structure Src.Sane (s : Src) (n : Nat) : Prop where
  keys : ∀ l i k, s.at l i = some k → k.Sane n
  chords : ∀ ch ∈ s.chords, ch.indices ≠ [] ∧ ch.key.Sane n

/-- The times and the number of instructions fit the `u16`s of the firmware (src/key/tap_hold.rs 58, tap_dance.rs 18, chorded.rs 70,
automation.rs 19, 76 and 90). -/
structure Sizable (c : Comp.Config) : Prop where
  tapHold : c.tapHold.timeout < 65536
  tapDance : c.tapDance.timeout < 65536
  chord : c.chorded.timeout < 65536
  instruction : c.automation.duration < 65536
  wait : ∀ t, .wait t ∈ c.automation.instructions → t < 65536
  instructions : c.automation.instructions.length < 65536

end Verif.Codegen
