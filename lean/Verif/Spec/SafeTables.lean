import Verif.Spec.Safe
import Verif.Lemmas.Refs

/-!
# Key tables and settings without a mistake

The conditions on the tables and settings of a keymap under which only a full buffer can stop it.
-/

namespace Verif.Comp

/-- The stretch is a part of the macro instructions. -/
def Runnable (cfg : Config) (e : Automation.Execution) : Prop :=
  e.length = 0 ∨ e.start + e.length ≤ cfg.automation.instructions.length

/-- There is such a layer. -/
def IsLayer (cfg : Config) (l : Nat) : Prop := 1 ≤ l ∧ l ≤ cfg.layerCount

/-- The layer key names layers of the keymap; 0 stands for no default layer. -/
def NamesLayers (cfg : Config) : Layered.ModifierKey → Prop
  | .hold l => IsLayer cfg l
  | .toggle l => IsLayer cfg l
  | .sticky l => IsLayer cfg l
  | .setActiveLayers _ => True
  | .default l => l ≤ cfg.layerCount

/-- The table entry of the reference exists, and has what a press at position `idx` may ask for. -/
def Fits (K : Keys) (cfg : Config) (idx : Nat) : Ref → Prop
  /- a macro runs instructions that exist -/
  | .automation i => ∃ k, K.automation[i]? = some k ∧ Runnable cfg k.onPress ∧ Runnable cfg k.whilePressed ∧ Runnable cfg k.onRelease
  | .callback i => i < K.callback.length
  | .capsWord => True
  /- the chords that start at this position have their keys -/
  | .chorded (.chorded i) => ∃ k, K.chorded[i]? = some k ∧
      ∀ (n : Nat) ch, cfg.chorded.chords[n]? = some ch → ch.head? = some idx → n ∈ k.chords.map (·.1)
  | .chorded (.auxiliary i) => i < K.chordedAux.length
  | .consumer _ => True
  | .custom _ => True
  | .keyboard (.keyCode _) => True
  | .keyboard (.modifiers _) => True
  | .keyboard (.keyCodeAndModifier i) => i < K.keyboard.length
  | .layered (.modifier i) => ∃ m, K.layerMods[i]? = some m ∧ NamesLayers cfg m
  /- a layered key has a place for each layer -/
  | .layered (.layered i) => ∃ k, K.layered[i]? = some k ∧ cfg.layerCount ≤ k.layered.length
  /- a mouse button is one of eight -/
  | .mouse (.button b) => 1 ≤ b ∧ b ≤ 8
  | .mouse _ => True
  | .sticky i => i < K.sticky.length
  /- a tap-dance key has at least one definition, without gaps, and the taps can be counted by a `u8` -/
  | .tapDance i => ∃ k, K.tapDance[i]? = some k ∧ 0 < k.definitionCount ∧ k.definitionCount ≤ 256 ∧
      ∀ j : Nat, j < k.definitionCount → ((k.definitions[j]?).join).isSome
  | .tapHold i => i < K.tapHold.length

/-- All references the reference leads to fit. -/
def Good (K : Keys) (cfg : Config) (idx : Nat) (r : Ref) : Prop := ∀ r', Leads K r r' → Fits K cfg idx r'

/-- The settings: no delay is longer than `D`, no chord is empty, there is a flag for each chord, and the instructions can be
numbered by a `u16`. -/
structure Settings (cfg : Config) (D : Nat) : Prop where
  tapHold : cfg.tapHold.timeout ≤ D
  tapDance : cfg.tapDance.timeout ≤ D
  chord : cfg.chorded.timeout ≤ D
  instruction : cfg.automation.duration ≤ D
  wait : ∀ t, .wait t ∈ cfg.automation.instructions → t ≤ D
  instructions : cfg.automation.instructions.length ≤ 65535
  chords : [] ∉ cfg.chorded.chords
  flags : cfg.maxChords = cfg.chorded.chords.length

end Verif.Comp
