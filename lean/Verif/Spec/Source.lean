import Verif.Codegen

/-!
# What a compiled keymap has to say

Relates the keys of a keymap source to the references and tables of the firmware, without the compiler.
`I` is the list of macro instructions of the firmware.
-/

namespace Verif.Codegen

open Comp (Ref Keys)

/-- The stretch of the instructions is the list. -/
def Runs (I : List Automation.Instruction) (e : Automation.Execution) (is : List Automation.Instruction) : Prop :=
  (I.drop e.start).take e.length = is ∧ e.length = is.length

/-- Bits 0 to 7 of a modifier byte are the left control, shift, alt and GUI keys and the right ones. -/
def Spells (b : Byte) (m : ModRec) : Prop :=
  b.getLsbD 0 = m.leftCtrl ∧ b.getLsbD 1 = m.leftShift ∧ b.getLsbD 2 = m.leftAlt ∧ b.getLsbD 3 = m.leftGui ∧
  b.getLsbD 4 = m.rightCtrl ∧ b.getLsbD 5 = m.rightShift ∧ b.getLsbD 6 = m.rightAlt ∧ b.getLsbD 7 = m.rightGui

/-- A layer key. The set of layers has to be the listed layers if none is listed twice. -/
inductive LayerMeans : LayerMod → Layered.ModifierKey → Prop where
  | default (l) : LayerMeans (.default l) (.default l)
  | hold (l) : LayerMeans (.hold l) (.hold l)
  | sticky (l) : LayerMeans (.sticky l) (.sticky l)
  | toggle (l) : LayerMeans (.toggle l) (.toggle l)
  | set {ls s} : (ls.Nodup → (∀ l ∈ ls, l < 32) ∧ ∀ l, l < 32 → s.getLsbD l = decide (l ∈ ls)) →
    LayerMeans (.setActiveLayersTo ls) (.setActiveLayers s)

/-- A key without other keys. -/
inductive LeafMeans (K : Keys) (I : List Automation.Instruction) : Leaf → Ref → Prop where
  | automation {m i k} : K.automation[i]? = some k → Runs I k.onPress m.onPress → Runs I k.whilePressed m.whilePressed →
    Runs I k.onRelease m.onRelease → LeafMeans K I (.automation m) (.automation i)
  | compiled {i k} : K.automation[i]? = some k → LeafMeans K I (.compiled k) (.automation i)
  | callback {i c} : K.callback[i]? = some c → LeafMeans K I (.callback c) (.callback i)
  | capsWord : LeafMeans K I .capsWord .capsWord
  | consumer (uc) : LeafMeans K I (.consumer uc) (.consumer uc)
  | custom (cc) : LeafMeans K I (.custom cc) (.custom cc)
  | keyCode (kc) : LeafMeans K I (.keyCode kc) (.keyboard (.keyCode kc))
  | modifiers {m b} : Spells b m → LeafMeans K I (.modifiers m) (.keyboard (.modifiers b))
  | keyCodeModifiers {kc m i b} : K.keyboard[i]? = some ⟨kc, b⟩ → Spells b m →
    LeafMeans K I (.keyCodeModifiers kc m) (.keyboard (.keyCodeAndModifier i))
  | layerModifier {m i m'} : K.layerMods[i]? = some m' → LayerMeans m m' →
    LeafMeans K I (.layerModifier m) (.layered (.modifier i))
  | mouse (r) : LeafMeans K I (.mouse r) (.mouse r)
  | sticky {m i b} : K.sticky[i]? = some b → Spells b m → LeafMeans K I (.sticky m) (.sticky i)

/-- The reference stands for the key: it leads to a table entry with the parts of the key, and each of them
stands for its part in turn. -/
inductive Means (K : Keys) (I : List Automation.Instruction) : NKey → Ref → Prop where
  | leaf {l r} : LeafMeans K I l r → Means K I (.leaf l) r
  /-- The tap key and the hold key. -/
  | hold {t h i e} : K.tapHold[i]? = some e → Means K I t e.tap → Means K I h e.hold → Means K I (.hold t h) (.tapHold i)
  /-- The key for one tap, two taps, …, and no more definitions. -/
  | dances {t ds i e} : K.tapDance[i]? = some e →
    (∀ j : Nat, ((e.definitions[j]?).join).isSome = ((t :: ds)[j]?).isSome) →
    (∀ (j : Nat) k r, (t :: ds)[j]? = some k → e.definitions[j]? = some (some r) → Means K I k r) →
    Means K I (.dances t ds) (.tapDance i)
  /-- The base key and the keys of the layers; a transparent key has no reference. -/
  | layered {b ls i e} : K.layered[i]? = some e → Means K I b e.base →
    (∀ j : Nat, ((e.layered[j]?).join).isSome = ((ls[j]?).join).isSome) →
    (∀ (j : Nat) k r, ls[j]? = some (some k) → e.layered[j]? = some (some r) → Means K I k r) →
    Means K I (.layered b ls) (.layered (.layered i))
  /-- The keys of the chords, by the numbers of the chords, and the key without a chord. -/
  | chorded {cs p i e} : K.chorded[i]? = some e → e.chords.map (·.1) = cs.map (·.1) →
    (∀ (j : Nat) n k n' r, cs[j]? = some (n, k) → e.chords[j]? = some (n', r) → Means K I k r) →
    Means K I p e.passthrough → Means K I (.chorded cs p) (.chorded (.chorded i))
  | aux {p i r} : K.chordedAux[i]? = some r → Means K I p r → Means K I (.aux p) (.chorded (.auxiliary i))

/-- The key written on a layer (0 is the base layer) at a position. `none`: a transparent key, or nothing. -/
def Src.at (s : Src) (l i : Nat) : Option NKey := (s.layers[l]?.bind (·[i]?)).join

/-- The reference stands for what the layers say at position `i`: the key of the base layer, if no other
layer has a key there; otherwise a layered key with the keys of all layers. -/
inductive Stacks (K : Keys) (I : List Automation.Instruction) (s : Src) (i : Nat) : Ref → Prop where
  | base {k r} : s.at 0 i = some k → (∀ l, 0 < l → s.at l i = none) → Means K I k r → Stacks K I s i r
  | layered {b j e} : s.at 0 i = some b → (∃ l, 0 < l ∧ (s.at l i).isSome) → K.layered[j]? = some e → Means K I b e.base →
    (∀ l : Nat, ((e.layered[l]?).join).isSome = (s.at (l + 1) i).isSome) →
    (∀ (l : Nat) k r, s.at (l + 1) i = some k → e.layered[l]? = some (some r) → Means K I k r) →
    Stacks K I s i (.layered (.layered j))

/-- The reference stands for what the source says about position `i`. -/
inductive Position (K : Keys) (I : List Automation.Instruction) (s : Src) (i : Nat) : Ref → Prop where
  /-- The position is in no chord. -/
  | alone {r} : (∀ c ∈ s.chords, i ∉ c.indices) → Stacks K I s i r → Position K I s i r
  /-- It is the first position of some chord: the table entry has the keys of exactly these chords, each once. -/
  | first {j e} : K.chorded[j]? = some e → Stacks K I s i e.passthrough → e.chords ≠ [] →
    (e.chords.map (·.1)).Pairwise (· < ·) →
    (∀ n : Nat, n ∈ e.chords.map (·.1) ↔ ∃ c, s.chords[n]? = some c ∧ c.indices.head? = some i) →
    (∀ n r c, (n, r) ∈ e.chords → s.chords[n]? = some c → Means K I c.key r) →
    Position K I s i (.chorded (.chorded j))
  /-- It is in a chord, but in none as the first position. -/
  | member {j r} : (∃ c ∈ s.chords, i ∈ c.indices) → (∀ c ∈ s.chords, c.indices.head? ≠ some i) →
    K.chordedAux[j]? = some r → Stacks K I s i r → Position K I s i (.chorded (.auxiliary j))

/-! ## Which sources compile -/

mutual

/-- The key is one which can be written in a source: it contains no chorded keys and no numbered macros. -/
def NKey.Written : NKey → Prop
  | .leaf (.compiled _) => False
  | .leaf _ => True
  | .hold t h => t.Written ∧ h.Written
  | .dances t ds => t.Written ∧ AllWritten ds
  | .layered b ls => b.Written ∧ LayersWritten ls
  | .chorded _ _ => False
  | .aux _ => False

def AllWritten : List NKey → Prop
  | [] => True
  | k :: ks => k.Written ∧ AllWritten ks

def LayersWritten : List (Option NKey) → Prop
  | [] => True
  | none :: ks => LayersWritten ks
  | some k :: ks => k.Written ∧ LayersWritten ks

end

mutual

/-- The key is not, and does not contain, a layered key. -/
def NKey.Flat : NKey → Prop
  | .leaf _ => True
  | .hold t h => t.Flat ∧ h.Flat
  | .dances t ds => t.Flat ∧ AllFlat ds
  | .layered _ _ => False
  | .chorded cs p => ChordsFlat cs ∧ p.Flat
  | .aux p => p.Flat

def AllFlat : List NKey → Prop
  | [] => True
  | k :: ks => k.Flat ∧ AllFlat ks

def ChordsFlat : List (Nat × NKey) → Prop
  | [] => True
  | (_, k) :: ks => k.Flat ∧ ChordsFlat ks

end

/-- Sets of layers are not empty and name layers below 32, none of them twice. -/
def Leaf.SetsOk : Leaf → Prop
  | .layerModifier (.setActiveLayersTo ls) => ls ≠ [] ∧ ls.Nodup ∧ ∀ l ∈ ls, l < 32
  | _ => True

mutual

/-- Macros occur in the outer `n` levels of the key only (with `n = 0`: there are none), and its sets of layers are sets. -/
def NKey.Shallow : Nat → NKey → Prop
  | n, .leaf (.automation _) => 0 < n
  | _, .leaf l => l.SetsOk
  | n, .hold t h => t.Shallow (n - 1) ∧ h.Shallow (n - 1)
  | n, .dances t ds => t.Shallow (n - 1) ∧ AllShallow (n - 1) ds
  | n, .layered b ls => b.Shallow (n - 1) ∧ LayersShallow (n - 1) ls
  | n, .chorded cs p => ChordsShallow (n - 1) cs ∧ p.Shallow (n - 1)
  | n, .aux p => p.Shallow (n - 1)

def AllShallow : Nat → List NKey → Prop
  | _, [] => True
  | n, k :: ks => k.Shallow n ∧ AllShallow n ks

def LayersShallow : Nat → List (Option NKey) → Prop
  | _, [] => True
  | n, none :: ks => LayersShallow n ks
  | n, some k :: ks => k.Shallow n ∧ LayersShallow n ks

def ChordsShallow : Nat → List (Nat × NKey) → Prop
  | _, [] => True
  | n, (_, k) :: ks => k.Shallow n ∧ ChordsShallow n ks

end

/-- How far down the keys written for position `i` are: one level for a chord, one for the layers. -/
def Src.Room (s : Src) (i n : Nat) : Prop :=
  ((∃ c ∈ s.chords, i ∈ c.indices) → 1 ≤ n) ∧ ((∃ l, 0 < l ∧ (s.at l i).isSome) → 1 ≤ n) ∧
  ((∃ c ∈ s.chords, i ∈ c.indices) → (∃ l, 0 < l ∧ (s.at l i).isSome) → 2 ≤ n)

/-- A source that should compile. -/
structure Src.Acceptable (s : Src) (base : List (Option NKey)) (upper : List (List (Option NKey))) : Prop where
  layers : s.layers = base :: upper
  /-- there is a key, and no base key is transparent -/
  nonempty : base ≠ []
  baseKeys : ∀ i, i < base.length → (s.at 0 i).isSome
  /-- no layer is shorter than the base layer -/
  long : ∀ l ∈ upper, base.length ≤ l.length
  /-- under a key of a layer there is neither the caps-word key nor a layered key -/
  under : ∀ i l, i < base.length → 0 < l → (s.at l i).isSome → s.at 0 i ≠ some (.leaf .capsWord) ∧ ∀ b ls, s.at 0 i ≠ some (.layered b ls)
  chords : ∀ c ∈ s.chords, c.indices ≠ []
  written : ∀ i l k, s.at l i = some k → k.Written
  chordWritten : ∀ c ∈ s.chords, c.key.Written ∧ c.key.Shallow 1
  /-- macros are at most one level deep -/
  shallow : ∀ i l k, i < base.length → s.at l i = some k → ∃ n, s.Room i n ∧ k.Shallow (2 - n)

end Verif.Codegen
