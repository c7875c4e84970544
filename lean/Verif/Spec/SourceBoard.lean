import Verif.Spec.Source
import Verif.Spec.Layout
import Verif.Spec.TimedLayout
import Verif.Spec.VirtLayout
import Verif.Spec.OneShotLayout
import Verif.Spec.DanceLayout
import Verif.Spec.ChordLayout

/-!
# The keyboard a keymap source stands for

Relates a keymap source to the layouts of the keyboards of `Spec/Board.lean`, `Spec/Timed.lean`,
`Spec/Virt.lean`, `Spec/OneShot.lean`, `Spec/Dance.lean` and `Spec/Chords.lean`, without the compiler and without the tables of the firmware.
-/

namespace Verif.Codegen

open Board (Cell Entry)

/-- What a mouse key sends: the buttons 1 to 8 are bits 0 to 7; the cursor moves by 5, the wheels by 1. -/
def mouseSends : Mouse.Ref → Option MouseOutput
  | .button b => if 1 ≤ b ∧ b ≤ 8 then some { MouseOutput.none with buttons := 1#8 <<< (b - 1) } else none
  | .cursorLeft => some { MouseOutput.none with x := -5 }
  | .cursorRight => some { MouseOutput.none with x := 5 }
  | .cursorUp => some { MouseOutput.none with y := -5 }
  | .cursorDown => some { MouseOutput.none with y := 5 }
  | .wheelUp => some { MouseOutput.none with vscroll := 1 }
  | .wheelDown => some { MouseOutput.none with vscroll := -1 }
  | .wheelLeft => some { MouseOutput.none with hscroll := -1 }
  | .wheelRight => some { MouseOutput.none with hscroll := 1 }

/-- A plain key or a layer key. The key codes E0 to E7 (224 to 231) are the modifiers. -/
inductive LeafCell : Leaf → Cell → Prop where
  | callback (c) : LeafCell (.callback c) .nothing
  | consumer (uc) : LeafCell (.consumer uc) (.out ⟨.consumer uc, 0⟩)
  | custom (cc) : LeafCell (.custom cc) (.out ⟨.custom cc, 0⟩)
  | keyCode {kc : Byte} : kc.toNat < 224 ∨ 231 < kc.toNat → LeafCell (.keyCode kc) (.out ⟨.keyboard kc, 0⟩)
  | modCode {kc : Byte} (j : Nat) : j < 8 → kc.toNat = 224 + j → LeafCell (.keyCode kc) (.out ⟨.keyboard 0, 1#8 <<< j⟩)
  | modifiers {m b} : Spells b m → LeafCell (.modifiers m) (.out ⟨.keyboard 0, b⟩)
  | keyCodeModifiers {kc : Byte} {m b} : kc.toNat < 224 ∨ 231 < kc.toNat → Spells b m →
    LeafCell (.keyCodeModifiers kc m) (.out ⟨.keyboard kc, b⟩)
  | mouse {r o} : mouseSends r = some o → LeafCell (.mouse r) (.out ⟨.mouse o, 0⟩)
  | default (l) : LeafCell (.layerModifier (.default l)) (.default l)
  | hold (l) : LeafCell (.layerModifier (.hold l)) (.hold l)
  | toggle (l) : LeafCell (.layerModifier (.toggle l)) (.toggle l)
  | set {ls} {s : BitVec 32} : ls.Nodup → (∀ l, l < 32 → s.getLsbD l = decide (l ∈ ls)) →
    LeafCell (.layerModifier (.setActiveLayersTo ls)) (.setLayers s)

/-- A key of a keyboard of plain keys. -/
inductive PlainKey : NKey → Cell → Prop where
  | leaf {l c} : LeafCell l c → PlainKey (.leaf l) c

/-- A key of a keyboard with tap-hold keys. -/
inductive TimedKey : NKey → Timed.Act → Prop where
  | leaf {l c} : LeafCell l c → TimedKey (.leaf l) (.cell c)
  | hold {t h c d} : LeafCell t c → LeafCell h d → TimedKey (.hold (.leaf t) (.leaf h)) (.tapHold c d)

/-- A key of a keyboard with sticky modifiers, caps word and strings. -/
inductive VirtKey : NKey → Virt.Act → Prop where
  | leaf {l c} : LeafCell l c → VirtKey (.leaf l) (.cell c)
  | sticky {m b} : Spells b m → VirtKey (.leaf (.sticky m)) (.sticky b)
  | capsWord : VirtKey (.leaf .capsWord) .capsWord
  | string {kos : List KeyOutput} : kos ≠ [] → VirtKey (.leaf (.automation { onPress := kos.map .tap })) (.string kos)

/-- A key of a keyboard with sticky layers. -/
inductive OnceKey : NKey → OneShot.Act → Prop where
  | leaf {l c} : LeafCell l c → OnceKey (.leaf l) (.cell c)
  | sticky (l) : OnceKey (.leaf (.layerModifier (.sticky l))) (.oneShot l)

/-- A key of a keyboard with tap-dance keys: a tap-dance key has one key for each number of taps. -/
inductive DanceKey : NKey → Dance.Act → Prop where
  | leaf {l c} : LeafCell l c → DanceKey (.leaf l) (.cell c)
  | dances {t ds cs} : cs.length = (t :: ds).length → (∀ (j : Nat) k c, (t :: ds)[j]? = some k → cs[j]? = some c → PlainKey k c) →
    DanceKey (.dances t ds) (.dance cs)

/-- The number of layers above the base layer; 0 if none of them has a key (within the base layer). -/
def Src.count (s : Src) : Nat :=
  match s.layers with
  | [] => 0
  | base :: upper => if upper.any (fun l => (l.take base.length).any Option.isSome) then upper.length else 0

/-- What the source says about position `i`, where `key` reads one key: one key, if there is only the one of the
base layer; otherwise the key of the base layer and those of the layers, in their order. -/
inductive Says {A P : Type} (key : NKey → A → Prop) (one : A → P) (layered : A → List (Option A) → P) (s : Src) (i : Nat) : P → Prop where
  | one {k a} : s.at 0 i = some k → (∀ l, 0 < l → s.at l i = none) → key k a → Says key one layered s i (one a)
  | layered {k a as} : s.at 0 i = some k → (∃ l, 0 < l ∧ (s.at l i).isSome) → key k a → as.length + 1 = s.layers.length →
    (∀ l : Nat, ((as[l]?).join).isSome = (s.at (l + 1) i).isSome) →
    (∀ (l : Nat) k a, s.at (l + 1) i = some k → as[l]? = some (some a) → key k a) →
    Says key one layered s i (layered a as)

/-- The layout of a source without chords: one place for each position of the base layer. -/
structure Reads {A P : Type} (key : NKey → A → Prop) (one : A → P) (layered : A → List (Option A) → P) (s : Src) (layout : List P) : Prop where
  chords : s.chords = []
  length : ∃ base, s.layers[0]? = some base ∧ layout.length = base.length
  says : ∀ i p, layout[i]? = some p → Says key one layered s i p

/-- The keyboard of plain keys and layer keys a source stands for. -/
def Src.ReadsPlain : Src → List Entry → Prop := Reads PlainKey .cell .layered

/-- The keyboard with tap-hold keys a source stands for. -/
def Src.ReadsTimed : Src → List Timed.Pos → Prop := Reads TimedKey .act .layered

/-- The keyboard with sticky modifiers, caps word and strings a source stands for. -/
def Src.ReadsVirt : Src → List Virt.Pos → Prop := Reads VirtKey .act .layered

/-- The keyboard with sticky layers a source stands for. -/
def Src.ReadsOnce : Src → List OneShot.Pos → Prop := Reads OnceKey .act .layered

/-- The keyboard with tap-dance keys a source stands for. -/
def Src.ReadsDance : Src → List Dance.Pos → Prop := Reads DanceKey .act .layered

/-- What a source with chords says about position `i`: `e` is what the key does alone. -/
inductive SaysChords (s : Src) (i : Nat) : Chords.Pos → Prop where
  /-- no chord has the key -/
  | plain {e} : (∀ c ∈ s.chords, i ∉ c.indices) → Says PlainKey .cell .layered s i e → SaysChords s i (.plain e)
  /-- some chords begin with the key: each of them, once, with what it does -/
  | first {cs e} : (∃ c ∈ s.chords, c.indices.head? = some i) → Says PlainKey .cell .layered s i e →
    (cs.map (·.1)).Pairwise (· < ·) →
    (∀ n : Nat, n ∈ cs.map (·.1) ↔ ∃ c, s.chords[n]? = some c ∧ c.indices.head? = some i) →
    (∀ n x c, (n, x) ∈ cs → s.chords[n]? = some c → ∃ cell, PlainKey c.key cell ∧ x = .cell cell) →
    SaysChords s i (.first cs e)
  /-- some chords have the key, but none of them begins with it -/
  | other {e} : (∃ c ∈ s.chords, i ∈ c.indices) → (∀ c ∈ s.chords, c.indices.head? ≠ some i) →
    Says PlainKey .cell .layered s i e → SaysChords s i (.other e)

/-- The keyboard with chords a source stands for. A chord has two different keys at least. -/
structure Src.ReadsChords (s : Src) (layout : List Chords.Pos) : Prop where
  some' : s.chords ≠ []
  two : ∀ c ∈ s.chords, ∃ k ∈ c.indices, ∃ l ∈ c.indices, k ≠ l
  keys : ∀ c ∈ s.chords, ∃ cell, PlainKey c.key cell
  length : ∃ base, s.layers[0]? = some base ∧ layout.length = base.length
  says : ∀ i p, layout[i]? = some p → SaysChords s i p

/-- The settings of the chords of a source: so many keys can be pressed while a key waits as the largest chord has keys,
and twice as many can be held. -/
def Src.chordRules (s : Src) (ms : Nat) : Chords.Rules where
  timeout := s.options.chordTimeout
  chords := s.chords.map (·.indices)
  requiredIdle := s.options.chordIdle.getD 0
  size := ((s.chords.map (·.indices)).map List.length).foldl max 0
  room := 2 * ((s.chords.map (·.indices)).map List.length).foldl max 0
  ms := ms

end Verif.Codegen
