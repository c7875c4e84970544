import Verif.Composite
import Verif.StdSearch

/-!
# A small keymap with one key of every kind

Used to show that the hypotheses of the theorems can be met, and for counterexamples. It is built
like the generated keymaps of `tests/`: key tables, key references and configuration.
-/

namespace Verif.Ex

open Comp

/-- Key tables. -/
def K : Keys where
  automation := [⟨⟨0, 2⟩, ⟨0, 0⟩, ⟨2, 1⟩⟩]
  callback := [.reset]
  chorded := [⟨[(0, .keyboard (.keyCode 10))], .keyboard (.keyCode 11)⟩]
  chordedAux := [.keyboard (.keyCode 12)]
  keyboard := [⟨13, 0x02⟩]
  layerMods := [.hold 1, .toggle 1, .sticky 1, .setActiveLayers 2, .default 1]
  layered := [⟨.keyboard (.keyCode 6), [some (.keyboard (.keyCode 7)), none]⟩]
  sticky := [0x02]
  tapDance := [⟨[some (.keyboard (.keyCode 8)), some (.keyboard (.keyCode 9))]⟩]
  tapHold := [⟨.keyboard (.keyCode 14), .keyboard (.keyCode 0xE0)⟩]

/-- Key references, by keymap index. -/
def refs : List Ref :=
  [.keyboard (.keyCode 4), .keyboard (.keyCode 5), .tapHold 0, .layered (.modifier 0), .layered (.layered 0),
   .sticky 0, .callback 0, .tapDance 0, .automation 0, .capsWord, .chorded (.chorded 0), .chorded (.auxiliary 0),
   .consumer 15, .mouse .cursorLeft, .custom 16, .layered (.modifier 2)]

/-- Configuration: one chord of the keys 10 and 11, two layers. -/
def config : Config where
  automation := ⟨[.tap (KeyOutput.fromKeyCode 20), .tap (KeyOutput.fromKeyCode 21), .tap (KeyOutput.fromKeyCode 22)], 2⟩
  chorded := ⟨200, [[10, 11]], none, 2, 4⟩
  sticky := .onModifiedKeyRelease
  tapDance := ⟨200⟩
  tapHold := ⟨200, .ignore, none⟩
  layerCount := 2
  maxChords := 1

/-- The keymap. -/
def C : Cfg Ref Ev Ctx PKS KS := ⟨system K, refs, Search.std⟩

/-- Its initial context. -/
def ctx : Ctx := Ctx.fromConfig config

/-- Its initial state. -/
def km0 : KM Ref Ev Ctx PKS KS := KM.new ctx

end Verif.Ex
