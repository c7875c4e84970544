import Verif.Composite
import Verif.Spec.Board

/-!
# The layout a keymap of plain keys and layer keys stands for

Reads the key references and key tables of the firmware as a layout of the board of `Spec/Board.lean`.
`none`: the position holds another kind of key (tap-hold, tap-dance, chorded, sticky, caps word, macro,
sticky layer), or a reference to a table entry that does not exist.
-/

namespace Verif.Comp

open Board (Cell Entry)

/-- What a key does, without layers. -/
def cellOf (K : Keys) : Ref → Option Cell
  | .keyboard r =>
    match Keyboard.keyOutput K.keyboard r with
    | .ok (some ko) => some (.out ko)
    | _ => none
  | .consumer uc => some (.out (KeyOutput.fromConsumerCode uc))
  | .custom cc => some (.out (KeyOutput.fromCustomCode cc))
  | .mouse r =>
    match Mouse.keyOutput r with
    | .ok (some ko) => some (.out ko)
    | _ => none
  | .callback i => (K.callback[i]?).map fun _ => .nothing
  | .layered (.modifier i) =>
    match K.layerMods[i]? with
    | some (.hold l) => some (.hold l)
    | some (.toggle l) => some (.toggle l)
    | some (.setActiveLayers s) => some (.setLayers s)
    | some (.default l) => some (.default l)
    | _ => none
  | _ => none

/-- The keys of the layers. -/
def cellsOf (K : Keys) : List (Option Ref) → Option (List (Option Cell))
  | [] => some []
  | none :: rs => (cellsOf K rs).map (none :: ·)
  | some r :: rs =>
    match cellOf K r, cellsOf K rs with
    | some c, some cs => some (some c :: cs)
    | _, _ => none

/-- What a position of the keymap holds. -/
def entryOf (K : Keys) : Ref → Option Entry
  | .layered (.layered i) =>
    match K.layered[i]? with
    | some k =>
      match cellOf K k.base, cellsOf K k.layered with
      | some b, some cs => some (.layered b cs)
      | _, _ => none
    | none => none
  | r => (cellOf K r).map .cell

/-- The layout. -/
def layoutOf (K : Keys) : List Ref → Option (List Entry)
  | [] => some []
  | r :: rs =>
    match entryOf K r, layoutOf K rs with
    | some e, some es => some (e :: es)
    | _, _ => none

end Verif.Comp

namespace Verif.Board

/-- The layers a key names are among the layers 1 to `n`. -/
def Cell.Fits (n : Nat) : Cell → Prop
  | .hold l | .toggle l => 0 < l ∧ l ≤ n
  | .default l => l ≤ n
  | _ => True

/-- The layers a position names are among the layers 1 to `n`, and it has one place for each of them. -/
def Entry.Fits (n : Nat) : Entry → Prop
  | .cell c => c.Fits n
  | .layered base cs => base.Fits n ∧ cs.length = n ∧ ∀ c, some c ∈ cs → c.Fits n

end Verif.Board
