import Verif.Spec.Layout
import Verif.Spec.OneShot

/-!
# The layout a keymap with sticky layers stands for

Reads the key references and key tables of the firmware as a layout of the keyboard of `Spec/OneShot.lean`.
`none`: the position holds another kind of key (tap-hold, tap-dance, chorded, sticky modifier, caps word,
macro), or a reference to a table entry that does not exist.
-/

namespace Verif.Comp

open OneShot (Act Pos)

/-- What a key does, without layers. -/
def onceOf (K : Keys) : Ref → Option Act
  | .layered (.modifier i) =>
    match K.layerMods[i]? with
    | some (.sticky l) => some (.oneShot l)
    | _ => (cellOf K (.layered (.modifier i))).map .cell
  | r => (cellOf K r).map .cell

/-- The keys of the layers. -/
def oncesOf (K : Keys) : List (Option Ref) → Option (List (Option Act))
  | [] => some []
  | none :: rs => (oncesOf K rs).map (none :: ·)
  | some r :: rs =>
    match onceOf K r, oncesOf K rs with
    | some a, some as => some (some a :: as)
    | _, _ => none

/-- What a position of the keymap holds. -/
def spotOf (K : Keys) : Ref → Option Pos
  | .layered (.layered i) =>
    match K.layered[i]? with
    | some k =>
      match onceOf K k.base, oncesOf K k.layered with
      | some b, some as => some (.layered b as)
      | _, _ => none
    | none => none
  | r => (onceOf K r).map .act

/-- The layout. -/
def onceLayoutOf (K : Keys) : List Ref → Option (List Pos)
  | [] => some []
  | r :: rs =>
    match spotOf K r, onceLayoutOf K rs with
    | some p, some ps => some (p :: ps)
    | _, _ => none

end Verif.Comp

namespace Verif.OneShot

/-- The layers a key names are among the layers 1 to `n`. -/
def Act.Fits (n : Nat) : Act → Prop
  | .cell c => c.Fits n
  | .oneShot l => 0 < l ∧ l ≤ n

/-- The layers a position names are among the layers 1 to `n`, and it has one place for each of them. -/
def Pos.Fits (n : Nat) : Pos → Prop
  | .act a => a.Fits n
  | .layered base as => base.Fits n ∧ as.length = n ∧ ∀ a, some a ∈ as → a.Fits n

end Verif.OneShot
