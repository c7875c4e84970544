import Verif.Spec.Layout
import Verif.Spec.Dance

/-!
# The layout a keymap with tap-dance keys stands for

Reads the key references and key tables of the firmware as a layout of the board of `Spec/Dance.lean`.
`none`: the position holds another kind of key (tap-hold, chorded, sticky, caps word, macro, sticky layer),
a tap-dance key one of whose keys is not a plain key or layer key, or a reference to a table entry that does
not exist.
-/

namespace Verif.Comp

open Dance (Act Pos)

/-- The keys of a tap-dance key: as many as there are, then only empty places. -/
def dancersOf (K : Keys) : List (Option Ref) → Option (List Board.Cell)
  | [] => some []
  | none :: rs => if rs.all Option.isNone then some [] else none
  | some r :: rs =>
    match cellOf K r, dancersOf K rs with
    | some c, some cs => some (c :: cs)
    | _, _ => none

/-- What a key does, without layers. -/
def danceOf (K : Keys) : Ref → Option Act
  | .tapDance i =>
    match K.tapDance[i]? with
    | some k => (dancersOf K k.definitions).map .dance
    | none => none
  | r => (cellOf K r).map .cell

/-- The keys of the layers. -/
def dancesOf (K : Keys) : List (Option Ref) → Option (List (Option Act))
  | [] => some []
  | none :: rs => (dancesOf K rs).map (none :: ·)
  | some r :: rs =>
    match danceOf K r, dancesOf K rs with
    | some a, some as => some (some a :: as)
    | _, _ => none

/-- What a position of the keymap holds. -/
def dancePosOf (K : Keys) : Ref → Option Pos
  | .layered (.layered i) =>
    match K.layered[i]? with
    | some k =>
      match danceOf K k.base, dancesOf K k.layered with
      | some b, some as => some (.layered b as)
      | _, _ => none
    | none => none
  | r => (danceOf K r).map .act

/-- The layout. -/
def danceLayoutOf (K : Keys) : List Ref → Option (List Pos)
  | [] => some []
  | r :: rs =>
    match dancePosOf K r, danceLayoutOf K rs with
    | some p, some ps => some (p :: ps)
    | _, _ => none

end Verif.Comp

namespace Verif.Dance

/-- The layers a key names are among the layers 1 to `n`; a tap-dance key has 2 to 256 keys. -/
def Act.Fits (n : Nat) : Act → Prop
  | .cell c => c.Fits n
  | .dance cs => 2 ≤ cs.length ∧ cs.length ≤ 256 ∧ ∀ c ∈ cs, c.Fits n

/-- The layers a position names are among the layers 1 to `n`, and it has one place for each of them. -/
def Pos.Fits (n : Nat) : Pos → Prop
  | .act a => a.Fits n
  | .layered base as => base.Fits n ∧ as.length = n ∧ ∀ a, some a ∈ as → a.Fits n

end Verif.Dance
