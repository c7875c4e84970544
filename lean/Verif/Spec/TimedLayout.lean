import Verif.Spec.Layout
import Verif.Spec.Timed

/-!
# The layout a keymap with tap-hold keys stands for

Reads the key references and key tables of the firmware as a layout of the board of `Spec/Timed.lean`.
`none`: the position holds another kind of key (tap-dance, chorded, sticky, caps word, macro, sticky
layer), a tap-hold key whose tap or hold is not a plain key or layer key, or a reference to a table entry
that does not exist.
-/

namespace Verif.Comp

open Timed (Act Pos)

/-- What a key does, without layers. -/
def actOf (K : Keys) : Ref → Option Act
  | .tapHold i =>
    match K.tapHold[i]? with
    | some k =>
      match cellOf K k.tap, cellOf K k.hold with
      | some t, some h => some (.tapHold t h)
      | _, _ => none
    | none => none
  | r => (cellOf K r).map .cell

/-- The keys of the layers. -/
def actsOf (K : Keys) : List (Option Ref) → Option (List (Option Act))
  | [] => some []
  | none :: rs => (actsOf K rs).map (none :: ·)
  | some r :: rs =>
    match actOf K r, actsOf K rs with
    | some a, some as => some (some a :: as)
    | _, _ => none

/-- What a position of the keymap holds. -/
def posOf (K : Keys) : Ref → Option Pos
  | .layered (.layered i) =>
    match K.layered[i]? with
    | some k =>
      match actOf K k.base, actsOf K k.layered with
      | some b, some as => some (.layered b as)
      | _, _ => none
    | none => none
  | r => (actOf K r).map .act

/-- The layout. -/
def timedLayoutOf (K : Keys) : List Ref → Option (List Pos)
  | [] => some []
  | r :: rs =>
    match posOf K r, timedLayoutOf K rs with
    | some p, some ps => some (p :: ps)
    | _, _ => none

/-- The settings. -/
def rulesOf (c : TapHold.Config) (ms : Nat) : Timed.Rules where
  timeout := c.timeout
  interrupt := match c.interruptResponse with
    | .ignore => .never
    | .holdOnKeyPress => .onPress
    | .holdOnKeyTap => .onTap
  requiredIdle := c.requiredIdleTime
  ms := ms

end Verif.Comp

namespace Verif.Timed

/-- The layers a key names are among the layers 1 to `n`. -/
def Act.Fits (n : Nat) : Act → Prop
  | .cell c => c.Fits n
  | .tapHold t h => t.Fits n ∧ h.Fits n

/-- The layers a position names are among the layers 1 to `n`, and it has one place for each of them. -/
def Pos.Fits (n : Nat) : Pos → Prop
  | .act a => a.Fits n
  | .layered base as => base.Fits n ∧ as.length = n ∧ ∀ a, some a ∈ as → a.Fits n

end Verif.Timed
