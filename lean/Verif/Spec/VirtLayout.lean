import Verif.Spec.Layout
import Verif.Spec.Virt

/-!
# The layout a keymap with sticky modifiers, caps word and string macros stands for

Reads the key references, the key tables and the macro instructions of the firmware as a layout of the
keyboard of `Spec/Virt.lean`. `none`: the position holds another kind of key (tap-hold, tap-dance, chorded,
sticky layer, a macro other than a string of taps on press), or a reference to a table entry that does not
exist.
-/

namespace Verif.Comp

open Virt (Act Pos)

/-- The outputs of a list of instructions that are all taps. -/
def tapsOf : List Automation.Instruction → Option (List KeyOutput)
  | [] => some []
  | .tap ko :: is => (tapsOf is).map (ko :: ·)
  | _ :: _ => none

/-- The outputs a macro types, if it is a string of taps. -/
def stringOf (A : Automation.Config) (e : Automation.Execution) : Option (List KeyOutput) :=
  if e.start + e.length ≤ A.instructions.length ∧ 0 < e.length then
    tapsOf ((A.instructions.drop e.start).take e.length)
  else none

/-- What a key does, without layers. -/
def kindOf (K : Keys) (A : Automation.Config) : Ref → Option Act
  | .sticky i => (K.sticky[i]?).map .sticky
  | .capsWord => some .capsWord
  | .automation i =>
    match K.automation[i]? with
    | some k =>
      if k.whilePressed.length = 0 ∧ k.onRelease.length = 0 then
        (stringOf A k.onPress).map .string
      else none
    | none => none
  | r => (cellOf K r).map .cell

/-- The keys of the layers. -/
def kindsOf (K : Keys) (A : Automation.Config) : List (Option Ref) → Option (List (Option Act))
  | [] => some []
  | none :: rs => (kindsOf K A rs).map (none :: ·)
  | some r :: rs =>
    match kindOf K A r, kindsOf K A rs with
    | some a, some as => some (some a :: as)
    | _, _ => none

/-- What a position of the keymap holds. -/
def placeOf (K : Keys) (A : Automation.Config) : Ref → Option Pos
  | .layered (.layered i) =>
    match K.layered[i]? with
    | some k =>
      match kindOf K A k.base, kindsOf K A k.layered with
      | some b, some as => some (.layered b as)
      | _, _ => none
    | none => none
  | r => (kindOf K A r).map .act

/-- The layout. -/
def virtLayoutOf (K : Keys) (A : Automation.Config) : List Ref → Option (List Pos)
  | [] => some []
  | r :: rs =>
    match placeOf K A r, virtLayoutOf K A rs with
    | some p, some ps => some (p :: ps)
    | _, _ => none

/-- When tapped modifiers are let go. -/
def modeOf : Sticky.Release → Virt.Mode
  | .onModifiedKeyRelease => .onRelease
  | .onNextKeyPress => .onNextPress

end Verif.Comp

namespace Verif.Virt

/-- The layers a key names are among the layers 1 to `n`. -/
def Act.Fits (n : Nat) : Act → Prop
  | .cell c => c.Fits n
  | _ => True

/-- The layers a position names are among the layers 1 to `n`, and it has one place for each of them. -/
def Pos.Fits (n : Nat) : Pos → Prop
  | .act a => a.Fits n
  | .layered base as => base.Fits n ∧ as.length = n ∧ ∀ a, some a ∈ as → a.Fits n

end Verif.Virt
