import Verif.Spec.Layout
import Verif.Spec.Chords

/-!
# The layout a keymap with chords stands for

Reads the key references and key tables of the firmware as a layout of the board of `Spec/Chords.lean`.
`none`: the position holds another kind of key (tap-hold, tap-dance, sticky, caps word, macro, sticky
layer), a key of a chord that is, alone or with the chord, not a plain, layered or layer key, or a
reference to a table entry that does not exist.
-/

namespace Verif.Comp

open Board (Entry)
open Chords (Pos)

/-- What the chords of a first key do. -/
def chordKeysOf (K : Keys) : List (Nat × Ref) → Option (List (Nat × Entry))
  | [] => some []
  | (id, r) :: rs =>
    match entryOf K r, chordKeysOf K rs with
    | some e, some es => some ((id, e) :: es)
    | _, _ => none

/-- What a position of the keymap holds. -/
def chordPosOf (K : Keys) : Ref → Option Pos
  | .chorded (.chorded i) =>
    match K.chorded[i]? with
    | some k =>
      match chordKeysOf K k.chords, entryOf K k.passthrough with
      | some cs, some e => some (.first cs e)
      | _, _ => none
    | none => none
  | .chorded (.auxiliary i) =>
    match K.chordedAux[i]? with
    | some r => (entryOf K r).map .other
    | none => none
  | r => (entryOf K r).map .plain

/-- The layout. -/
def chordLayoutOf (K : Keys) : List Ref → Option (List Pos)
  | [] => some []
  | r :: rs =>
    match chordPosOf K r, chordLayoutOf K rs with
    | some p, some ps => some (p :: ps)
    | _, _ => none

/-- The settings. -/
def chordRulesOf (c : Chorded.Config) (ms : Nat) : Chords.Rules where
  timeout := c.timeout
  chords := c.chords
  requiredIdle := c.requiredIdleTime.getD 0
  size := c.maxChordSize
  room := c.maxPressed
  ms := ms

end Verif.Comp

namespace Verif.Chords

/-- The layers a position names are among the layers 1 to `n`. -/
def Pos.Fits (n : Nat) : Pos → Prop
  | .plain e => e.Fits n
  | .first cs e => e.Fits n ∧ ∀ p ∈ cs, p.2.Fits n
  | .other e => e.Fits n

/-- The first key of a chord says what the chord does: position `i` has an entry for each chord that begins
with `i`. -/
def Pos.Leads (r : Rules) (i : Nat) : Pos → Prop
  | .first cs _ => ∀ id, id < r.chords.length → (r.keys id).head? = some i → (cs.lookup id).isSome = true
  | _ => True

end Verif.Chords
