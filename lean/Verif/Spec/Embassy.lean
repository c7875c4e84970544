import Verif.Spec.Rtic

/-!
# Words for the reports of the embassy firmware
-/

namespace Verif.Rtic

/-- The mouse outputs that are worth a report: all but those of no movement and no button that follow such a one, `last` being the one before the first. -/
def worth (last : MouseOutput) : List MouseOutput → List MouseOutput
  | [] => []
  | o :: os => if o = noMouse ∧ last = noMouse then worth o os else o :: worth o os

/-- Each entry that is another than the one before, `last` being the one before the first. -/
def newOnes (last : Byte) : List Byte → List Byte
  | [] => []
  | c :: cs => if c = last then newOnes c cs else c :: newOnes c cs

/-- The first of the consumer codes, 0 if there is none. -/
def firstConsumer (o : KeymapOutput) : Byte :=
  (o.filterMap fun k => match k.usage with
    | .consumer c => some c
    | _ => none).headD 0

end Verif.Rtic
