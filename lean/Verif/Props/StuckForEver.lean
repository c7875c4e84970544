import Verif.Lemmas.Unstuck
import Verif.Props.Nothing
import Verif.Props.Rest

/-! C93, where it is false: the letter stays pressed however long the user waits. `C93_stuck_refuted` gives the history after which the letter is pressed with all keys up;
here any number of milliseconds follows it. -/

namespace Verif.Nothing

open Comp
open _root_.Verif.Spec

/-- C93 is false of a macro next to a tap-hold key, and waiting does not help: after the history of `C93_stuck_refuted`, in which all keys are released, the second letter of
the macro is still pressed after any number of further ticks, and nothing is scheduled that could release it. -/
theorem C93_for_ever_refuted : (∀ i, keyDown i Demo.ops4 = false) ∧
    (∃ km, run (cfg Demo.K Demo.mixedRefs Search.std) 30 (KM.new (Comp.Ctx.fromConfig (Demo.config Demo.abc))) Demo.ops4 = .ok km) ∧
    ∀ (k : Nat) (km : KM Ref Ev Comp.Ctx PKS KS),
      run (cfg Demo.K Demo.mixedRefs Search.std) 30 (KM.new (Comp.Ctx.fromConfig (Demo.config Demo.abc))) (Demo.ops4 ++ List.replicate k .tick) = .ok km →
      km.hasScheduledEvents = false ∧ km.pressedKeys (cfg Demo.K Demo.mixedRefs Search.std) = .ok [KeyOutput.fromKeyCode 5] := by
  obtain ⟨_, _, _, _, _, hup, km0, h0, hr, _, hp⟩ := C93_stuck_refuted
  refine ⟨hup, ⟨km0, h0⟩, fun k km h => ?_⟩
  rw [Unstuck.run_app, h0] at h
  have h' : Verif.run (cfg Demo.K Demo.mixedRefs Search.std) 30 km0 (List.replicate k .tick) = .ok km := h
  obtain ⟨h1, _, h3⟩ := C85_stays hr h'
  exact ⟨h1, h3.trans hp⟩

set_option maxRecDepth 100000 in
/-- A hundred further ticks are such a history: the keymap takes them. -/
example : (Demo.result (cfg Demo.K Demo.mixedRefs Search.std) Demo.abc (Demo.ops4 ++ List.replicate 100 .tick)) = .ok (false, false, .ok [KeyOutput.fromKeyCode 5]) := by
  decide +kernel

end Verif.Nothing
