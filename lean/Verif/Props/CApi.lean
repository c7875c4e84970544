import Verif.CApi
import Verif.Props.Output

/-!
# C05: the report structure of the C library
-/

namespace Verif

open Spec

/-- The consumer codes asked for, in order. -/
def Spec.consumerCodes (qs : List Request) : List Byte :=
  qs.filterMap (fun q => match q.usage with | .consumer uc => some uc | _ => none)

/-- The custom codes asked for, in order. -/
def Spec.customCodes (qs : List Request) : List Byte :=
  qs.filterMap (fun q => match q.usage with | .custom cc => some cc | _ => none)

/-- The mouse outputs asked for, in order. -/
def Spec.mouseOutputs (qs : List Request) : List MouseOutput :=
  qs.filterMap (fun q => match q.usage with | .mouse mo => some mo | _ => none)

theorem output_usage (q : Request) :
    q.output.consumerCode? = (match q.usage with | .consumer uc => some uc | _ => none) ∧
    q.output.customCode? = (match q.usage with | .custom cc => some cc | _ => none) ∧
    q.output.mouse? = (match q.usage with | .mouse mo => some mo | _ => none) := by
  obtain ⟨u, m⟩ := q
  cases u with
  | keyboard kc =>
    simp only [Request.output, KeyOutput.fromUsageWithModifiers]
    cases Mods.fromKeyCode kc <;> simp [KeyOutput.consumerCode?, KeyOutput.customCode?,
      KeyOutput.mouse?]
  | consumer _ | custom _ | mouse _ => exact ⟨rfl, rfl, rfl⟩

theorem copyInto_zero (n : Nat) (xs : List Byte) :
    CApi.copyInto (List.replicate n 0) (xs.take (min n xs.length)) = padTo n xs := by
  have : xs.take (min n xs.length) = xs.take n := by
    by_cases h : n ≤ xs.length
    · rw [Nat.min_eq_left h]
    · rw [Nat.min_eq_right (by omega), List.take_of_length_le (Nat.le_refl _),
        List.take_of_length_le (by omega)]
  simp only [CApi.copyInto, this, padTo, List.drop_replicate, List.length_take]
  congr 2
  omega

/-- C05: whatever the report buffer held before, after an update from up to 16 pressed outputs it
holds the boot keyboard report, the first 6 custom codes and the first 4 consumer codes padded with
zeros, and the combined mouse output; only requests of the respective class appear in each field. -/
theorem C05_c_report (qs : List Request) (hq : qs.length ≤ maxPressedKeys) (old : CApi.HidReport)
    (hk : old.keyboard.length = 8) :
    old.update (qs.map Request.output) = .ok {
      keyboard := KeymapOutput.asBootReport (qs.map Request.output)
      custom := padTo 6 (customCodes qs)
      consumer := padTo 4 (consumerCodes qs)
      mouse := (mouseOutputs qs).foldl MouseOutput.combine MouseOutput.none } := by
  have h1 : (qs.map Request.output).filterMap KeyOutput.consumerCode? = consumerCodes qs := by
    rw [List.filterMap_map]; unfold consumerCodes; congr 1; funext q; exact (output_usage q).1
  have h2 : (qs.map Request.output).filterMap KeyOutput.customCode? = customCodes qs := by
    rw [List.filterMap_map]; unfold customCodes; congr 1; funext q; exact (output_usage q).2.1
  have h3 : (qs.map Request.output).filterMap KeyOutput.mouse? = mouseOutputs qs := by
    rw [List.filterMap_map]; unfold mouseOutputs; congr 1; funext q; exact (output_usage q).2.2
  have l1 : (consumerCodes qs).length ≤ qs.length := List.length_filterMap_le _ _
  have l2 : (customCodes qs).length ≤ qs.length := List.length_filterMap_le _ _
  have hkb : CApi.copyInto old.keyboard (KeymapOutput.asBootReport (qs.map Request.output)) =
      KeymapOutput.asBootReport (qs.map Request.output) := by
    rw [CApi.copyInto, List.drop_of_length_le, List.append_nil]
    rw [C01_boot_report_length, hk]; exact Nat.le_refl _
  simp only [CApi.HidReport.update, KeymapOutput.pressedCustomCodes,
    KeymapOutput.pressedConsumerCodes, KeymapOutput.pressedMouseOutput, h1, h2, h3, extendCap_eq,
    List.length_nil, maxPressedKeys] at *
  rw [if_pos (by omega), if_pos (by omega)]
  simp only [Res.ok_bind, List.nil_append, copyInto_zero, hkb, Res.pure_eq, CApi.customLen,
    CApi.consumerLen]

example : (CApi.HidReport.mk (List.replicate 8 7) (List.replicate 6 7) (List.replicate 4 7)
    MouseOutput.none).update ([⟨.custom 3, 0⟩, ⟨.consumer 9, 0⟩, ⟨.keyboard 4, 1⟩].map
      Request.output) =
    .ok ⟨[1, 0, 4, 0, 0, 0, 0, 0], [3, 0, 0, 0, 0, 0], [9, 0, 0, 0], MouseOutput.none⟩ := by decide

/-- C05, the input side: a C event of a physical key is passed on unchanged, and converting back
gives the same C event. -/
theorem C05_c_event_roundtrip (ev : InputEvent) (e : CApi.CEvent) (h : CApi.CEvent.ofInput ev = .ok e) :
    e.toInput = ev := by
  cases ev <;> simp only [CApi.CEvent.ofInput, Res.ok.injEq, reduceCtorEq] at h <;> subst h <;> rfl

/-- C05, the input side: `keymap_register_input_keypress` and `..._keyrelease` give the keymap the press and
the release of that key. -/
theorem C05_c_keys {R Ev Ctx PKS KS : Type} (C : Cfg R Ev Ctx PKS KS) (n : Nat) (km : KM R Ev Ctx PKS KS) (i : Nat) :
    CApi.registerKeypress C n km i = handleInput C n km (.press i) ∧
      CApi.registerKeyrelease C n km i = handleInput C n km (.release i) := ⟨rfl, rfl⟩

end Verif
