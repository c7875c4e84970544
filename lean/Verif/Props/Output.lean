import Verif.Lemmas.Output
import Verif.Sys.Simple

/-!
# C01-C04: key outputs and the reports made of them
-/

namespace Verif

open KeymapOutput Spec

/-- The output of a request, as built by the API (src/key.rs 509-532). -/
def Spec.Request.output (q : Request) : KeyOutput :=
  KeyOutput.fromUsageWithModifiers q.usage q.mods

/-! ## C02: modifier codec -/

/-- C02: bytes round-trip through the modifier type. -/
theorem C02_asByte_fromByte (b : Byte) : Mods.asByte (Mods.fromByte b) = b := asByte_eq b

/-- C02: `as_key_codes` lists exactly the codes `0xE0 + i` of the set bits, ascending. -/
theorem C02_asKeyCodes (b : Byte) : Mods.asKeyCodes (Mods.fromByte b) = (modsOf b).map modCode := by
  revert b; exact forall_byte (by decide +kernel)

/-- C02: `from_key_code` accepts exactly `0xE0..0xE7` and yields the matching single flag. -/
theorem C02_fromKeyCode (kc m : Byte) :
    Mods.fromKeyCode kc = some m ↔ ∃ i, i < 8 ∧ kc = modCode i ∧ m = 1#8 <<< i :=
  fromKeyCode_eq_some_iff kc m

/-- C02: `is_modifier_key_code` agrees with `from_key_code`. -/
theorem C02_isModifierKeyCode (kc : Byte) :
    Mods.isModifierKeyCode kc = true ↔ ∃ i, i < 8 ∧ kc = modCode i := by
  have h : ∀ kc : Byte, Mods.isModifierKeyCode kc = (Mods.fromKeyCode kc).isSome :=
    forall_byte (by decide +kernel)
  rw [h, Option.isSome_iff_exists]
  constructor
  · rintro ⟨m, hm⟩
    obtain ⟨i, hi, hk, _⟩ := (fromKeyCode_eq_some_iff kc m).1 hm
    exact ⟨i, hi, hk⟩
  · rintro ⟨i, hi, hk⟩
    exact ⟨_, (fromKeyCode_eq_some_iff kc _).2 ⟨i, hi, hk, rfl⟩⟩

/-- C02: an output built from a usage and modifiers has exactly the modifiers asked for (as flags or
as a modifier key code), and keeps the usage unless it is a modifier code, in which case the key
code field is 0. -/
theorem C02_output (q : Request) :
    (∀ i, i < 8 → (q.output.mods.getLsbD i = true ↔ q.asksModifier i)) ∧
    ((∃ i, i < 8 ∧ q.usage = .keyboard (modCode i)) → q.output.usage = .keyboard 0) ∧
    ((¬ ∃ i, i < 8 ∧ q.usage = .keyboard (modCode i)) → q.output.usage = q.usage) := by
  obtain ⟨u, mods⟩ := q
  cases u with
  | keyboard kc =>
    simp only [Request.output, KeyOutput.fromUsageWithModifiers, Request.asksModifier,
      KeyUsage.keyboard.injEq]
    cases h : Mods.fromKeyCode kc with
    | some m =>
      refine ⟨fun i hi => ?_, fun _ => rfl, fun hn => absurd ?_ hn⟩
      · rw [← fromKeyCode_bit kc m h i hi]; simp [Mods.union, or_comm]
      · obtain ⟨i, hi, hk, _⟩ := (fromKeyCode_eq_some_iff kc m).1 h
        exact ⟨i, hi, hk⟩
    | none =>
      have hn : ∀ i, i < 8 → kc ≠ modCode i := fun i hi hk => by
        have := (fromKeyCode_eq_some_iff kc _).2 ⟨i, hi, hk, rfl⟩
        rw [h] at this; cases this
      refine ⟨fun i hi => by simp [hn i hi], fun ⟨i, hi, hk⟩ => absurd hk (hn i hi), fun _ => rfl⟩
  | consumer _ | custom _ | mouse _ =>
    simp [Request.output, KeyOutput.fromUsageWithModifiers, Request.asksModifier]

/-- C02: the other constructors are special cases of a request. -/
theorem C02_constructors (kc m : Byte) (mo : MouseOutput) :
    KeyOutput.fromKeyCode kc = (Request.mk (.keyboard kc) 0).output ∧
    KeyOutput.fromKeyCodeWithModifiers kc m = (Request.mk (.keyboard kc) m).output ∧
    KeyOutput.fromKeyModifiers m = (Request.mk (.keyboard 0) m).output ∧
    KeyOutput.fromConsumerCode kc = (Request.mk (.consumer kc) 0).output ∧
    KeyOutput.fromCustomCode kc = (Request.mk (.custom kc) 0).output ∧
    KeyOutput.fromMouseOutput mo = (Request.mk (.mouse mo) 0).output := by
  refine ⟨?_, ?_, rfl, rfl, rfl, rfl⟩
  all_goals
    simp only [KeyOutput.fromKeyCode, KeyOutput.fromKeyCodeWithModifiers, Request.output,
      KeyOutput.fromUsageWithModifiers]
    cases Mods.fromKeyCode kc <;> simp [Mods.union]

/-! ## C01: boot keyboard report -/

theorem output_code (q : Request) :
    (q.output.keyboardCode?).bind (fun kc => if kc ≠ 0 then some kc else none) =
      plainCode? q.usage := by
  obtain ⟨u, mods⟩ := q
  cases u with
  | keyboard kc =>
    simp only [Request.output, KeyOutput.fromUsageWithModifiers, plainCode?]
    cases h : Mods.fromKeyCode kc with
    | some m =>
      have : ¬ (Mods.fromKeyCode kc = none) := by simp [h]
      rw [fromKeyCode_none_iff, Classical.not_not] at this
      simp [KeyOutput.keyboardCode?, this]
    | none =>
      rw [fromKeyCode_none_iff] at h
      by_cases hz : kc = 0 <;> simp [KeyOutput.keyboardCode?, h, hz]
  | consumer _ | custom _ | mouse _ => rfl

theorem filter_eq_filterMap {α : Type} (p : α → Bool) (l : List α) :
    l.filter p = l.filterMap (fun x => if p x then some x else none) := by
  induction l with
  | nil => rfl
  | cons x l ih => by_cases h : p x <;> simp [h, ih]

/-- C01: byte 0 holds exactly the modifiers asked for, byte 1 is 0, and bytes 2..7 are the first six
ordinary key codes in order, padded with zeros. -/
theorem C01_boot_report_layout (qs : List Request) :
    ∃ m : Byte,
      asBootReport (qs.map Request.output) = m :: 0 :: padTo 6 (plainCodes qs) ∧
      ∀ i, i < 8 → (m.getLsbD i = true ↔ ∃ q ∈ qs, q.asksModifier i) := by
  refine ⟨modifiers (qs.map Request.output), ?_, fun i hi => ?_⟩
  · rw [asBootReport_eq]
    congr 3
    rw [plainCodes, filter_eq_filterMap, List.filterMap_filterMap, List.filterMap_map]
    congr 1
    funext q
    rw [← output_code]
    cases h : q.output.keyboardCode? <;> simp [h]
  · rw [getLsbD_modifiers]
    constructor
    · rintro ⟨ko, hko, hb⟩
      obtain ⟨q, hq, rfl⟩ := List.mem_map.1 hko
      exact ⟨q, hq, ((C02_output q).1 i hi).1 hb⟩
    · rintro ⟨q, hq, h⟩
      exact ⟨_, List.mem_map_of_mem hq, ((C02_output q).1 i hi).2 h⟩

/-- C01: the report has exactly 8 bytes, for any outputs whatsoever. -/
theorem C01_boot_report_length (out : List KeyOutput) : (asBootReport out).length = 8 := by
  rw [asBootReport_eq]; simp [padTo]; omega

example : asBootReport
    ([⟨.keyboard 0xE1, 0⟩, ⟨.keyboard 4, 0x10⟩, ⟨.consumer 9, 0⟩, ⟨.keyboard 5, 0⟩].map
      Request.output) = [0x12, 0, 4, 5, 0, 0, 0, 0] := by decide

/-! ## C03: pressed key codes -/

/-- The keyboard code shown for a usage: a modifier code is shown as 0 in the key code list. -/
def Spec.keyCodeShown? : KeyUsage → Option Byte
  | .keyboard kc => some (if 0xE0 ≤ kc.toNat ∧ kc.toNat ≤ 0xE7 then 0 else kc)
  | _ => none

theorem modsOf_sorted (b : Byte) : (modsOf b).Pairwise (· < ·) :=
  List.Pairwise.filter _ List.pairwise_lt_range

theorem mem_modsOf (b : Byte) (i : Nat) : i ∈ modsOf b ↔ i < 8 ∧ b.getLsbD i = true := by
  simp [modsOf]

theorem length_modsOf (b : Byte) : (modsOf b).length ≤ 8 := by
  have := List.length_filter_le (fun i => b.getLsbD i) (List.range 8)
  simpa [modsOf] using this

/-- C03: for up to 16 pressed outputs, `pressed_key_codes` is the ascending list of the modifiers
asked for, followed by every keyboard code in press order; nothing is dropped. -/
theorem C03_pressed_key_codes (qs : List Request) (h : qs.length ≤ maxPressedKeys) :
    ∃ ms : List Nat, ms.Pairwise (· < ·) ∧
      (∀ i, i ∈ ms ↔ i < 8 ∧ ∃ q ∈ qs, q.asksModifier i) ∧
      pressedKeyCodes (qs.map Request.output) =
        .ok (ms.map modCode ++ qs.filterMap (fun q => keyCodeShown? q.usage)) := by
  refine ⟨modsOf (modifiers (qs.map Request.output)), modsOf_sorted _, fun i => ?_, ?_⟩
  · rw [mem_modsOf, getLsbD_modifiers]
    refine and_congr_right fun hi => ?_
    constructor
    · rintro ⟨ko, hko, hb⟩
      obtain ⟨q, hq, rfl⟩ := List.mem_map.1 hko
      exact ⟨q, hq, ((C02_output q).1 i hi).1 hb⟩
    · rintro ⟨q, hq, h⟩
      exact ⟨_, List.mem_map_of_mem hq, ((C02_output q).1 i hi).2 h⟩
  · have hm := length_modsOf (modifiers (qs.map Request.output))
    have hk : ((qs.map Request.output).filterMap KeyOutput.keyboardCode?) =
        qs.filterMap (fun q => keyCodeShown? q.usage) := by
      rw [List.filterMap_map]; congr 1; funext q
      obtain ⟨u, mods⟩ := q
      cases u with
      | keyboard kc =>
        simp only [Function.comp, Request.output, KeyOutput.fromUsageWithModifiers, keyCodeShown?]
        cases h : Mods.fromKeyCode kc with
        | some m =>
          have : ¬ (Mods.fromKeyCode kc = none) := by simp [h]
          rw [fromKeyCode_none_iff, Classical.not_not] at this
          simp [KeyOutput.keyboardCode?, this]
        | none =>
          rw [fromKeyCode_none_iff] at h
          simp [KeyOutput.keyboardCode?, h]
      | consumer _ | custom _ | mouse _ => rfl
    have hl := List.length_filterMap_le (fun q : Request => keyCodeShown? q.usage) qs
    have hc := C02_asKeyCodes (modifiers (qs.map Request.output))
    rw [Mods.fromByte] at hc
    rw [pressedKeyCodes, hk, hc]
    simp only [extendCap_eq, List.length_map, List.length_nil, maxPressedKeys] at *
    rw [if_pos (by omega)]
    simp only [Res.ok_bind, List.length_append, List.length_map, List.length_nil]
    rw [if_pos (by omega)]
    simp

example : pressedKeyCodes
    ([⟨.keyboard 0xE1, 0⟩, ⟨.keyboard 4, 0x10⟩, ⟨.consumer 9, 0⟩, ⟨.keyboard 5, 0⟩].map
      Request.output) = .ok [0xE1, 0xE4, 0, 4, 5] := by decide

/-! ## C04: mouse output -/

/-- Number of held keys equal to `r`, as an integer. -/
def Spec.held (rs : List Mouse.Ref) (r : Mouse.Ref) : Int := rs.count r

theorem satAddI8_eq (a b : Int) (h1 : -128 ≤ a + b) (h2 : a + b ≤ 127) : satAddI8 a b = a + b := by
  unfold satAddI8; omega

theorem shl_eq_one (b i : Fin 8) : (1#8 <<< b.1).getLsbD i.1 = true ↔ i = b := by
  revert b i; decide

/-- The partial result after the held keys `rs`. -/
def mouseAcc (rs : List Mouse.Ref) (acc : MouseOutput) : Prop :=
  acc.x = 5 * (held rs .cursorRight - held rs .cursorLeft) ∧
  acc.y = 5 * (held rs .cursorDown - held rs .cursorUp) ∧
  acc.vscroll = held rs .wheelUp - held rs .wheelDown ∧
  acc.hscroll = held rs .wheelRight - held rs .wheelLeft ∧
  ∀ i, i < 8 → (acc.buttons.getLsbD i = true ↔ Mouse.Ref.button (i + 1) ∈ rs)

theorem held_append (rs : List Mouse.Ref) (r r' : Mouse.Ref) :
    held (rs ++ [r']) r = held rs r + if r' = r then 1 else 0 := by
  simp only [held, List.count_append, List.count_singleton, beq_iff_eq]
  split <;> simp

theorem held_le (rs : List Mouse.Ref) (r : Mouse.Ref) : 0 ≤ held rs r ∧ held rs r ≤ rs.length := by
  have := List.count_le_length (a := r) (l := rs)
  simp only [held]; omega

theorem mouseAcc_step (rs : List Mouse.Ref) (r : Mouse.Ref) (acc mo : MouseOutput)
    (hl : rs.length < 25) (hr : Mouse.keyOutput r = .ok (some (KeyOutput.fromMouseOutput mo)))
    (h : mouseAcc rs acc) : mouseAcc (rs ++ [r]) (acc.combine mo) := by
  obtain ⟨hx, hy, hv, hh, hb⟩ := h
  have b1 := held_le rs .cursorRight
  have b2 := held_le rs .cursorLeft
  have b3 := held_le rs .cursorUp
  have b4 := held_le rs .cursorDown
  have b5 := held_le rs .wheelUp
  have b6 := held_le rs .wheelDown
  have b7 := held_le rs .wheelLeft
  have b8 := held_le rs .wheelRight
  have hmo : mo.x ≤ 5 ∧ -5 ≤ mo.x ∧ mo.y ≤ 5 ∧ -5 ≤ mo.y ∧ mo.vscroll ≤ 1 ∧ -1 ≤ mo.vscroll ∧
      mo.hscroll ≤ 1 ∧ -1 ≤ mo.hscroll := by
    cases r <;> simp only [Mouse.keyOutput, KeyOutput.fromMouseOutput, Res.ok.injEq,
      Option.some.injEq, KeyOutput.mk.injEq, KeyUsage.mouse.injEq, and_true] at hr
    · split at hr
      · simp only [Res.ok.injEq, Option.some.injEq, KeyOutput.mk.injEq, KeyUsage.mouse.injEq,
          and_true] at hr
        subst hr; simp [MouseOutput.none]
      · cases hr
    all_goals subst hr; simp [MouseOutput.none]
  simp only [mouseAcc, MouseOutput.combine]
  rw [satAddI8_eq _ _ (by omega) (by omega), satAddI8_eq _ _ (by omega) (by omega),
    satAddI8_eq _ _ (by omega) (by omega), satAddI8_eq _ _ (by omega) (by omega)]
  simp only [held_append]
  cases r <;> simp only [Mouse.keyOutput, KeyOutput.fromMouseOutput, Res.ok.injEq,
      Option.some.injEq, KeyOutput.mk.injEq, KeyUsage.mouse.injEq, and_true] at hr
  · rename_i b
    split at hr
    · rename_i hb8
      simp only [Res.ok.injEq, Option.some.injEq, KeyOutput.mk.injEq, KeyUsage.mouse.injEq,
          and_true] at hr
      subst hr
      refine ⟨by simp [MouseOutput.none]; omega, by simp [MouseOutput.none]; omega,
        by simp [MouseOutput.none]; omega, by simp [MouseOutput.none]; omega, fun i hi => ?_⟩
      have hs := shl_eq_one ⟨b - 1, by omega⟩ ⟨i, hi⟩
      simp only [Fin.mk.injEq] at hs
      simp only [BitVec.getLsbD_or, Bool.or_eq_true, hb i hi, hs, List.mem_append,
        List.mem_singleton, Mouse.Ref.button.injEq]
      refine or_congr_right ?_
      have := hb8.1
      constructor <;> intro e <;> omega
    · cases hr
  all_goals
    subst hr
    refine ⟨by simp [MouseOutput.none]; omega, by simp [MouseOutput.none]; omega,
        by simp [MouseOutput.none]; omega, by simp [MouseOutput.none]; omega, fun i hi => ?_⟩
    simp [MouseOutput.none, hb i hi]

theorem mouseAcc_fold (rs rs' : List Mouse.Ref) (mos : List MouseOutput) (acc : MouseOutput)
    (hl : rs.length + rs'.length ≤ 25)
    (hm : rs'.map Mouse.keyOutput = mos.map (fun mo => .ok (some (KeyOutput.fromMouseOutput mo))))
    (h : mouseAcc rs acc) : mouseAcc (rs ++ rs') (mos.foldl MouseOutput.combine acc) := by
  induction rs' generalizing rs mos acc with
  | nil =>
    have : mos = [] := by simpa using hm.symm
    subst this; simpa using h
  | cons r rs' ih =>
    cases mos with
    | nil => simp at hm
    | cons mo mos =>
      simp only [List.map_cons, List.cons.injEq] at hm
      simp only [List.length_cons] at hl
      have h1 := mouseAcc_step rs r acc mo (by omega) hm.1 h
      have h2 := ih (rs ++ [r]) mos _ (by simp; omega) hm.2 h1
      simpa using h2

/-- C04: if the mouse outputs among the pressed outputs are those of the held mouse keys `rs` (at
most 25 of them, in any order, among any other outputs), then the mouse report is the exact sum of
the movements, the exact sum of the scrolls, and the set of the held buttons. -/
theorem C04_mouse_sum (rs : List Mouse.Ref) (out : List KeyOutput) (hl : rs.length ≤ 25)
    (h : rs.map Mouse.keyOutput =
      (out.filterMap KeyOutput.mouse?).map (fun mo => .ok (some (KeyOutput.fromMouseOutput mo)))) :
    let mo := pressedMouseOutput out
    mo.x = 5 * (held rs .cursorRight - held rs .cursorLeft) ∧
    mo.y = 5 * (held rs .cursorDown - held rs .cursorUp) ∧
    mo.vscroll = held rs .wheelUp - held rs .wheelDown ∧
    mo.hscroll = held rs .wheelRight - held rs .wheelLeft ∧
    ∀ i, i < 8 → (mo.buttons.getLsbD i = true ↔ Mouse.Ref.button (i + 1) ∈ rs) := by
  have h0 : mouseAcc [] MouseOutput.none := by
    simp [mouseAcc, MouseOutput.none, held]
  have := mouseAcc_fold [] rs _ _ (by simpa using hl) h h0
  simpa [mouseAcc, pressedMouseOutput] using this

/-- C04: the mouse report does not depend on the order in which the mouse keys were pressed. -/
theorem C04_mouse_order (rs rs' : List Mouse.Ref) (out out' : List KeyOutput)
    (hp : rs.Perm rs') (hl : rs.length ≤ 25)
    (h : rs.map Mouse.keyOutput =
      (out.filterMap KeyOutput.mouse?).map (fun mo => .ok (some (KeyOutput.fromMouseOutput mo))))
    (h' : rs'.map Mouse.keyOutput =
      (out'.filterMap KeyOutput.mouse?).map (fun mo => .ok (some (KeyOutput.fromMouseOutput mo)))) :
    pressedMouseOutput out = pressedMouseOutput out' := by
  obtain ⟨a1, a2, a3, a4, a5⟩ := C04_mouse_sum rs out hl h
  obtain ⟨b1, b2, b3, b4, b5⟩ := C04_mouse_sum rs' out' (hp.length_eq ▸ hl) h'
  have hc : ∀ r, held rs r = held rs' r := fun r => by
    simp only [held, hp.count_eq]
  have hb : (pressedMouseOutput out).buttons = (pressedMouseOutput out').buttons := by
    apply BitVec.eq_of_getLsbD_eq
    intro i hi
    have := (a5 i hi).trans ((hp.mem_iff).trans (b5 i hi).symm)
    exact Bool.eq_iff_iff.2 this
  cases ho : pressedMouseOutput out
  cases ho' : pressedMouseOutput out'
  simp_all

example : pressedMouseOutput
    [⟨.mouse { MouseOutput.none with x := -5 }, 0⟩, KeyOutput.fromKeyCode 4,
      ⟨.mouse { MouseOutput.none with buttons := 1#8 <<< 2 }, 0⟩,
      ⟨.mouse { MouseOutput.none with x := -5 }, 0⟩] = ⟨4, -10, 0, 0, 0⟩ := by decide

example : [Mouse.Ref.cursorLeft, .button 3, .cursorLeft].map Mouse.keyOutput =
    (([⟨.mouse { MouseOutput.none with x := -5 }, 0⟩, KeyOutput.fromKeyCode 4,
      ⟨.mouse { MouseOutput.none with buttons := 1#8 <<< 2 }, 0⟩,
      ⟨.mouse { MouseOutput.none with x := -5 }, 0⟩] : List KeyOutput).filterMap
      KeyOutput.mouse?).map (fun mo => .ok (some (KeyOutput.fromMouseOutput mo))) := by decide

end Verif
