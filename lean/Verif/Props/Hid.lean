import Verif.Lemmas.Hid
import Verif.Spec.Host
import Verif.Names
import Verif.Props.CApi
import Verif.Props.Device
import Verif.Spec.Ble

/-!
# C78, C79: hosts read from the reports what the keymap says
-/

namespace Verif.Hid

open Spec

theorem on_mods {m : Byte} {ks : List Byte} {most i : Nat} (hm : most < 0xE0) (hi : i < 8) :
    On (readMods m ++ readArray 7 most ks) (keyPage, 0xE0 + i) ↔ m.getLsbD i = true := by
  constructor
  · rintro ⟨v, hv, hn⟩
    rcases List.mem_append.1 hv with h | h
    · obtain ⟨j, hj, he⟩ := List.mem_map.1 h
      simp only [Prod.mk.injEq] at he
      obtain rfl : j = i := by omega
      cases hb : m.getLsbD j
      · rw [hb] at he; exact absurd he.2.symm hn
      · rfl
    · obtain ⟨k, _, he⟩ := List.mem_filterMap.1 h
      split at he
      · next h' => simp only [Option.some.injEq, Prod.mk.injEq] at he; omega
      · cases he
  · intro h
    exact ⟨1, List.mem_append_left _ (List.mem_map.2 ⟨i, List.mem_range.2 hi, by rw [h]; rfl⟩), by decide⟩

theorem on_array {page most : Nat} {ks : List Byte} {k : Byte} (hk : k.toNat ≤ most) :
    On (readArray page most ks) (page, k.toNat) ↔ k ∈ ks := by
  constructor
  · rintro ⟨v, hv, _⟩
    obtain ⟨k', hk', he⟩ := List.mem_filterMap.1 hv
    split at he
    · simp only [Option.some.injEq, Prod.mk.injEq, true_and] at he
      rwa [← BitVec.eq_of_toNat_eq he.1]
    · cases he
  · intro h
    exact ⟨1, List.mem_filterMap.2 ⟨k, h, by rw [if_pos hk]⟩, by decide⟩

theorem on_append {r r' : List (Usage × Int)} {u : Usage} : On (r ++ r') u ↔ On r u ∨ On r' u := by
  simp only [On, List.mem_append]
  constructor
  · rintro ⟨v, h | h, hn⟩
    · exact .inl ⟨v, h, hn⟩
    · exact .inr ⟨v, h, hn⟩
  · rintro (⟨v, h, hn⟩ | ⟨v, h, hn⟩)
    · exact ⟨v, .inl h, hn⟩
    · exact ⟨v, .inr h, hn⟩

theorem on_keys {m : Byte} {ks : List Byte} {most : Nat} {k : Byte} (hm : most < 0xE0) (hk : k.toNat ≤ most) :
    On (readMods m ++ readArray 7 most ks) (keyPage, k.toNat) ↔ k ∈ ks := by
  rw [on_append]
  refine Iff.trans (or_iff_right ?_) (on_array hk)
  rintro ⟨v, hv, _⟩
  obtain ⟨j, _, he⟩ := List.mem_map.1 hv
  simp only [Prod.mk.injEq] at he
  omega

theorem on_only {m : Byte} {ks : List Byte} {most p u : Nat} (h : On (readMods m ++ readArray 7 most ks) (p, u)) :
    p = keyPage ∧ (u ≤ most ∨ 0xE0 ≤ u ∧ u ≤ 0xE7) := by
  obtain ⟨v, hv, _⟩ := h
  rcases List.mem_append.1 hv with h | h
  · obtain ⟨j, hj, he⟩ := List.mem_map.1 h
    simp only [Prod.mk.injEq] at he
    have := List.mem_range.1 hj
    exact ⟨he.1.1.symm, .inr ⟨by omega, by omega⟩⟩
  · obtain ⟨k, _, he⟩ := List.mem_filterMap.1 h
    split at he
    · simp only [Option.some.injEq, Prod.mk.injEq] at he
      exact ⟨he.1.1.symm, .inl (by omega)⟩
    · cases he

theorem mem_padTo {n : Nat} {xs : List Byte} {k : Byte} (hk : k ≠ 0) : k ∈ padTo n xs ↔ k ∈ xs.take n := by
  rw [padTo, List.mem_append]
  refine or_iff_left fun h => hk (List.eq_of_mem_replicate h)

theorem padTo_length (n : Nat) (xs : List Byte) : (padTo n xs).length = n := by
  simp only [padTo, List.length_append, List.length_take, List.length_replicate]; omega

/-! ## C78: the ch32x035 keyboard -/

/-- C78: a host that reads the reports of the keyboard according to the report descriptor it got sees exactly those modifiers pressed which are asked for, and
of the keys up to 145 (0x91) exactly the first six that are asked for; whatever the report buffer held before. Other keys are not seen. -/
theorem C78_keyboard_partial (qs : List Request) (hq : qs.length ≤ maxPressedKeys) (old : CApi.HidReport) (hk : old.keyboard.length = 8) :
    ∃ rep r, old.update (qs.map Request.output) = .ok rep ∧ reading usbKeyboard 0 (Device.packets rep).keyboard = some r ∧
      (∀ i, i < 8 → (On r (keyPage, 0xE0 + i) ↔ ∃ q ∈ qs, q.asksModifier i)) ∧
      (∀ k : Byte, k ≠ 0 → k.toNat ≤ 145 → (On r (keyPage, k.toNat) ↔ k ∈ (plainCodes qs).take 6)) ∧
      (∀ p u, On r (p, u) → p = keyPage ∧ (u ≤ 145 ∨ 0xE0 ≤ u ∧ u ≤ 0xE7)) := by
  obtain ⟨m, hm, hi⟩ := C01_boot_report_layout qs
  refine ⟨_, readMods m ++ readArray 7 145 (padTo 6 (plainCodes qs)), C05_c_report qs hq old hk, ?_, fun i h => ?_, fun k h0 h => ?_, fun p u => on_only⟩
  · simp only [Device.packets, hm]
    rw [List.take_of_length_le (by simp [padTo_length])]
    exact reading_usbKeyboard m 0 _ (padTo_length _ _)
  · rw [on_mods (by decide) h, hi i h]
  · rw [on_keys (by decide) h, mem_padTo h0]

/-- C78 does not hold for keys from 146 (0x92) on: the host does not see LANG3 (0x92), although its code is in the report. -/
theorem C78_keyboard_refuted :
    ∃ rep, Ble.zero.update ([⟨.keyboard 0x92, 0⟩].map Request.output) = .ok rep ∧ (Device.packets rep).keyboard = [0, 0, 0x92, 0, 0, 0, 0, 0] ∧
      ∀ r, reading usbKeyboard 0 (Device.packets rep).keyboard = some r → ∀ u, 1 ≤ u → ¬ On r (keyPage, u) := by
  refine ⟨_, rfl, rfl, fun r hr u hu h => ?_⟩
  have e : r = readMods 0 ++ readArray 7 145 [0x92, 0, 0, 0, 0, 0] :=
    (Option.some.inj ((reading_usbKeyboard 0 0 [0x92, 0, 0, 0, 0, 0] rfl).symm.trans hr)).symm
  subst e
  obtain ⟨v, hv, hn⟩ := h
  rcases List.mem_append.1 hv with h | h
  · obtain ⟨j, hj, he⟩ := List.mem_map.1 h
    simp only [Prod.mk.injEq] at he
    rw [← he.2] at hn
    simp at hn
  · simp [readArray] at h
    omega

/-- C78: the keys a computer sees with the report descriptor are those it sees with the fixed layout of boot reports (`Host.keys`, with which C60, C64 and
C66 are stated), as far as they are in the range. -/
theorem C78_boot (m z : Byte) (ks : List Byte) (hl : ks.length = 6) (k : Byte) (h0 : k ≠ 0) (h : k.toNat ≤ 145) :
    ∃ r, reading usbKeyboard 0 (m :: z :: ks) = some r ∧ (On r (keyPage, k.toNat) ↔ k ∈ Host.keys (m :: z :: ks)) := by
  refine ⟨_, reading_usbKeyboard m z ks hl, ?_⟩
  rw [on_keys (by decide) h]
  have : k ≠ 0#8 := h0
  simp [Host.keys, this]

example : ∃ rep r, Ble.zero.update ([⟨.keyboard 0x04, 2⟩, ⟨.keyboard 0x91, 0⟩].map Request.output) = .ok rep ∧
    reading usbKeyboard 0 (Device.packets rep).keyboard = some r ∧ On r (keyPage, 0xE1) ∧ On r (keyPage, 4) ∧ On r (keyPage, 0x91) := by
  refine ⟨_, _, rfl, reading_usbKeyboard 2 0 [4, 0x91, 0, 0, 0, 0] rfl, ?_, ?_, ?_⟩
  · exact (on_mods (i := 1) (by decide) (by decide)).2 rfl
  · exact (on_keys (k := 4) (by decide) (by decide)).2 (by decide)
  · exact (on_keys (k := 0x91) (by decide) (by decide)).2 (by decide)

/-- C78: the fields of the report descriptor are those of a keyboard, a mouse and a consumer control, and the movement of the mouse is relative. -/
theorem C78_kinds :
    (∃ fs, inputs usbKeyboard = some fs ∧ ∀ f ∈ fs, f.inside.getLast? = some keyboardUsage ∧ f.relative = false) ∧
    (∃ fs, inputs usbMouse = some fs ∧ ∀ f ∈ fs, f.inside = [pointerUsage, mouseUsage] ∧ (f.relative = true ↔ f.usages.map (·.1) = [1, 1, 1])) ∧
    (∃ fs, inputs usbConsumer = some fs ∧ ∀ f ∈ fs, f.inside = [consumerUsage] ∧ f.relative = false) :=
  ⟨⟨_, inputs_usbKeyboard, by decide⟩, ⟨_, inputs_usbMouse, by decide⟩, ⟨_, inputs_usbConsumer, by decide⟩⟩

theorem signed_eq {u : Usage} {i : Int} (h : -127 ≤ i) (h' : i ≤ 127) : readSigned u (BitVec.ofInt 8 i) = [(u, i)] := by
  have e := Device.toInt_ofInt8 (i := i) (by omega) h'
  rw [readSigned, if_neg, e]
  intro he
  rw [he] at e
  have : (128#8).toInt = -128 := by decide
  omega

/-- C78: a host sees the first three mouse buttons, the movement and the vertical scroll of the keymap's report, unless one of these is -128. -/
theorem C78_mouse_partial (rep : CApi.HidReport) (hx : -127 ≤ rep.mouse.x ∧ rep.mouse.x ≤ 127) (hy : -127 ≤ rep.mouse.y ∧ rep.mouse.y ≤ 127)
    (hv : -127 ≤ rep.mouse.vscroll ∧ rep.mouse.vscroll ≤ 127) :
    reading usbMouse 0 (Device.packets rep).mouse = some [
      ((buttonPage, 1), (rep.mouse.buttons.getLsbD 0).toInt), ((buttonPage, 2), (rep.mouse.buttons.getLsbD 1).toInt),
      ((buttonPage, 3), (rep.mouse.buttons.getLsbD 2).toInt),
      (usageX, rep.mouse.x), (usageY, rep.mouse.y), (usageWheel, rep.mouse.vscroll)] := by
  rw [Device.packets, reading_usbMouse, signed_eq hx.1 hx.2, signed_eq hy.1 hy.2, signed_eq hv.1 hv.2]
  rfl

example : reading usbMouse 0 (Device.packets ⟨[], [], [], ⟨0x05, -5, 10, -1, 0⟩⟩).mouse = some [
    ((buttonPage, 1), 1), ((buttonPage, 2), 0), ((buttonPage, 3), 1), (usageX, -5), (usageY, 10), (usageWheel, -1)] := by decide +kernel

/-- C78 does not hold for the other buttons and for horizontal scroll, which the host reads as if they were not there, -/
theorem C78_mouse_refuted (rep : CApi.HidReport) (h : Int) :
    reading usbMouse 0 (Device.packets rep).mouse = reading usbMouse 0
      (Device.packets { rep with mouse := { rep.mouse with buttons := rep.mouse.buttons ||| 0xF8#8, hscroll := h } }).mouse := by
  rw [Device.packets, Device.packets, reading_usbMouse, reading_usbMouse]
  simp [readButtons, BitVec.getLsbD_or, List.range, List.range.loop]

/-- and not for -128, which is out of the range the descriptor gives: two mouse keys that move by -100 each make a movement of -128, which is no movement for
a host that follows the standard. -/
theorem C78_move_refuted :
    let m := MouseOutput.combine ⟨0, -100, 0, 0, 0⟩ ⟨0, -100, 0, 0, 0⟩
    m.x = -128 ∧ ∀ r, reading usbMouse 0 (Device.packets ⟨[], [], [], m⟩).mouse = some r → ∀ v, (usageX, v) ∉ r := by
  refine ⟨by decide, fun r hr v h => ?_⟩
  have e : r = [((buttonPage, 1), 0), ((buttonPage, 2), 0), ((buttonPage, 3), 0), (usageY, 0), (usageWheel, 0)] :=
    (Option.some.inj ((by decide +kernel : reading usbMouse 0 _ = some _).symm.trans hr)).symm
  subst e
  simp [usageX, usageY, usageWheel, buttonPage] at h

/-- C78: a host sees exactly the first four consumer codes that are asked for. -/
theorem C78_consumer (qs : List Request) (hq : qs.length ≤ maxPressedKeys) (old : CApi.HidReport) (hk : old.keyboard.length = 8) :
    ∃ rep r, old.update (qs.map Request.output) = .ok rep ∧ reading usbConsumer 0 (Device.packets rep).consumer = some r ∧
      ∀ p u, 1 ≤ u → (On r (p, u) ↔ p = consumerPage ∧ ∃ k ∈ (consumerCodes qs).take 4, k.toNat = u) := by
  refine ⟨_, readArray 12 255 (padTo 4 (consumerCodes qs)), C05_c_report qs hq old hk, ?_, fun p u hu => ⟨fun h => ?_, ?_⟩⟩
  · simp only [Device.packets]
    rw [List.take_of_length_le (by simp [padTo_length])]
    exact reading_usbConsumer _ (padTo_length _ _)
  · obtain ⟨v, hv, hn⟩ := h
    obtain ⟨k, hk, he⟩ := List.mem_filterMap.1 hv
    split at he
    · simp only [Option.some.injEq, Prod.mk.injEq] at he
      refine ⟨he.1.1.symm, k, (mem_padTo ?_).1 hk, he.1.2⟩
      rintro rfl
      simp at he
      omega
    · cases he
  · rintro ⟨rfl, k, hk, rfl⟩
    refine (on_array (by have := k.isLt; omega)).2 ((mem_padTo ?_).2 hk)
    rintro rfl
    simp at hu

example : ∃ rep r, Ble.zero.update ([⟨.consumer 0xE9, 0⟩, ⟨.consumer 0xB5, 0⟩].map Request.output) = .ok rep ∧
    reading usbConsumer 0 (Device.packets rep).consumer = some r ∧ On r (consumerPage, 0xE9) ∧ On r (consumerPage, 0xB5) :=
  ⟨_, _, rfl, reading_usbConsumer [0xE9, 0xB5, 0, 0] rfl, (on_array (k := 0xE9) (by decide)).2 (by decide),
    (on_array (k := 0xB5) (by decide)).2 (by decide)⟩

/-! ## C79: the ch58x keyboard -/

/-- C79: as `C78_keyboard_partial`, for keys up to 101 (0x65). -/
theorem C79_keyboard_partial (qs : List Request) (hq : qs.length ≤ maxPressedKeys) (old : CApi.HidReport) (hk : old.keyboard.length = 8) :
    ∃ rep r, old.update (qs.map Request.output) = .ok rep ∧
      reading bleMap (bleBytes (.keyboard rep.keyboard)).1 (bleBytes (.keyboard rep.keyboard)).2 = some r ∧
      (∀ i, i < 8 → (On r (keyPage, 0xE0 + i) ↔ ∃ q ∈ qs, q.asksModifier i)) ∧
      (∀ k : Byte, k ≠ 0 → k.toNat ≤ 101 → (On r (keyPage, k.toNat) ↔ k ∈ (plainCodes qs).take 6)) ∧
      (∀ p u, On r (p, u) → p = keyPage ∧ (u ≤ 101 ∨ 0xE0 ≤ u ∧ u ≤ 0xE7)) := by
  obtain ⟨m, hm, hi⟩ := C01_boot_report_layout qs
  refine ⟨_, readMods m ++ readArray 7 101 (padTo 6 (plainCodes qs)), C05_c_report qs hq old hk, ?_, fun i h => ?_, fun k h0 h => ?_, fun p u => on_only⟩
  · simp only [bleBytes, hm]
    rw [List.take_of_length_le (by simp [padTo_length])]
    exact reading_bleKeyboard m 0 _ (padTo_length _ _)
  · rw [on_mods (by decide) h, hi i h]
  · rw [on_keys (by decide) h, mem_padTo h0]

/-- C79 does not hold for keys from 102 (0x66) on: the host does not see F13 (0x68). -/
theorem C79_keyboard_refuted :
    ∃ rep, Ble.zero.update ([⟨.keyboard 0x68, 0⟩].map Request.output) = .ok rep ∧ (bleBytes (.keyboard rep.keyboard)).2 = [0, 0, 0x68, 0, 0, 0, 0, 0] ∧
      ∀ r, reading bleMap (bleBytes (.keyboard rep.keyboard)).1 (bleBytes (.keyboard rep.keyboard)).2 = some r → ∀ u, 1 ≤ u → ¬ On r (keyPage, u) := by
  refine ⟨_, rfl, rfl, fun r hr u hu h => ?_⟩
  have e : r = readMods 0 ++ readArray 7 101 [0x68, 0, 0, 0, 0, 0] :=
    (Option.some.inj ((reading_bleKeyboard 0 0 [0x68, 0, 0, 0, 0, 0] rfl).symm.trans hr)).symm
  subst e
  obtain ⟨v, hv, hn⟩ := h
  rcases List.mem_append.1 hv with h | h
  · obtain ⟨j, hj, he⟩ := List.mem_map.1 h
    simp only [Prod.mk.injEq] at he
    rw [← he.2] at hn
    simp at hn
  · simp [readArray] at h
    omega

/-- The controls that are on, without those with number 0. -/
def seen (r : List (Usage × Int)) : List Usage := (r.filter fun x => x.2 ≠ 0 ∧ 1 ≤ x.1.2).map (·.1)

theorem on_seen {r : List (Usage × Int)} {u v : Nat} (hv : 1 ≤ v) (h : seen r = [(keyPage, u)]) : On r (keyPage, v) ↔ v = u := by
  have : On r (keyPage, v) ↔ (keyPage, v) ∈ seen r := by
    simp only [On, seen, List.mem_map, List.mem_filter, decide_eq_true_eq]
    constructor
    · rintro ⟨w, hw, hn⟩; exact ⟨_, ⟨hw, hn, hv⟩, rfl⟩
    · rintro ⟨⟨x, w⟩, ⟨hw, hn, _⟩, rfl⟩; exact ⟨w, hw, hn⟩
  rw [this, h]
  simp

/-- Only this key is seen if it is pressed alone. -/
def check (u : Nat) : Bool :=
  match Ble.zero.update ([⟨.keyboard (BitVec.ofNat 8 u), 0⟩].map Request.output) with
  | .ok rep =>
    decide ((reading usbKeyboard 0 (Device.packets rep).keyboard).map seen = some [(keyPage, u)]) &&
    decide ((reading bleMap (bleBytes (.keyboard rep.keyboard)).1 (bleBytes (.keyboard rep.keyboard)).2).map seen = some [(keyPage, u)])
  | _ => false

/-- C78, C79: every key with a name is seen as such by the hosts of both keyboards if it is pressed alone, and no other key is. -/
theorem C79_named (name : String) (u : Nat) (h : (name, u) ∈ Codegen.keyboardUsages) (hu : u ≠ 0) :
    ∃ rep r r', Ble.zero.update ([⟨.keyboard (BitVec.ofNat 8 u), 0⟩].map Request.output) = .ok rep ∧
      reading usbKeyboard 0 (Device.packets rep).keyboard = some r ∧
      reading bleMap (bleBytes (.keyboard rep.keyboard)).1 (bleBytes (.keyboard rep.keyboard)).2 = some r' ∧
      (∀ v, 1 ≤ v → (On r (keyPage, v) ↔ v = u)) ∧ (∀ v, 1 ≤ v → (On r' (keyPage, v) ↔ v = u)) := by
  have hs : ∀ p ∈ Codegen.keyboardUsages, p.2 ≠ 0 → check p.2 = true := by decide +kernel
  have hc := hs _ h hu
  simp only [check] at hc
  split at hc
  · next rep he =>
    simp only [Bool.and_eq_true, decide_eq_true_eq] at hc
    obtain ⟨r, hr, h1⟩ := Option.map_eq_some_iff.1 hc.1
    obtain ⟨r', hr', h2⟩ := Option.map_eq_some_iff.1 hc.2
    exact ⟨rep, r, r', he, hr, hr', fun v hv => on_seen hv h1, fun v hv => on_seen hv h2⟩
  · cases hc

/-! ### The mouse and the consumer controls -/

/-- C79: a host sees the first three mouse buttons, the movement and both scrolls of the keymap's report, unless one of these is -128. -/
theorem C79_mouse_partial (m : MouseOutput) (hx : -127 ≤ m.x ∧ m.x ≤ 127) (hy : -127 ≤ m.y ∧ m.y ≤ 127)
    (hv : -127 ≤ m.vscroll ∧ m.vscroll ≤ 127) (hh : -127 ≤ m.hscroll ∧ m.hscroll ≤ 127) :
    reading bleMap (bleBytes (.mouse m)).1 (bleBytes (.mouse m)).2 = some [
      ((buttonPage, 1), (m.buttons.getLsbD 0).toInt), ((buttonPage, 2), (m.buttons.getLsbD 1).toInt),
      ((buttonPage, 3), (m.buttons.getLsbD 2).toInt),
      (usageX, m.x), (usageY, m.y), (usageWheel, m.vscroll), (usagePan, m.hscroll)] := by
  rw [bleBytes, reading_bleMouse, signed_eq hx.1 hx.2, signed_eq hy.1 hy.2, signed_eq hv.1 hv.2, signed_eq hh.1 hh.2]
  rfl

example : reading bleMap (bleBytes (.mouse ⟨0x05, -5, 10, -1, 2⟩)).1 (bleBytes (.mouse ⟨0x05, -5, 10, -1, 2⟩)).2 = some [
    ((buttonPage, 1), 1), ((buttonPage, 2), 0), ((buttonPage, 3), 1), (usageX, -5), (usageY, 10), (usageWheel, -1), (usagePan, 2)] := by
  decide +kernel

/-- C79 does not hold for the other buttons. -/
theorem C79_mouse_refuted (m : MouseOutput) :
    reading bleMap (bleBytes (.mouse m)).1 (bleBytes (.mouse m)).2 =
      reading bleMap 2 (bleBytes (.mouse { m with buttons := m.buttons ||| 0xF8#8 })).2 := by
  rw [bleBytes, bleBytes, reading_bleMouse, reading_bleMouse]
  simp [readButtons, BitVec.getLsbD_or, List.range, List.range.loop]

/-- C79: if at most one consumer code is asked for, this is what a host sees. -/
theorem C79_consumer_partial (qs : List Request) (hq : qs.length ≤ maxPressedKeys) (old : CApi.HidReport) (hk : old.keyboard.length = 8)
    (h1 : (consumerCodes qs).length ≤ 1) :
    ∃ rep r, old.update (qs.map Request.output) = .ok rep ∧
      reading bleMap (bleBytes (.consumer rep.consumer)).1 (bleBytes (.consumer rep.consumer)).2 = some r ∧
      ∀ p u, 1 ≤ u → (On r (p, u) ↔ p = consumerPage ∧ ∃ k ∈ consumerCodes qs, k.toNat = u) := by
  have hp : ∃ c : Byte, padTo 4 (consumerCodes qs) = [c, 0, 0, 0] ∧ ∀ u, 1 ≤ u → ((∃ k ∈ consumerCodes qs, k.toNat = u) ↔ c.toNat = u) := by
    match h : consumerCodes qs, h1 with
    | [], _ => exact ⟨0, rfl, fun u hu => by simp; omega⟩
    | [c], _ => exact ⟨c, rfl, fun u hu => by simp⟩
  obtain ⟨c, hc, hu⟩ := hp
  refine ⟨_, readWords [c.toNat + 256 * 0, 0 + 256 * 0], C05_c_report qs hq old hk, ?_, fun p u h => ?_⟩
  · simp only [bleBytes, hc]
    exact reading_bleConsumer c 0 0 0
  · rw [hu u h]
    have := c.isLt
    have hw : readWords [c.toNat + 256 * 0, 0 + 256 * 0] = [((12, c.toNat), 1), ((12, 0), 1)] := by
      simp [readWords, List.filterMap_cons]
      rw [if_pos (by omega)]
    rw [hw]
    constructor
    · rintro ⟨v, hv, _⟩
      simp only [List.mem_cons, Prod.mk.injEq, List.not_mem_nil, or_false] at hv
      exact ⟨by rw [consumerPage]; omega, by omega⟩
    · rintro ⟨rfl, rfl⟩
      exact ⟨1, .head _, by decide⟩

example : ∃ rep r, Ble.zero.update ([⟨.consumer 0xE9, 0⟩, ⟨.keyboard 4, 0⟩].map Request.output) = .ok rep ∧
    reading bleMap (bleBytes (.consumer rep.consumer)).1 (bleBytes (.consumer rep.consumer)).2 = some r ∧ On r (consumerPage, 0xE9) :=
  ⟨_, _, rfl, reading_bleConsumer 0xE9 0 0 0, 1, by decide, by decide⟩

/-- C79 does not hold for two consumer codes: the host takes two codes for one number. If volume up is held and "next track" pressed, the host sees
neither; and if brightness down (0x70) is held and 2 pressed, it sees 0x270, which nobody asked for. -/
theorem C79_consumer_refuted :
    (∃ rep r, Ble.zero.update ([⟨.consumer 0xE9, 0⟩, ⟨.consumer 0xB5, 0⟩].map Request.output) = .ok rep ∧
      reading bleMap (bleBytes (.consumer rep.consumer)).1 (bleBytes (.consumer rep.consumer)).2 = some r ∧
      ∀ u, 1 ≤ u → ¬ On r (consumerPage, u)) ∧
    (∃ rep r, Ble.zero.update ([⟨.consumer 0x70, 0⟩, ⟨.consumer 0x02, 0⟩].map Request.output) = .ok rep ∧
      reading bleMap (bleBytes (.consumer rep.consumer)).1 (bleBytes (.consumer rep.consumer)).2 = some r ∧
      On r (consumerPage, 0x270)) := by
  refine ⟨⟨_, [((12, 0), 1)], rfl, by decide +kernel, ?_⟩, ⟨_, [((12, 0x270), 1), ((12, 0), 1)], rfl, by decide +kernel, 1, by decide, by decide⟩⟩
  rintro u hu ⟨v, hv, _⟩
  simp only [List.mem_cons, Prod.mk.injEq, List.not_mem_nil, or_false] at hv
  omega

/-- C79: the fields are those of a keyboard, a mouse and a consumer control, according to the number of the report. -/
theorem C79_kinds : ∃ fs, inputs bleMap = some fs ∧ ∀ f ∈ fs, f.inside.getLast? =
    if f.id = (bleBytes (.keyboard [])).1 then some keyboardUsage
    else if f.id = (bleBytes (.mouse MouseOutput.none)).1 then some mouseUsage
    else if f.id = (bleBytes (.consumer [])).1 then some consumerUsage else none :=
  ⟨_, inputs_bleMap, by decide⟩

end Verif.Hid
