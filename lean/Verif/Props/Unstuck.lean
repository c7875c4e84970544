import Verif.Lemmas.Unstuck
import Verif.Lemmas.UsbFast
import Verif.Props.Nothing
import Verif.Props.Keyboard

/-! # C95: when all switches are open, before long the computer takes no key for pressed -/

namespace Verif.Unstuck

open Device (Along levels)
open Keyboard (still cycle pressed pressedConsumer)
open Hid (On keyPage)
open Comp
open _root_.Verif.Spec

section

variable {K : Keys} {refs : List Ref} {S : Search} {c : Comp.Config}

/-- After the history `es` of a ch32x035 keyboard of `count` keys all its switches are open, for `k` scans; between them the main loop and the computer
have time for the reports. In the end it is as `d`. -/
structure LetGo (K : Keys) (refs : List Ref) (S : Search) (n : Nat) (c : Comp.Config) (count : Nat) (es : List Device.Event) (n1 n2 k : Nat)
    (d : Keyboard.CDev) : Prop where
  main1 : 121 ≤ n1
  main2 : 121 ≤ n2
  levels : ∀ r ∈ levels es, r.length = count
  configured : .configure ∈ es
  runs : Device.run (cfg K refs S) n (Device.new count (KM.new (Ctx.fromConfig c))) (es ++ still n1 n2 (List.replicate count false) k) = .ok d
  along : Along (cfg K refs S) n (Device.new count (KM.new (Ctx.fromConfig c))) (es ++ still n1 n2 (List.replicate count false) k)
  hears : Hears (cfg K refs S) n (Device.new count (KM.new (Ctx.fromConfig c))) (es ++ still n1 n2 (List.replicate count false) k)

/-- What the computer reads off a report of nothing but the shift of caps-word. -/
theorem reads_shift {outs : List KeyOutput} (h : ∀ o ∈ outs, o = CapsWord.shift) (hl : outs.length ≤ 16) {old rep : CApi.HidReport} (ho : Device.Sizes old)
    (hu : old.update outs = .ok rep) :
    (∃ r, Hid.reading Hid.usbKeyboard 0 rep.keyboard = some r ∧ ∀ p u, 1 ≤ u → On r (p, u) → p = keyPage ∧ u = 0xE1 ∧ CapsWord.shift ∈ outs) ∧
      ∃ r, Hid.reading Hid.usbConsumer 0 rep.consumer = some r ∧ ∀ p u, 1 ≤ u → ¬ On r (p, u) := by
  have husage : CapsWord.shift.usage = .keyboard 0 := by decide
  obtain ⟨⟨r, h1, h2⟩, r', h3, h4⟩ := Keyboard.shows (fun o hm => by
    rw [h o hm]; intro k hk; rw [husage] at hk; cases hk; exact .inl (by decide)) hl ho hu
  have hcodes : Keyboard.codes outs = [] := by
    rw [Keyboard.codes, List.filterMap_eq_nil_iff]
    intro o hm; rw [h o hm, husage]; rfl
  have hcons : Keyboard.consumer outs = [] := by
    rw [Keyboard.consumer, List.filterMap_eq_nil_iff]
    intro o hm; rw [h o hm, husage]
  refine ⟨⟨r, h1, fun p u hu ho => ?_⟩, r', h3, fun p u hu ho => ?_⟩
  · obtain ⟨rfl, hx | hx⟩ := h2.only p u ho
    · have := (h2.keys (BitVec.ofNat 8 u) (fun h0 => by have := congrArg BitVec.toNat h0; simp at this; omega) (by simp; omega)).1
        (by rw [BitVec.toNat_ofNat, Nat.mod_eq_of_lt (by omega)]; exact ho)
      rw [hcodes] at this
      simp at this
    · obtain ⟨o, ho, hb⟩ := (h2.modifiers (u - 0xE0) (by omega)).1 (by rw [show 0xE0 + (u - 0xE0) = u by omega]; exact ho)
      have he := h o ho
      subst he
      refine ⟨rfl, ?_, ho⟩
      have key : ∀ i, i < 8 → CapsWord.shift.mods.getLsbD i = true → i = 1 := by decide
      have := key _ (by omega) hb
      omega
  · obtain ⟨_, k, hk, _⟩ := (h4 p u hu).1 ho
    rw [hcons] at hk
    simp at hk

theorem still_prefix (n1 n2 : Nat) (raw : List Bool) (es : List Device.Event) (j : Nat) :
    ∃ rest, es ++ still n1 n2 raw (7 + j) = (es ++ still n1 n2 raw 7) ++ rest := by
  induction j with
  | zero => exact ⟨[], by simp⟩
  | succ j ih =>
    obtain ⟨rest, hr⟩ := ih
    exact ⟨rest ++ cycle n1 n2 raw, by rw [← Nat.add_assoc, still, ← List.append_assoc, hr, List.append_assoc]⟩

/-- C95, at rest. Also with tap-hold keys, tap-dances, chords, layers and macros: when all the switches have been open for eight scans and the keymap has
nothing scheduled, the computer takes no key for pressed, except the left shift key while caps-word is active.

In keymaps without sticky modifiers, in which undecided keys do not become undecided keys, and in which macros tap keys and wait (or only wait, if some key
may have to wait for a decision): for the others the claim is false of the keymap already, see C93. -/
theorem C95_at_rest_partial (hN : Down.NoNesting K refs) (hk : K.sticky = [])
    (hm : (∀ i ∈ c.automation.instructions, Nothing.waits i = true) ∨
      ((∀ i ∈ c.automation.instructions, Nothing.taps i = true) ∧ ∀ r ∈ refs, Decided K r))
    {n count n1 n2 k : Nat} {es : List Device.Event} {d : Keyboard.CDev} (hle : 8 ≤ k) (h : LetGo K refs S n c count es n1 n2 k d)
    (hs : d.km.hasScheduledEvents = false) :
    (∃ r, pressed d.usb = some r ∧ ∀ p u, 1 ≤ u → On r (p, u) → p = keyPage ∧ u = 0xE1 ∧ d.km.ctx.capsWord.active = true) ∧
      ∃ r, pressedConsumer d.usb = some r ∧ ∀ p u, 1 ≤ u → ¬ On r (p, u) := by
  obtain ⟨j, rfl⟩ : ∃ j, k = 7 + j := ⟨k - 7, by omega⟩
  obtain ⟨rest, hrest⟩ := still_prefix n1 n2 (List.replicate count false) es j
  obtain ⟨d7, h7, _⟩ := Device.run_app (hrest ▸ h.runs)
  have hopen := Open.all h.main1 h.main2 h.levels (by simp) h.configured h7 j h.runs h.along
  obtain ⟨ops, cs⟩ := Calls.run_all (Calls.new count _) h.hears h.runs
  have hup : ∀ i, keyDown i ops = false := by
    intro i
    by_cases hlt : i < d.keys.length
    · have := cs.down i hlt
      simp only [Nat.zero_add] at this
      rw [this]
      have hd := hopen.keys
      have : (d.keys.map (·.debounced))[i]? = some d.keys[i].debounced := by simp [hlt]
      rw [hd, List.getElem?_replicate] at this
      split at this <;> simp at this
      exact this
    · exact cs.other i (by omega)
  obtain ⟨outs, m, old, p1, p2, p3⟩ := hopen.report (by omega)
  have hout : outs = [] ∨ (d.km.ctx.capsWord.active = true ∧ outs = [CapsWord.shift]) := by
    rcases Nothing.C93_nothing_pressed_partial hN hk hm cs.keys cs.heard cs.run hs hup with h | ⟨h1, h2⟩
    · rw [p1] at h; exact .inl (Res.ok.inj h)
    · rw [p1] at h2; exact .inr ⟨h1, Res.ok.inj h2⟩
  have hall : ∀ o ∈ outs.take m, o = CapsWord.shift ∧ d.km.ctx.capsWord.active = true := by
    intro o hm
    have := List.mem_of_mem_take hm
    rcases hout with rfl | ⟨h, rfl⟩
    · cases this
    · simp at this; exact ⟨this, h⟩
  obtain ⟨⟨r, q1, q2⟩, r', q3, q4⟩ := reads_shift (fun o hm => (hall o hm).1) (by
    have : outs.length ≤ 1 := by rcases hout with rfl | ⟨_, rfl⟩ <;> simp
    simp; omega) p2 p3
  refine ⟨⟨r, by rw [pressed, hopen.host.1]; exact q1, fun p u hu ho => ?_⟩, r', by rw [pressedConsumer, hopen.host.2]; exact q3, q4⟩
  obtain ⟨a1, a2, a3⟩ := q2 p u hu ho
  exact ⟨a1, a2, (hall _ a3).2⟩

/-- C95. No key is stuck, also with tap-hold keys, tap-dances, chords, layers and macros: whatever was done with the keyboard before, when all the switches
are open then after some time the computer takes no key for pressed, except the left shift key while caps-word is active.

In keymaps without sticky modifiers, in which no key refers back to itself, undecided keys do not become undecided keys, no macro is repeated, and the macros
tap keys and wait (or only wait, if some key may have to wait for a decision). -/
theorem C95_no_stuck_keys_partial (hK : Acyclic K) (hw : ∀ k ∈ K.automation, k.whilePressed.length = 0) (hN : Down.NoNesting K refs) (hk : K.sticky = [])
    (hm : (∀ i ∈ c.automation.instructions, Nothing.waits i = true) ∨
      ((∀ i ∈ c.automation.instructions, Nothing.taps i = true) ∧ ∀ r ∈ refs, Decided K r))
    (n count n1 n2 : Nat) (es : List Device.Event) :
    ∃ N, ∀ k, N ≤ k → ∀ d, LetGo K refs S n c count es n1 n2 k d →
      (∃ r, pressed d.usb = some r ∧ ∀ p u, 1 ≤ u → On r (p, u) → p = keyPage ∧ u = 0xE1 ∧ d.km.ctx.capsWord.active = true) ∧
        ∃ r, pressedConsumer d.usb = some r ∧ ∀ p u, 1 ≤ u → ¬ On r (p, u) := by
  by_cases hex : ∃ d7, Device.run (cfg K refs S) n (Device.new count (KM.new (Ctx.fromConfig c))) (es ++ still n1 n2 (List.replicate count false) 7) = .ok d7
  · obtain ⟨d7, h7⟩ := hex
    have hT := Resting.tires (M := Resting.delays (Ctx.fromConfig c)) hK hw refs S
    refine ⟨7 + (1 + (Rest.pot (Resting.wt (Resting.delays (Ctx.fromConfig c))) (Resting.bound K (Resting.delays (Ctx.fromConfig c)) + 1) K.nested.length (rank K)
      (Resting.cpot (Resting.delays (Ctx.fromConfig c))) d7.km + d7.km.delay)), fun k hle d h => ?_⟩
    obtain ⟨j, rfl⟩ : ∃ j, k = 7 + j := ⟨k - 7, by omega⟩
    have hopen := Open.all h.main1 h.main2 h.levels (by simp) h.configured h7 j h.runs h.along
    have happ := still_prefix n1 n2 (List.replicate count false) es j
    obtain ⟨rest, hrest⟩ := happ
    have hh7 := (hears_append (d := Device.new count (KM.new (Ctx.fromConfig c))) h7 (hrest ▸ h.hears)).1
    obtain ⟨ops7, c7⟩ := Calls.run_all (Calls.new count _) hh7 h7
    have hi : Rest.Inv (Resting.Good (Resting.delays (Ctx.fromConfig c))) d7.km := (Rest.inv_api hT).of_reachable
      ⟨⟨by simp [KM.new], (qinv_api NonPhys (emits_nonPhys K refs S)).of_reachable (QInv.new _ _) ⟨0, [], rfl⟩⟩,
        Resting.good_delays _, fun p hp => by simp [KM.new] at hp⟩ ⟨n, ops7, c7.run⟩
    have hs : d.km.hasScheduledEvents = false := hopen.paced.rests hT hi (by rw [c7.ms]; decide) (by omega)
    exact C95_at_rest_partial hN hk hm (by omega) h hs
  · refine ⟨7, fun k hle d h => absurd ?_ hex⟩
    obtain ⟨j, rfl⟩ : ∃ j, k = 7 + j := ⟨k - 7, by omega⟩
    obtain ⟨rest, hrest⟩ := still_prefix n1 n2 (List.replicate count false) es j
    obtain ⟨d7, h7, _⟩ := Device.run_app (hrest ▸ h.runs)
    exact ⟨d7, h7⟩

end

/-! ## A keyboard with caps-word and a tap-hold key -/

namespace Demo

open Nothing.Demo (K refs config)

abbrev C : Cfg Ref Comp.Ev Comp.Ctx PKS KS := cfg K refs Search.std

theorem acyclic : Acyclic K := by
  refine decreasing_acyclic (fun r => match r with | .tapHold _ => 1 | _ => 0) ?_
  decide

/-- `Hears`, as a check. -/
def hearsB (C : Cfg Ref Comp.Ev Comp.Ctx PKS KS) (d : Device Ref Comp.Ev Comp.Ctx PKS KS) : List Device.Event → Bool
  | [] => true
  | .main :: es => hearsB C { d with usb := Keyboard.mainF d.usb } es
  | e :: es => (match e with
      | .timer raw => heard C 30 d.km ((Firmware.scan d.keys raw).2.map .input)
      | _ => true) && match Device.step C 30 d e with
    | .ok d' => hearsB C d' es
    | _ => true

theorem hearsB_sound : ∀ {C : Cfg Ref Comp.Ev Comp.Ctx PKS KS} {es : List Device.Event} {d : Device Ref Comp.Ev Comp.Ctx PKS KS}, hearsB C d es = true → Hears C 30 d es
  | _, [], _, _ => trivial
  | C, e :: es, d, h => by
    by_cases hm : e = .main
    · subst hm
      simp only [hearsB, Keyboard.mainF_eq] at h
      exact ⟨(fun raw he => by cases he), fun d' hd => by cases hd; exact hearsB_sound h⟩
    · have hc : hearsB C d (e :: es) = ((match e with
          | .timer raw => heard C 30 d.km ((Firmware.scan d.keys raw).2.map .input)
          | _ => true) && match Device.step C 30 d e with
        | .ok d' => hearsB C d' es
        | _ => true) := by
        cases e <;> first | exact absurd rfl hm | simp only [hearsB]
      rw [hc, Bool.and_eq_true] at h
      refine ⟨(fun raw he => by subst he; exact h.1), fun d' hd => ?_⟩
      have h2 := h.2
      rw [hd] at h2
      exact hearsB_sound h2

def cycles (k : Nat) (raw : List Bool) : List Device.Event := (List.replicate k (cycle 121 121 raw)).flatten

/-- The time-out of tap-hold keys is 30 ms. -/
def quick : Comp.Config := { config [.wait 5] with tapHold := ⟨30, .ignore, none⟩ }

/-- The caps-word key is tapped; then the tap-hold key is, while A bounces. -/
def typing : List Device.Event :=
  .configure :: (cycles 7 [true, false, false, false] ++ cycles 7 [false, false, false, false] ++ cycles 7 [false, false, true, false] ++
    cycles 3 [false, true, true, false])

/-- The tap-hold key is held, and then A with it. -/
def holding : List Device.Event := .configure :: (cycles 50 [false, false, true, false] ++ cycles 7 [false, true, true, false])

def start : Device Ref Comp.Ev Comp.Ctx PKS KS := Device.new 4 (KM.new (Comp.Ctx.fromConfig quick))

set_option maxRecDepth 100000 in
theorem typing_check : Keyboard.check C 30 false (fun d => !d.km.hasScheduledEvents && d.km.ctx.capsWord.active) start
    (typing ++ cycles 30 [false, false, false, false]) = true ∧ hearsB C start (typing ++ cycles 30 [false, false, false, false]) = true := by decide +kernel

set_option maxRecDepth 100000 in
theorem holding_check : Keyboard.check C 30 false (fun d => !d.km.hasScheduledEvents && !d.km.ctx.capsWord.active) start
    (holding ++ cycles 15 [false, false, false, false]) = true ∧ hearsB C start (holding ++ cycles 15 [false, false, false, false]) = true ∧
    Keyboard.check C 30 false (fun d => decide (d.usb.keyboard.host = [[2, 0, 0, 0, 0, 0, 0, 0], [2, 0, 4, 0, 0, 0, 0, 0]])) start holding = true := by
  decide +kernel

theorem letGo {es : List Device.Event} {k : Nat} {p : Device Ref Comp.Ev Comp.Ctx PKS KS → Bool} (hl : ∀ r ∈ levels es, r.length = 4) (hc : .configure ∈ es)
    (h1 : Keyboard.check C 30 false p start (es ++ cycles k [false, false, false, false]) = true)
    (h2 : hearsB C start (es ++ cycles k [false, false, false, false]) = true) :
    ∃ d, LetGo K refs Search.std 30 quick 4 es 121 121 k d ∧ p d = true := by
  obtain ⟨⟨d, a1, a2⟩, a3, _⟩ := Keyboard.check_sound h1
  have a4 := hearsB_sound h2
  simp only [cycles, ← Keyboard.Demo.still_flatten] at a1 a3 a4
  exact ⟨d, ⟨by decide, by decide, hl, hc, a1, a3, a4⟩, a2⟩

/-- The hypotheses are met by a keyboard on which the tap-hold key is held and A typed with it: the computer got the shift and the A, and in the end
nothing is pressed. -/
example : ∃ d r, LetGo K refs Search.std 30 quick 4 holding 121 121 15 d ∧ d.km.hasScheduledEvents = false ∧ pressed d.usb = some r ∧
    (∀ p u, 1 ≤ u → ¬ On r (p, u)) ∧
    ∃ d', Device.run C 30 start holding = .ok d' ∧ d'.usb.keyboard.host = [[2, 0, 0, 0, 0, 0, 0, 0], [2, 0, 4, 0, 0, 0, 0, 0]] := by
  obtain ⟨d, h1, h2⟩ := letGo (es := holding) (by decide +kernel) (by simp [holding]) holding_check.1 holding_check.2.1
  simp only [Bool.and_eq_true, Bool.not_eq_true'] at h2
  obtain ⟨⟨r, h3, h4⟩, _⟩ := C95_at_rest_partial (Nothing.Demo.noNesting _) rfl (.inl (by decide)) (by decide) h1 h2.1
  obtain ⟨⟨d', h5, h6⟩, _⟩ := Keyboard.check_sound holding_check.2.2
  exact ⟨d, r, h1, h2.1, h3, fun p u hu ho => (by have := (h4 p u hu ho).2.2; rw [h2.2] at this; cases this), d', h5, of_decide_eq_true h6⟩

/-- And by one on which caps-word is active in the end. -/
example : ∃ d r, LetGo K refs Search.std 30 quick 4 typing 121 121 30 d ∧ d.km.ctx.capsWord.active = true ∧ pressed d.usb = some r ∧
    ∀ p u, 1 ≤ u → On r (p, u) → p = keyPage ∧ u = 0xE1 := by
  obtain ⟨d, h1, h2⟩ := letGo (es := typing) (by decide +kernel) (by simp [typing]) typing_check.1 typing_check.2
  simp only [Bool.and_eq_true, Bool.not_eq_true'] at h2
  obtain ⟨⟨r, h3, h4⟩, _⟩ := C95_at_rest_partial (Nothing.Demo.noNesting _) rfl (.inl (by decide)) (by decide) h1 h2.1
  exact ⟨d, r, h1, h2.2, h3, fun p u hu ho => ⟨(h4 p u hu ho).1, (h4 p u hu ho).2.1⟩⟩

/-- The keymap meets the hypotheses of `C95_no_stuck_keys_partial`. -/
example (es : List Device.Event) : ∃ N, ∀ k, N ≤ k → ∀ d, LetGo K refs Search.std 30 quick 4 es 121 121 k d →
    ∃ r, pressed d.usb = some r ∧ ∀ p u, 1 ≤ u → On r (p, u) → d.km.ctx.capsWord.active = true := by
  obtain ⟨N, hN⟩ := C95_no_stuck_keys_partial (S := Search.std) (c := quick) acyclic (by decide) (Nothing.Demo.noNesting refs) rfl (.inl (by decide)) 30 4 121 121 es
  refine ⟨N, fun k hk d h => ?_⟩
  obtain ⟨⟨r, h1, h2⟩, _⟩ := hN k hk d h
  exact ⟨r, h1, fun p u hu ho => (h2 p u hu ho).2.2⟩

end Demo

/-! ## Where C95 is false -/

namespace StuckDemo

open Nothing.Demo (K mixedRefs config abc noNesting)
open Demo (cycles hearsB hearsB_sound)

abbrev C : Cfg Ref Comp.Ev Comp.Ctx PKS KS := cfg K mixedRefs Search.std

/-- The macro types three letters; the time-out of tap-hold keys is 30 ms. -/
def settings : Comp.Config := { config abc with tapHold := ⟨30, .ignore, none⟩ }

def start : Device Ref Comp.Ev Comp.Ctx PKS KS := Device.new 2 (KM.new (Comp.Ctx.fromConfig settings))

/-- The macro key is pressed; 10 scans later the tap-hold key is, for 10 scans; then the macro key is released. -/
def pressing : List Device.Event := .configure :: (cycles 10 [true, false] ++ cycles 10 [true, true] ++ cycles 6 [true, false])

set_option maxRecDepth 100000 in
theorem pressing_check : Keyboard.check C 30 false (fun d => !d.km.hasScheduledEvents && !d.km.ctx.capsWord.active &&
      decide (d.usb.keyboard.host.getLastD (List.replicate 8 0) = [0, 0, 5, 0, 0, 0, 0, 0])) start
    (pressing ++ cycles 50 [false, false]) = true ∧ hearsB C start (pressing ++ cycles 50 [false, false]) = true := by decide +kernel

end StuckDemo

set_option maxRecDepth 100000 in
/-- C95 is false of a macro next to a tap-hold key. The tap-hold key is tapped while a macro types three letters. 50 scans after all the switches have been opened, with
nothing scheduled, the computer takes b, the second letter, for pressed. The hypotheses of C95_at_rest_partial hold except that some key may have to wait for a decision
and that macros do more than wait. -/
theorem C95_stuck_refuted : Nothing.Demo.K.sticky = [] ∧ Down.NoNesting Nothing.Demo.K Nothing.Demo.mixedRefs ∧
    (∀ i ∈ Nothing.Demo.abc, Nothing.taps i = true) ∧
    ∃ d r, LetGo Nothing.Demo.K Nothing.Demo.mixedRefs Search.std 30 StuckDemo.settings 2 StuckDemo.pressing 121 121 50 d ∧ d.km.hasScheduledEvents = false ∧
      d.km.ctx.capsWord.active = false ∧ pressed d.usb = some r ∧ On r (keyPage, 5) := by
  obtain ⟨⟨d, a1, a2⟩, a3, _⟩ := Keyboard.check_sound StuckDemo.pressing_check.1
  have a4 := Demo.hearsB_sound StuckDemo.pressing_check.2
  simp only [Demo.cycles, ← Keyboard.Demo.still_flatten] at a1 a3 a4
  simp only [Bool.and_eq_true, Bool.not_eq_true', decide_eq_true_eq] at a2
  obtain ⟨⟨b1, b2⟩, b3⟩ := a2
  have hr : (Hid.reading Hid.usbKeyboard 0 [0, 0, 5, 0, 0, 0, 0, 0]).map (fun r => decide (((keyPage, 5), (1 : Int)) ∈ r)) = some true := by decide +kernel
  obtain ⟨r, c1, c2⟩ := Option.map_eq_some_iff.1 hr
  refine ⟨rfl, Nothing.Demo.noNesting _, by decide, d, r, ⟨by decide, by decide, by decide +kernel, by simp [StuckDemo.pressing], a1, a3, a4⟩, b1, b2, ?_, 1, of_decide_eq_true c2, by decide⟩
  rw [pressed, b3, c1]

end Verif.Unstuck
