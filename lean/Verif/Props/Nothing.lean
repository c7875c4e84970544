import Verif.Lemmas.NothingRun
import Verif.Props.Down
import Verif.StdSearch

/-! # C93: when all keys are up and nothing is left to do, nothing is pressed -/

namespace Verif.Nothing

open Comp
open _root_.Verif.Spec

section

variable {K : Keys} {refs : List Ref} {S : Search} {c : Comp.Config}

/-- C93, virtual keys: at any time, with nothing scheduled, no virtual key counts as pressed but the shift of caps-word, and that one once at most, and only
while caps-word is active. In keymaps without sticky modifiers, whose macros tap keys and wait, or only wait if some key of the keymap may have to wait for a
decision. -/
theorem C93_virtual_keys_partial (hk : K.sticky = [])
    (hm : (∀ i ∈ c.automation.instructions, waits i = true) ∨ ((∀ i ∈ c.automation.instructions, taps i = true) ∧ ∀ r ∈ refs, Decided K r))
    {n : Nat} {ops : List Op} {km : KM Ref Ev Ctx PKS KS} (hops : ∀ op ∈ ops, keysOnly op = true)
    (h : run (cfg K refs S) n (KM.new (Ctx.fromConfig c)) ops = .ok km) (hs : km.hasScheduledEvents = false) :
    virtuals km.pressed = [] ∨ (km.ctx.capsWord.active = true ∧ virtuals km.pressed = [CapsWord.shift]) := by
  have key : ∃ loud : Prop, Macros loud c.automation.instructions ∧ (loud → ∀ r ∈ refs, Decided K r) := by
    have w : ∀ i, waits i = true → i = .noOp ∨ ∃ t, i = .wait t := by intro i; cases i <;> simp [waits]
    rcases hm with hm | ⟨hm, hd⟩
    · exact ⟨False, fun i hi => (w i (hm i hi)).imp id .inl, False.elim⟩
    · refine ⟨True, fun i hi => ?_, fun _ => hd⟩
      have := hm i hi
      cases i <;> simp [taps, waits] at this ⊢
  obtain ⟨loud, hA, hD⟩ := key
  have hr := run_J hk hD (Rests.new c hA) hops h
  simp only [KM.hasScheduledEvents, Bool.or_eq_false_iff, Bool.not_eq_false', List.isEmpty_iff] at hs
  have b : ∀ ko, (virtuals km.pressed).count ko ≤ owed ko km.ctx.capsWord.active := by
    intro ko
    have := hr.j.bound ko
    simpa [waiting, hs.1.1, hs.1.2, due, after, virts] using this
  cases hv : virtuals km.pressed with
  | nil => exact .inl rfl
  | cons x l =>
    rw [hv] at b
    have own : ∀ y ∈ x :: l, km.ctx.capsWord.active = true ∧ y = CapsWord.shift := by
      intro y hy
      have h1 := b y
      have h2 : 0 < (x :: l).count y := List.count_pos_iff.2 hy
      unfold owed at h1
      split at h1
      · assumption
      · omega
    refine .inr ⟨(own x (by simp)).1, ?_⟩
    obtain rfl := (own x (by simp)).2
    cases l with
    | nil => rfl
    | cons y l =>
      obtain rfl := (own y (by simp)).2
      have := b CapsWord.shift
      simp only [List.count_cons_self, owed] at this
      split at this <;> omega

/-- C93: when all keys are up and nothing is scheduled, nothing is pressed; or, while caps-word is active, its shift alone. -/
theorem C93_nothing_pressed_partial (hN : Down.NoNesting K refs) (hk : K.sticky = [])
    (hm : (∀ i ∈ c.automation.instructions, waits i = true) ∨ ((∀ i ∈ c.automation.instructions, taps i = true) ∧ ∀ r ∈ refs, Decided K r))
    {n : Nat} {ops : List Op} {km : KM Ref Ev Ctx PKS KS} (hops : ∀ op ∈ ops, keysOnly op = true)
    (hh : heard (cfg K refs S) n (KM.new (Ctx.fromConfig c)) ops = true)
    (h : run (cfg K refs S) n (KM.new (Ctx.fromConfig c)) ops = .ok km) (hs : km.hasScheduledEvents = false) (hup : ∀ i, keyDown i ops = false) :
    km.pressedKeys (cfg K refs S) = .ok [] ∨ (km.ctx.capsWord.active = true ∧ km.pressedKeys (cfg K refs S) = .ok [CapsWord.shift]) := by
  rw [C83_no_stuck_keys_partial hN hh h hs hup]
  rcases C93_virtual_keys_partial hk hm hops h hs with h | ⟨h1, h2⟩
  · rw [h]; exact .inl rfl
  · rw [h2]; exact .inr ⟨h1, rfl⟩

/-- C93, the report: in a keymap without the caps-word key, the report is that of a keyboard with no key pressed. -/
theorem C93_report_partial (hN : Down.NoNesting K refs) (hk : K.sticky = [])
    (hm : (∀ i ∈ c.automation.instructions, waits i = true) ∨ ((∀ i ∈ c.automation.instructions, taps i = true) ∧ ∀ r ∈ refs, Decided K r))
    {n : Nat} {ops : List Op} {km : KM Ref Ev Ctx PKS KS} (hops : ∀ op ∈ ops, keysOnly op = true)
    (hh : heard (cfg K refs S) n (KM.new (Ctx.fromConfig c)) ops = true)
    (h : run (cfg K refs S) n (KM.new (Ctx.fromConfig c)) ops = .ok km) (hs : km.hasScheduledEvents = false) (hup : ∀ i, keyDown i ops = false)
    (hc : km.ctx.capsWord.active = false) : bootKeyboardReport (cfg K refs S) km = .ok [0, 0, 0, 0, 0, 0, 0, 0] := by
  rcases C93_nothing_pressed_partial hN hk hm hops hh h hs hup with h | ⟨h, _⟩
  · unfold bootKeyboardReport; rw [h]; rfl
  · rw [hc] at h; cases h

end

/-! ## A keymap with caps-word and a tap-hold key -/

namespace Demo

def K : Keys where
  automation := [⟨⟨0, 3⟩, ⟨0, 0⟩, ⟨0, 0⟩⟩]
  tapHold := [⟨.keyboard (.keyCode 30), .keyboard (.keyCode 0xE1)⟩]
def config (is : List Automation.Instruction) : Comp.Config where
  automation := ⟨is, 10⟩
  chorded := ⟨200, [], none, 0, 0⟩
  sticky := .onModifiedKeyRelease
  tapDance := ⟨200⟩
  tapHold := ⟨200, .ignore, none⟩
  layerCount := 0
  maxChords := 0
def wait (k : Nat) : List Op := List.replicate k .tick

/-- The caps-word key is tapped, then A, then the tap-hold key for its tap, which is a digit, then Enter, which ends caps-word. -/
def refs : List Ref := [.capsWord, .keyboard (.keyCode 4), .tapHold 0, .keyboard (.keyCode 0x28)]
def C : Cfg Ref Comp.Ev Comp.Ctx PKS KS := cfg K refs Search.std
def tap (i : Nat) : List Op := [.input (.press i), .tick, .tick, .input (.release i), .tick, .tick]
def ops1 : List Op := tap 0 ++ tap 1 ++ tap 2 ++ wait 210
def ops2 : List Op := ops1 ++ tap 3

theorem noNesting (refs : List Ref) : Down.NoNesting K refs := by
  intro r _ r' _
  refine .inr fun c hc r2 hl => ?_
  have : ∃ u, c = .keyboard u := by
    cases hc with
    | @tap i k h => rcases i with _ | i <;> simp [K] at h; subst h; exact ⟨_, rfl⟩
    | @hold i k h => rcases i with _ | i <;> simp [K] at h; subst h; exact ⟨_, rfl⟩
    | @base i k h => simp [K] at h
    | @layer i k r h hm => simp [K] at h
    | @tapDance i k r h hm => simp [K] at h
    | @chord i k id r h hm => simp [K] at h
    | @passthrough i k h => simp [K] at h
    | @aux i r h => simp [K] at h
  obtain ⟨u, rfl⟩ := this
  cases hl with
  | refl => rfl
  | step c _ => cases c

def up (ops : List Op) : Bool := ops.all fun op => match op with
  | .input (.press i) | .input (.release i) => !keyDown i ops
  | .tick => true
  | _ => false

theorem up_spec {ops : List Op} (h : up ops = true) (i : Nat) : keyDown i ops = false := by
  have key : ∀ (l : List Op) (d : Bool), (∀ op ∈ l, ∀ x, op ≠ .inputAfter x (.press i)) → l.foldl (opDown i) d = true → d = true ∨ .input (.press i) ∈ l := by
    intro l
    induction l with
    | nil => intro d _ h; exact .inl h
    | cons op l ih =>
      intro d hn h
      rcases ih _ (fun o ho => hn o (by simp [ho])) h with h | h
      · cases op with
        | input ev =>
          cases ev with
          | press j =>
            by_cases e : j = i
            · subst e; exact .inr (by simp)
            · exact .inl (by simpa [opDown, evDown, e] using h)
          | release j => simp only [opDown, evDown] at h; split at h <;> simp_all
          | _ => exact .inl h
        | inputAfter x ev =>
          cases ev with
          | press j =>
            by_cases e : j = i
            · subst e; exact absurd rfl (hn _ (by simp) x)
            · exact .inl (by simpa [opDown, evDown, e] using h)
          | release j => simp only [opDown, evDown] at h; split at h <;> simp_all
          | _ => exact .inl h
        | init => cases h
        | _ => exact .inl h
      · exact .inr (by simp [h])
  unfold up at h
  rw [List.all_eq_true] at h
  cases hd : keyDown i ops with
  | false => rfl
  | true =>
    rcases key ops false (fun op ho x e => by subst e; have := h _ ho; simp at this) hd with h' | h'
    · cases h'
    · have := h _ h'
      simp [hd] at this

/-- What is to be known of a run: whether something is scheduled, whether caps-word is active, and what is pressed. -/
def result (C : Cfg Ref Comp.Ev Comp.Ctx PKS KS) (is : List Automation.Instruction) (ops : List Op) : Res (Bool × Bool × Res (List KeyOutput)) :=
  (fun km => (km.hasScheduledEvents, km.ctx.capsWord.active, km.pressedKeys C)) <$> run C 30 (KM.new (Comp.Ctx.fromConfig (config is))) ops

/-- While caps-word is active, its shift is left; the hypotheses of C93 are met. -/
example : (K.sticky = [] ∧ Down.NoNesting K refs ∧ (∀ i ∈ (config [.wait 5]).automation.instructions, waits i = true)) ∧ (∀ op ∈ ops1, keysOnly op = true) ∧
    heard C 30 (KM.new (Comp.Ctx.fromConfig (config [.wait 5]))) ops1 = true ∧ (∀ i, keyDown i ops1 = false) ∧
    result C [.wait 5] ops1 = .ok (false, true, .ok [CapsWord.shift]) :=
  ⟨⟨rfl, noNesting _, by decide⟩, by decide +kernel, by decide +kernel, up_spec (by decide +kernel), by decide +kernel⟩

/-- And after the Enter that ends it, nothing. -/
example : (∀ op ∈ ops2, keysOnly op = true) ∧ heard C 30 (KM.new (Comp.Ctx.fromConfig (config [.wait 5]))) ops2 = true ∧ (∀ i, keyDown i ops2 = false) ∧
    result C [.wait 5] ops2 = .ok (false, false, .ok []) :=
  ⟨by decide +kernel, by decide +kernel, up_spec (by decide +kernel), by decide +kernel⟩

/-- A macro that types three letters, with a plain key and the caps-word key. -/
def abc : List Automation.Instruction := [.tap (KeyOutput.fromKeyCode 4), .tap (KeyOutput.fromKeyCode 5), .tap (KeyOutput.fromKeyCode 6)]
def plainRefs : List Ref := [.automation 0, .keyboard (.keyCode 7), .capsWord]
def ops3 : List Op := tap 0 ++ tap 2 ++ tap 1 ++ wait 5 ++ tap 2 ++ wait 30

/-- While the macro runs, virtual keys are pressed; in the end, nothing is. The hypotheses of C93 are met. -/
example : (∀ i ∈ abc, taps i = true) ∧ (∀ r ∈ plainRefs, Decided K r) ∧ (∀ op ∈ ops3, keysOnly op = true) ∧
    heard (cfg K plainRefs Search.std) 30 (KM.new (Comp.Ctx.fromConfig (config abc))) ops3 = true ∧ (∀ i, keyDown i ops3 = false) ∧
    result (cfg K plainRefs Search.std) abc (ops3.take 18) = .ok (true, true, .ok [CapsWord.shift, KeyOutput.fromKeyCode 5]) ∧
    result (cfg K plainRefs Search.std) abc ops3 = .ok (false, false, .ok []) := by
  refine ⟨by decide, ?_, by decide +kernel, by decide +kernel, up_spec (by decide +kernel), by decide +kernel, by decide +kernel⟩
  intro r hr r' hl
  simp only [plainRefs, List.mem_cons, List.not_mem_nil, or_false] at hr
  rcases hr with rfl | rfl | rfl <;> (cases hl with | refl => rfl | step c _ => cases c)

/-! ## Where C93 is false -/

/-- The same macro, in a keymap with a tap-hold key. -/
def mixedRefs : List Ref := [.automation 0, .tapHold 0]
/-- The macro key is tapped; 3 ms later the tap-hold key is pressed, and released after 15 ms. -/
def ops4 : List Op := [.input (.press 0)] ++ wait 2 ++ [.input (.release 0)] ++ wait 3 ++ [.input (.press 1)] ++ wait 15 ++ [.input (.release 1)] ++ wait 210

/-- A macro that types nine letters. -/
def nine : List Automation.Instruction := (List.range 9).map fun i => .tap (KeyOutput.fromKeyCode (BitVec.ofNat 8 (4 + i)))
def K9 : Keys := { K with automation := [⟨⟨0, 9⟩, ⟨0, 0⟩, ⟨0, 0⟩⟩] }
/-- The macro key is tapped; 3 ms later the tap-hold key is pressed, and released after 85 ms. -/
def ops5 : List Op := [.input (.press 0)] ++ wait 2 ++ [.input (.release 0)] ++ wait 3 ++ [.input (.press 1)] ++ wait 85 ++ [.input (.release 1), .tick]

end Demo

set_option maxRecDepth 100000 in
/-- C93 is false of a macro next to a tap-hold key: with the default durations, tapping the tap-hold key for 15 ms while a macro types three letters leaves the second
letter pressed for ever. All keys are up, nothing is scheduled, and no caps-word is active; no input event was dropped. -/
theorem C93_stuck_refuted : Demo.K.sticky = [] ∧ Down.NoNesting Demo.K Demo.mixedRefs ∧ (∀ i ∈ Demo.abc, taps i = true) ∧ (∀ op ∈ Demo.ops4, keysOnly op = true) ∧
    heard (cfg Demo.K Demo.mixedRefs Search.std) 30 (KM.new (Comp.Ctx.fromConfig (Demo.config Demo.abc))) Demo.ops4 = true ∧ (∀ i, keyDown i Demo.ops4 = false) ∧
    ∃ km, run (cfg Demo.K Demo.mixedRefs Search.std) 30 (KM.new (Comp.Ctx.fromConfig (Demo.config Demo.abc))) Demo.ops4 = .ok km ∧ km.hasScheduledEvents = false ∧
      km.ctx.capsWord.active = false ∧ km.pressedKeys (cfg Demo.K Demo.mixedRefs Search.std) = .ok [KeyOutput.fromKeyCode 5] := by
  refine ⟨rfl, Demo.noNesting _, by decide, by decide +kernel, by decide +kernel, Demo.up_spec (by decide +kernel), ?_⟩
  have h : Demo.result (cfg Demo.K Demo.mixedRefs Search.std) Demo.abc Demo.ops4 = .ok (false, false, .ok [KeyOutput.fromKeyCode 5]) := by decide +kernel
  obtain ⟨km, h1, h2⟩ := Res.map_eq_ok.1 h
  simp only [Prod.mk.injEq] at h2
  exact ⟨km, h1, h2.1, h2.2.1, h2.2.2⟩

set_option maxRecDepth 100000 in
/-- C63, a way a buffer fills in ordinary use: a tap-hold key held for 85 ms while a macro types nine letters stops the keyboard. The events of the macro fill the queue of
the undecided key, so that the release of the key does not fit. -/
theorem C63_macro_stops_keyboard : (Demo.result (cfg Demo.K9 Demo.mixedRefs Search.std) Demo.nine Demo.ops5) = .panic .capacity := by decide +kernel

end Verif.Nothing
