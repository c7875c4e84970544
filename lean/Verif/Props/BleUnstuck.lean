import Verif.Lemmas.BleUnstuck
import Verif.Props.Nothing
import Verif.Props.Unstuck

/-! # C97: when a ch58x keyboard sleeps and its keymap is at rest, the host takes no key for pressed -/

namespace Verif.Ble

open Comp
open Hid (On keyPage reading bleMap bleBytes)
open _root_.Verif.Spec (keyDown)

section

variable {K : Keys} {refs : List Ref} {S : Search} {c : Comp.Config} {row : Nat → Nat} {rows : Nat}

/-- After the history `is` a ch58x keyboard of `count` keys has nothing left to do. No switch moved in the moment in which it went to sleep, the stack accepted
every report, and no key event was dropped. -/
structure Sleeps (K : Keys) (refs : List Ref) (S : Search) (n : Nat) (row : Nat → Nat) (rows : Nat) (c : Comp.Config) (count : Nat)
    (is : List Input) (s : CState) : Prop where
  size : count ≤ 255
  pins : ∀ i < count, row i < rows
  moves : ∀ cl, Input.move cl ∈ is → cl.length = count
  accepted : Accepted is
  undisturbed : undisturbed ⟨Comp.system K, refs, S⟩ n row rows (State.new count (KM.new (Ctx.fromConfig c))) is = true
  hears : hears ⟨Comp.system K, refs, S⟩ n row rows (State.new count (KM.new (Ctx.fromConfig c))) is = true
  runs : (State.new count (KM.new (Ctx.fromConfig c))).run ⟨Comp.system K, refs, S⟩ n row rows is = .ok s
  idle : s.pc = .idle
  nothing : ∀ t, ¬ Pending t s

/-- The first call of the firmware. -/
theorem heeds_new {C : Cfg Ref Ev Ctx PKS KS} {n count : Nat} {ctx : Ctx} :
    Heeds C n (KM.new ctx) (State.new count (KM.new ctx)) [.setMsPerTick 8] := by
  refine ⟨rfl, rfl, by intro op ho; simp at ho; subst ho; rfl, fun k hk => ?_, fun _ _ => rfl, ?_, [], 0, rfl, ?_⟩
  · simp only [State.new, List.getElem_replicate]; rfl
  · constructor <;> rfl
  · show zero.update [] = .ok zero
    decide

/-- What the host reads off a report of nothing but the shift of caps-word. -/
theorem reads_shift {outs : List KeyOutput} (h : ∀ o ∈ outs, o = CapsWord.shift) (hl : outs.length ≤ 16) {rep : CApi.HidReport}
    (hu : zero.update outs = .ok rep) :
    ∃ r, reading bleMap (bleBytes (.keyboard rep.keyboard)).1 (bleBytes (.keyboard rep.keyboard)).2 = some r ∧
      ∀ p u, 1 ≤ u → On r (p, u) → p = keyPage ∧ u = 0xE1 ∧ CapsWord.shift ∈ outs := by
  have husage : CapsWord.shift.usage = .keyboard 0 := by decide
  obtain ⟨r, h1, h2⟩ := showsBle (fun o hm => by
    rw [h o hm]; intro k hk; rw [husage] at hk; cases hk; decide) hl hu
  have hcodes : Keyboard.codes outs = [] := by
    rw [Keyboard.codes, List.filterMap_eq_nil_iff]
    intro o hm; rw [h o hm, husage]; rfl
  refine ⟨r, h1, fun p u hu ho => ?_⟩
  obtain ⟨rfl, hx | hx⟩ := h2.only p u ho
  · have := (h2.keys (BitVec.ofNat 8 u) (fun h0 => by have := congrArg BitVec.toNat h0; simp at this; omega) (by simp; omega)).1
      (by rw [BitVec.toNat_ofNat, Nat.mod_eq_of_lt (by omega)]; exact ho)
    rw [hcodes] at this
    simp at this
  · obtain ⟨o, ho, hb⟩ := (h2.modifiers (u - 0xE0) (by omega)).1 (by rw [show 0xE0 + (u - 0xE0) = u by omega]; exact ho)
    have he := h o ho
    subst he
    refine ⟨rfl, ?_, ho⟩
    have key : ∀ i, i < 8 → CapsWord.shift.mods.getLsbD i = true → i = 1 := by decide
    have := key _ (by omega) hb
    omega

/-- C97. Also with tap-hold keys, tap-dances, chords, layers and macros: when a ch58x keyboard has nothing left to do, then all its switches are open; and if
the keymap has nothing scheduled, the host takes no key for pressed, except the left shift key while caps-word is active, and its last reports of consumer
controls and of the mouse say that nothing is pressed.

In keymaps without sticky modifiers, in which undecided keys do not become undecided keys, and in which macros tap keys and wait (or only wait, if some key
may have to wait for a decision): for the others the claim is false of the keymap already, see C93. The keyboard may sleep while the keymap has something
scheduled, and then the claim is false: `C74_asleep_refuted`. -/
theorem C97_at_rest_partial (hN : Down.NoNesting K refs) (hk : K.sticky = [])
    (hm : (∀ i ∈ c.automation.instructions, Nothing.waits i = true) ∨
      ((∀ i ∈ c.automation.instructions, Nothing.taps i = true) ∧ ∀ r ∈ refs, Decided K r))
    {n count : Nat} {is : List Input} {s : CState} (h : Sleeps K refs S n row rows c count is s) :
    closedAfter (List.replicate count false) is = List.replicate count false ∧
    (s.km.hasScheduledEvents = false →
      (∃ r, hostPressed s = some r ∧ ∀ p u, 1 ≤ u → On r (p, u) → p = keyPage ∧ u = 0xE1 ∧ s.km.ctx.capsWord.active = true) ∧
        lastMouse s = MouseOutput.none ∧ lastConsumer s = List.replicate 4 0) := by
  obtain ⟨p, hat, ht⟩ := track_run h.size h.pins (at_new count _) (track_new count _) h.undisturbed h.moves h.runs
  have hirq : s.irq = true := by
    cases p with
    | asleep => exact hat.1
    | waking => exact absurd (.inl hat.2.2.2.1) (h.nothing .wake)
    | scan => exact absurd hat.2.2.2.2.1 (h.nothing .scan)
    | tick => exact absurd hat.2.2.2.2.2.1 (h.nothing .tick)
    | arming => have := hat.2.2.1; rw [h.idle] at this; cases this
  obtain ⟨hclosed, hdeb⟩ := ht.quiet (.inl hirq)
  have hcl : s.closed = closedAfter (List.replicate count false) is := closed_run h.runs
  refine ⟨by rw [← hcl]; exact hclosed, fun hs => ?_⟩
  obtain ⟨ops, hh⟩ := Heeds.run_all heeds_new h.hears h.runs
  have hup : ∀ i, keyDown i ops = false := by
    intro i
    by_cases hlt : i < s.matrix.debounced.length
    · rw [hh.down i hlt]
      have hall : ∀ b ∈ s.matrix.debounced, b = false := by
        rw [hdeb, hclosed]; intro b hb; exact (List.mem_replicate.1 hb).2
      exact hall _ (List.getElem_mem hlt)
    · exact hh.other i (by omega)
  obtain ⟨_, outs, m, p1, p2⟩ := hh.shown
  have hout : outs = [] ∨ (s.km.ctx.capsWord.active = true ∧ outs = [CapsWord.shift]) := by
    rcases Nothing.C93_nothing_pressed_partial hN hk hm hh.keys hh.heard hh.run hs hup with h | ⟨h1, h2⟩
    · rw [show s.km.pressedKeys (cfg K refs S) = .ok outs from p1] at h; exact .inl (Res.ok.inj h)
    · rw [show s.km.pressedKeys (cfg K refs S) = .ok outs from p1] at h2; exact .inr ⟨h1, Res.ok.inj h2⟩
  have htake : outs.take m = [] ∨ (s.km.ctx.capsWord.active = true ∧ outs.take m = [CapsWord.shift]) := by
    rcases hout with rfl | ⟨h, rfl⟩
    · simp
    · cases m with
      | zero => exact .inl rfl
      | succ m => exact .inr ⟨h, by simp⟩
  have htold := told_run (told_new count (KM.new (Ctx.fromConfig c))) h.runs
  have hdue := due_run (fun _ => due_new count (KM.new (Ctx.fromConfig c))) h.accepted h.runs h.idle
  have l1 : lastKeyboard s = s.report.keyboard := by
    rw [hdue.keyboard.resolve_right (h.nothing _)]; exact getLastD_of htold.lastKeyboard
  have l2 : lastMouse s = s.report.mouse := by
    rw [hdue.mouse.resolve_right (h.nothing _)]; exact getLastD_of htold.lastMouse
  have l3 : lastConsumer s = s.report.consumer := by
    rw [hdue.consumer.resolve_right (h.nothing _)]; exact getLastD_of htold.lastConsumer
  obtain ⟨r, q1, q2⟩ := reads_shift (fun o ho => by
    rcases htake with h | ⟨_, h⟩ <;> rw [h] at ho <;> simp at ho; exact ho) (by rcases htake with h | ⟨_, h⟩ <;> rw [h] <;> simp) p2
  refine ⟨⟨r, by rw [hostPressed, l1]; exact q1, fun p u hu ho => ?_⟩, ?_⟩
  · obtain ⟨a1, a2, a3⟩ := q2 p u hu ho
    refine ⟨a1, a2, ?_⟩
    rcases htake with h | ⟨h, _⟩
    · rw [h] at a3; cases a3
    · exact h
  · rw [l2, l3]
    rcases htake with h | ⟨_, h⟩ <;> rw [h] at p2
    · rw [show zero.update [] = .ok zero by decide] at p2; rw [← Res.ok.inj p2]; exact ⟨rfl, rfl⟩
    · have : (fun r : CApi.HidReport => (r.mouse, r.consumer)) <$> zero.update [CapsWord.shift] = .ok (MouseOutput.none, List.replicate 4 0) := by decide
      obtain ⟨r', h1, h2⟩ := Res.map_eq_ok.1 this
      rw [p2] at h1; cases h1
      exact ⟨(Prod.mk.inj h2).1, (Prod.mk.inj h2).2⟩

end

namespace RestDemo

open Nothing.Demo (K refs noNesting)
open Unstuck.Demo (quick)

/-- The switches move, and stay so for some rounds. -/
def hold (cl : List Bool) (k : Nat) : List Input := .move cl :: (List.replicate k round).flatten

/-- The caps-word key is tapped, then the tap-hold key, then A. -/
def typing : List Input := hold [true, false, false, false] 2 ++ hold [false, false, false, false] 2 ++ hold [false, false, true, false] 2 ++
  hold [false, false, false, false] 1 ++ hold [false, true, false, false] 6 ++ hold [false, false, false, false] 6

/-- The tap-hold key is held, and A with it. -/
def holding : List Input := hold [false, false, true, false] 6 ++ hold [false, true, true, false] 3 ++ hold [false, false, false, false] 6

def start : CState := State.new 4 (KM.new (Ctx.fromConfig quick))

def ends (caps : Bool) (is : List Input) : Bool :=
  undisturbed ⟨Comp.system K, refs, Search.std⟩ 30 id 4 start is && hears ⟨Comp.system K, refs, Search.std⟩ 30 id 4 start is &&
    match start.run ⟨Comp.system K, refs, Search.std⟩ 30 id 4 is with
    | .ok s => decide (s.pc = .idle ∧ s.events = [] ∧ s.timers = []) && !s.km.hasScheduledEvents && s.km.ctx.capsWord.active == caps &&
        (keyboards s.sent).any (· ≠ [2, 0, 0, 0, 0, 0, 0, 0])
    | _ => false

theorem moves_hold {cl : List Bool} (h : cl.length = 4) {k : Nat} : ∀ cl', Input.move cl' ∈ hold cl k → cl'.length = 4 := by
  intro cl' hm
  rcases List.mem_cons.1 hm with hm | hm
  · cases hm; exact h
  · obtain ⟨l, h1, h2⟩ := List.mem_flatten.1 hm
    rw [(List.mem_replicate.1 h1).2] at h2
    simp [round] at h2

theorem accepted_hold {cl : List Bool} {k : Nat} : Accepted (hold cl k) := by
  intro ok hm
  rcases List.mem_cons.1 hm with hm | hm
  · cases hm
  · exact accepted_rounds k ok hm

theorem sleeps {caps : Bool} {is : List Input} (h1 : ends caps is = true) (h2 : ∀ cl, Input.move cl ∈ is → cl.length = 4) (h3 : Accepted is) :
    ∃ s, Sleeps K refs Search.std 30 id 4 quick 4 is s ∧ s.km.hasScheduledEvents = false ∧ s.km.ctx.capsWord.active = caps := by
  rw [ends, Bool.and_eq_true, Bool.and_eq_true] at h1
  obtain ⟨⟨hu, hh⟩, h1⟩ := h1
  split at h1
  · next s hs =>
    simp only [Bool.and_eq_true, Bool.not_eq_true', beq_iff_eq, decide_eq_true_eq] at h1
    obtain ⟨⟨⟨⟨e1, e2, e3⟩, e4⟩, e5⟩, _⟩ := h1
    refine ⟨s, ⟨by decide, fun i hi => hi, h2, h3, hu, hh, hs, e1, fun t => ?_⟩, e4, e5⟩
    simp [Pending, e2, e3]
  · cases h1

set_option maxRecDepth 100000 in
theorem typing_ends : ends true typing = true := by decide +kernel

set_option maxRecDepth 100000 in
theorem holding_ends : ends false holding = true := by decide +kernel

theorem waits : ∀ i ∈ quick.automation.instructions, Nothing.waits i = true := by decide

/-- While caps-word is active: the host takes at most the shift key for pressed. -/
example : ∃ s r, Sleeps K refs Search.std 30 id 4 quick 4 typing s ∧ hostPressed s = some r ∧ ∀ p u, 1 ≤ u → On r (p, u) → p = keyPage ∧ u = 0xE1 := by
  obtain ⟨s, h1, h2, h3⟩ := sleeps typing_ends
    (fun cl hm => by simp only [typing, List.mem_append] at hm; rcases hm with ((((hm | hm) | hm) | hm) | hm) | hm <;> exact moves_hold rfl _ hm)
    (by intro ok hm; simp only [typing, List.mem_append] at hm; rcases hm with ((((hm | hm) | hm) | hm) | hm) | hm <;> exact accepted_hold ok hm)
  obtain ⟨r, q1, q2⟩ := ((C97_at_rest_partial (noNesting refs) rfl (.inl waits) h1).2 h2).1
  exact ⟨s, r, h1, q1, fun p u hu ho => ⟨(q2 p u hu ho).1, (q2 p u hu ho).2.1⟩⟩

/-- Without it: nothing at all. -/
example : ∃ s r, Sleeps K refs Search.std 30 id 4 quick 4 holding s ∧ hostPressed s = some r ∧ ∀ p u, 1 ≤ u → ¬ On r (p, u) := by
  obtain ⟨s, h1, h2, h3⟩ := sleeps holding_ends
    (fun cl hm => by simp only [holding, List.mem_append] at hm; rcases hm with (hm | hm) | hm <;> exact moves_hold rfl _ hm)
    (by intro ok hm; simp only [holding, List.mem_append] at hm; rcases hm with (hm | hm) | hm <;> exact accepted_hold ok hm)
  obtain ⟨r, q1, q2⟩ := ((C97_at_rest_partial (noNesting refs) rfl (.inl waits) h1).2 h2).1
  refine ⟨s, r, h1, q1, fun p u hu ho => ?_⟩
  have := (q2 p u hu ho).2.2
  rw [h3] at this
  cases this

end RestDemo

end Verif.Ble
