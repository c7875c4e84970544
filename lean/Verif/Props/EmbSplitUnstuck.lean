import Verif.Props.EmbSplit
import Verif.Props.RticSplitUnstuck

/-! # C98, embassy: when all switches of both halves are open, before long the last report is the one of no key -/

namespace Verif.EmbSplit

open Verif.Rtic
open Comp
open Verif.Keyboard (Within input_holds start)
open _root_.Verif.Spec (evDown opDown keyDown)
open Unstuck (run_app heard_app report_take evDown_changed)
open Verif.RticSplit (Msg advance_ok holds_within Merge Apart merge_held stable_of_last)

section

variable {R Ev Ctx PKS KS : Type} {C : Cfg R Ev Ctx PKS KS} {n : Nat} {indices : List (List (Option Nat))}

/-- The calls made so far. -/
structure Called (C : Cfg R Ev Ctx PKS KS) (n : Nat) (km0 : KM R Ev Ctx PKS KS) (s : Left R Ev Ctx PKS KS) (ops : List Op) : Prop where
  run : Verif.run C n km0 ops = .ok s.backend.km
  heard : Verif.heard C n km0 ops = true
  keys : ∀ op ∈ ops, Nothing.keysOnly op = true
  plain : ∀ op ∈ ops, (∃ e, op = .input e) ∨ op = .tick ∨ op = .report
  down : ∀ i, keyDown i ops = s.heard.foldl (evDown i) false

theorem Called.same {km0 : KM R Ev Ctx PKS KS} {s s' : Left R Ev Ctx PKS KS} {ops : List Op} (h : Called C n km0 s ops)
    (h1 : s'.backend.km = s.backend.km) (h2 : s'.heard = s.heard) : Called C n km0 s' ops :=
  ⟨by rw [h1]; exact h.run, h.heard, h.keys, h.plain, by rw [h2]; exact h.down⟩

theorem Called.advance {km0 : KM R Ev Ctx PKS KS} {s s' : Left R Ev Ctx PKS KS} {ops : List Op} (h : Called C n km0 s ops) {core : Core R Ev Ctx PKS KS}
    (ha : RticSplit.advance C n s.toCore = .ok core) (h1 : s'.backend = core.backend) (h2 : s'.heard = s.heard) : ∃ ops', Called C n km0 s' ops' := by
  rcases advance_ok ha with ⟨_, km1, os, b1, b2, b3, _⟩ | ⟨_, rfl⟩
  · have hrun : Verif.run C n s.backend.km [.tick, .report] = .ok s'.backend.km := by
      simp only [Verif.run, Verif.step, b1, Res.ok_bind, reportOutput, b2, h1, b3]
      rfl
    refine ⟨ops ++ [.tick, .report], by rw [run_app, h.run]; exact hrun, heard_app h.heard h.run ?_, fun op ho => ?_, fun op ho => ?_, fun i => ?_⟩
    · simp only [Verif.heard, Bool.true_and, Verif.step, b1, reportOutput, b2]
      rfl
    · rcases List.mem_append.1 ho with ho | ho
      · exact h.keys op ho
      · simp at ho; rcases ho with rfl | rfl <;> rfl
    · rcases List.mem_append.1 ho with ho | ho
      · exact h.plain op ho
      · simp at ho; exact .inr ho
    · rw [h2, ← h.down i, keyDown, List.foldl_append]; rfl
  · exact ⟨ops, h.same (by rw [h1]) h2⟩

theorem Called.event {km0 : KM R Ev Ctx PKS KS} {s s' : Left R Ev Ctx PKS KS} {ops : List Op} (h : Called C n km0 s ops) {e : InputEvent}
    (he : Comp.isPhysical e = true) (hroom : s.backend.km.inq.length < 31) (h1 : s.backend.event C n e = .ok s'.backend) (h2 : s'.heard = s.heard ++ [e]) :
    Called C n km0 s' (ops ++ [.input e]) := by
  obtain ⟨km, g1, g2⟩ := Res.bind_eq_ok.1 h1
  have hk : s'.backend.km = km := by rw [← Res.ok.inj g2]
  refine ⟨?_, heard_app h.heard h.run ?_, fun op ho => ?_, fun op ho => ?_, fun i => ?_⟩
  · rw [run_app, h.run, hk]
    show Verif.run C n s.backend.km [.input e] = .ok km
    exact Res.bind_eq_ok.2 ⟨km, g1, rfl⟩
  · simp only [Verif.heard, Verif.step, g1, hroom, decide_true, Bool.true_and]
  · rcases List.mem_append.1 ho with ho | ho
    · exact h.keys op ho
    · simp at ho; subst ho; cases e <;> first | rfl | cases he
  · rcases List.mem_append.1 ho with ho | ho
    · exact h.plain op ho
    · simp at ho; exact .inl ⟨e, ho⟩
  · rw [h2, keyDown, List.foldl_append, List.foldl_append, ← h.down i]; rfl

theorem Called.new (rows cols : Nat) (km : KM R Ev Ctx PKS KS) : Called C n km (Left.new rows cols km) [] :=
  ⟨rfl, rfl, (fun _ h => by cases h), (fun _ h => by cases h), fun _ => rfl⟩

/-- After `k` ticks of the keymap in which no key event came and the keyboard reports were written. -/
structure Calm (C : Cfg R Ev Ctx PKS KS) (n : Nat) (km : KM R Ev Ctx PKS KS) (k : Nat) (s : Left R Ev Ctx PKS KS) : Prop where
  paced : Rest.Paced C n k km s.backend.km
  success : 1 ≤ k → s.success = true
  report : 1 ≤ k → ∃ outs m, s.backend.km.pressedKeys C = .ok outs ∧ s.backend.out = outs.take m
  sent : 1 ≤ k → s.keyboards.getLast? = some s.backend.out.asBootReport

theorem Calm.run {km : KM R Ev Ctx PKS KS} {is : List Input} : ∀ {k : Nat} {s s' : Left R Ev Ctx PKS KS},
    Calm C n km k s → (∀ a b c, .handle a b c ∈ is → a = true) → s.run C n indices is = .ok s' → s'.heard = s.heard →
    ∃ k', k + s'.made.length = k' + s.made.length ∧ Calm C n km k' s' := by
  induction is with
  | nil => intro k s s' h _ hr _; cases hr; exact ⟨k, by omega, h⟩
  | cons i is ih =>
    intro k s s' h hl hr hh
    obtain ⟨s1, g1, g2⟩ := Res.bind_eq_ok.1 hr
    have hh1 : s1.heard = s.heard := by
      have p1 : s.heard <+: s1.heard := heard_prefix (is := [i]) (Res.bind_eq_ok.2 ⟨s1, g1, rfl⟩)
      have p2 := heard_prefix g2
      rw [hh] at p2
      exact (p2.eq_of_length (Nat.le_antisymm p2.length_le p1.length_le))
    have hnext : ∃ k1, k + s1.made.length = k1 + s.made.length ∧ Calm C n km k1 s1 := by
      cases effect g1 with
      | none h1 h2 h3 h4 h5 =>
        refine ⟨k, by rw [h3], by rw [h1]; exact h.paced, fun hk => by rw [h2]; exact h.success hk, ?_, ?_⟩
        · rw [h1]; exact h.report
        · rw [h1, h4]; exact h.sent
      | event _ _ _ _ _ h5 =>
        rw [hh1] at h5
        have := congrArg List.length h5
        simp at this
      | @report a _ _ core q0 h0 h1 h2 h3 h4 h5 h6 =>
        have hw := hl _ _ _ (List.mem_cons_self ..)
        subst hw
        have hsent : s1.keyboards.getLast? = some s1.backend.out.asBootReport := by rw [h4, h6]; simp
        rcases advance_ok h1 with ⟨_, km1, os, b1, b2, b3, b4, b5⟩ | ⟨b1, b2⟩
        · refine ⟨k + 1, by rw [h3, b5]; simp; omega, ?_, fun _ => h2, fun _ => ?_, fun _ => hsent⟩
          · rw [h6, b3]; exact h.paced.snoc _ b1
          · obtain ⟨m, hm⟩ := report_take km1.rep os
            exact ⟨os, m, by rw [h6, b3]; exact b2, by rw [h6, b4, hm]⟩
        · by_cases hk : 1 ≤ k
          · rw [h.success hk] at b1; cases b1
          · refine ⟨k, by rw [h3, b2], by rw [h6, b2]; exact h.paced, fun _ => h2, ?_, ?_⟩
            all_goals intro hk'; omega
    obtain ⟨k1, e1, e3⟩ := hnext
    obtain ⟨k2, f1, f2⟩ := ih e3 (fun a b c hm => hl a b c (List.mem_cons_of_mem _ hm)) g2 (by rw [hh, hh1])
    exact ⟨k2, by omega, f2⟩

end

section

variable {K : Keys} {refs : List Ref} {S : Search} {c : Comp.Config} {n rows cols rows' cols' : Nat} {indices indices' : List (List (Option Nat))}

theorem Called.run_all {km0 : KM Ref Comp.Ev Comp.Ctx PKS KS} {is : List Input} : ∀ {s s' : CLeft} {ops : List Op}, Physical s → Called ⟨Comp.system K, refs, S⟩ (n + 2) km0 s ops →
    Roomy ⟨Comp.system K, refs, S⟩ (n + 2) indices s is → s.run ⟨Comp.system K, refs, S⟩ (n + 2) indices is = .ok s' →
    ∃ ops', Called ⟨Comp.system K, refs, S⟩ (n + 2) km0 s' ops' := by
  induction is with
  | nil => intro s s' ops _ h _ hr; cases hr; exact ⟨ops, h⟩
  | cons i is ih =>
    intro s s' ops hp h hro hr
    obtain ⟨s1, g1, g2⟩ := Res.bind_eq_ok.1 hr
    have hnext : ∃ ops1, Called ⟨Comp.system K, refs, S⟩ (n + 2) km0 s1 ops1 := by
      cases effect g1 with
      | none h1 _ _ _ h5 => exact ⟨ops, h.same (by rw [h1]) h5⟩
      | event h0 h1 _ _ _ h5 =>
        exact ⟨_, h.event (hp.1 _ (by rw [h0]; exact List.mem_cons_self ..)) (hro.1 ⟨_, _, _, rfl⟩ ⟨_, _, h0⟩) h1 h5⟩
      | report _ h1 _ _ _ h5 h6 => exact h.advance h1 h6 h5
    obtain ⟨ops1, h1⟩ := hnext
    exact ih (hp.step g1) h1 (hro.2 s1 g1) g2

/-- In `is` anything happens. Then, in `still`, no key event comes to the keymap and the keyboard reports are written. There is room in the keymap for each key event. -/
structure Waits (K : Keys) (refs : List Ref) (S : Search) (n : Nat) (c : Comp.Config) (rows cols : Nat)
    (indices : List (List (Option Nat))) (is still : List Input) (s0 s : CLeft) : Prop where
  before : (fresh rows cols c).run ⟨Comp.system K, refs, S⟩ (n + 2) indices is = .ok s0
  runs : s0.run ⟨Comp.system K, refs, S⟩ (n + 2) indices still = .ok s
  quiet : s.heard = s0.heard
  answers : ∀ keyboard mouse consumer, .handle keyboard mouse consumer ∈ still → keyboard = true
  roomy : Roomy ⟨Comp.system K, refs, S⟩ (n + 2) indices (fresh rows cols c) (is ++ still)

/-- The last keyboard report is the one of no key, or of left shift while caps-word is active. -/
def Free (s : CLeft) : Prop :=
  s.keyboards.getLast? = some [0, 0, 0, 0, 0, 0, 0, 0] ∨ (s.backend.km.ctx.capsWord.active = true ∧ s.keyboards.getLast? = some [2, 0, 0, 0, 0, 0, 0, 0])

/-- C98, the embassy firmware, at rest: when all the switches of both halves have been read open 26 times, no byte was lost and all key events have been handled, and the
keymap has ticked since and has nothing scheduled, then the last keyboard report is the one of no key, or of the left shift key while caps-word is active.

In keymaps without sticky modifiers, in which undecided keys do not become undecided keys, and in which macros tap keys and wait (or only wait, if some key
may have to wait for a decision): for the others the claim is false of the keymap already, see C93. -/
theorem C98_embassy_at_rest_partial {count : Nat} (hl : Laid rows cols count indices) (hl' : Laid rows' cols' count indices')
    (ha : Apart indices indices') (h128 : count ≤ 128) (hN : Down.NoNesting K refs) (hk : K.sticky = [])
    (hm : (∀ i ∈ c.automation.instructions, Nothing.waits i = true) ∨
      ((∀ i ∈ c.automation.instructions, Nothing.taps i = true) ∧ ∀ r ∈ refs, Decided K r))
    {is still : List Input} {raws : List Levels} {s0 s : CLeft} (h : Waits K refs S n c rows cols indices is still s0 s)
    (hlink : Linked K refs S n c rows cols rows' cols' indices indices' (is ++ still) raws s (allOpen rows cols) (allOpen rows' cols'))
    (hle : s0.made.length + 1 ≤ s.made.length) (hs : s.backend.km.hasScheduledEvents = false) : Free s := by
  have hrun := run_append h.before h.runs
  obtain ⟨s', r1, r2⟩ := hlink.right
  have hmerge := (C92_halves (fun r c i hi => Nat.lt_of_lt_of_le (hl'.within r c i hi) h128) hrun hlink.attentive r1 (r2 ▸ List.prefix_refl _)).2
    r2 hlink.todo hlink.event hlink.queue
  have hb : (board count).length = count := List.length_replicate ..
  have hph : Physical (fresh rows cols c) := ⟨(fun e he => by cases he), (fun e he => by cases he)⟩
  obtain ⟨ops, called⟩ := Called.run_all (S := S) hph (Called.new rows cols _) h.roomy hrun
  have hup : ∀ i, keyDown i ops = false := by
    intro i
    rw [called.down i]
    have hw : ∀ e ∈ s.heard, Within (board count).length e := by
      intro e he
      rcases hmerge.mem he with he | he
      · exact moves_within (layout := board count) (by rw [hb]; exact hl) _ e he
      · exact moves_within (layout := board count) (by rw [hb]; exact hl') _ e he
    have h1 := holds_within i _ hw (start c)
    have h2 := merge_held (layout := board count) (by rw [hb]; exact hl) (by rw [hb]; exact hl') ha c hlink.sizes hlink.sizes' hmerge i
    rw [stable_of_last hlink.last, stable_of_last hlink.last', h1] at h2
    cases hv : s.heard.foldl (evDown i) false with
    | false => rfl
    | true =>
      rcases h2.1 hv with ⟨r, c, _, hx⟩ | ⟨r, c, _, hx⟩ <;> exact absurd hx (allOpen_entry _ _ _ _)
  obtain ⟨k, hk1, calm⟩ := Calm.run (km := s0.backend.km) (k := 0) ⟨.done _, fun h => by omega, fun h => by omega, fun h => by omega⟩
    h.answers h.runs h.quiet
  obtain ⟨outs, m, p1, p2⟩ := calm.report (by omega)
  unfold Free
  rw [calm.sent (by omega), p2]
  rcases Nothing.C93_nothing_pressed_partial hN hk hm called.keys called.heard called.run hs hup with h | ⟨h1, h2⟩
  · rw [show s.backend.km.pressedKeys (cfg K refs S) = .ok outs from p1] at h
    cases Res.ok.inj h
    exact .inl (by rw [List.take_nil]; decide)
  · rw [show s.backend.km.pressedKeys (cfg K refs S) = .ok outs from p1] at h2
    cases Res.ok.inj h2
    cases m with
    | zero => exact .inl (by rw [List.take_zero]; decide)
    | succ m => exact .inr ⟨h1, by rw [show [CapsWord.shift].take (m + 1) = [CapsWord.shift] by simp]; decide⟩

/-- C98, the embassy firmware. No key is stuck, also with tap-hold keys, tap-dances, chords, layers and macros: whatever happened before, when all the switches of both
halves are open, no byte was lost and all key events have been handled, then after some ticks of the keymap the last keyboard report is the one of no key, or of the
left shift key while caps-word is active.

In keymaps without sticky modifiers, in which no key refers back to itself, undecided keys do not become undecided keys, no macro is repeated, and the macros
tap keys and wait (or only wait, if some key may have to wait for a decision). -/
theorem C98_embassy_no_stuck_keys_partial {count : Nat} (hl : Laid rows cols count indices) (hl' : Laid rows' cols' count indices')
    (ha : Apart indices indices') (h128 : count ≤ 128) (hK : Acyclic K) (hw : ∀ k ∈ K.automation, k.whilePressed.length = 0)
    (hN : Down.NoNesting K refs) (hk : K.sticky = [])
    (hm : (∀ i ∈ c.automation.instructions, Nothing.waits i = true) ∨
      ((∀ i ∈ c.automation.instructions, Nothing.taps i = true) ∧ ∀ r ∈ refs, Decided K r)) (is : List Input) :
    ∃ N, ∀ {still : List Input} {raws : List Levels} {s0 s : CLeft}, Waits K refs S n c rows cols indices is still s0 s →
      Linked K refs S n c rows cols rows' cols' indices indices' (is ++ still) raws s (allOpen rows cols) (allOpen rows' cols') →
      s0.made.length + N ≤ s.made.length → Free s := by
  by_cases hex : ∃ s0, (fresh rows cols c).run ⟨Comp.system K, refs, S⟩ (n + 2) indices is = .ok s0
  · obtain ⟨s0, h0⟩ := hex
    have hT := Resting.tires (M := Resting.delays (Ctx.fromConfig c)) hK hw refs S
    refine ⟨1 + (Rest.pot (Resting.wt (Resting.delays (Ctx.fromConfig c))) (Resting.bound K (Resting.delays (Ctx.fromConfig c)) + 1) K.nested.length (rank K)
      (Resting.cpot (Resting.delays (Ctx.fromConfig c))) s0.backend.km + s0.backend.km.delay), ?_⟩
    intro still raws s0' s h hlink hle
    have heq : s0' = s0 := by have := h.before; rw [h0] at this; exact (Res.ok.inj this).symm
    subst heq
    refine C98_embassy_at_rest_partial hl hl' ha h128 hN hk hm h hlink (by omega) ?_
    have hph : Physical (fresh rows cols c) := ⟨(fun e he => by cases he), (fun e he => by cases he)⟩
    obtain ⟨ops0, called⟩ := Called.run_all (S := S) hph (Called.new rows cols _) (roomy_append h0 h.roomy).1 h0
    obtain ⟨k, hk1, calm⟩ := Calm.run (km := s0'.backend.km) (k := 0) ⟨.done _, fun h => by omega, fun h => by omega, fun h => by omega⟩
      h.answers h.runs h.quiet
    have hi : Rest.Inv (Resting.Good (Resting.delays (Ctx.fromConfig c))) s0'.backend.km := (Rest.inv_api hT).of_reachable
      ⟨⟨by simp [KM.new], (qinv_api NonPhys (emits_nonPhys K refs S)).of_reachable (QInv.new _ _) ⟨0, [], rfl⟩⟩,
        Resting.good_delays _, fun p hp => by simp [KM.new] at hp⟩ ⟨n + 2, ops0, called.run⟩
    have hms : s0'.backend.km.msPerTick = 1 := Unstuck.ms_run (QInv.new _ _) called.plain called.run
    exact calm.paced.rests hT hi (by rw [hms]; decide) (by omega)
  · refine ⟨0, ?_⟩
    intro still raws s0' s h hlink hle
    exact absurd ⟨_, h.before⟩ hex

end

/-! ## The halves of the demonstration of the RTIC firmware, with embassy -/

namespace UnstuckDemo

open Nothing.Demo (K refs)
open _root_.Verif.Unstuck.Demo (quick acyclic)
open _root_.Verif.EmbSplit.Demo (millis mem_millis bearRun bearRun_sound facts Facts)
open _root_.Verif.RticSplit.UnstuckDemo (C left right laid_left laid_right apart events)

/-- The tap-hold key is held; meanwhile A is tapped on the right half; writing fails for a while. -/
def first : List Input :=
  millis 60 [[false, true]] ++ [.byte 1, .byte 2, .byte 1, .byte 0, .deliver, .handle true true true] ++ millis 5 [[false, true]] ++
    [.byte 3, .byte 1, .byte 1, .byte 0, .deliver, .handle true true true, .timer [[false, false]], .go, .handle false true true] ++ millis 30 [[false, false]]

/-- Then nothing moves. -/
def still : List Input := millis 40 [[false, false]]

/-- The right half. -/
def other : List Levels := List.replicate 30 [[true, false]] ++ List.replicate 30 [[false, false]]

def run (is : List Input) : Option CLeft := bearRun C 32 left (board 4) (start quick) 1 2 (fresh 1 2 quick) is

/-- What matters of a left half. -/
def view (s : CLeft) : Facts × Bool × Bool × List (List Byte) :=
  (facts s, s.backend.km.hasScheduledEvents, s.backend.km.ctx.capsWord.active, s.keyboards.eraseDups)

set_option maxRecDepth 100000 in
theorem first_eq : (run first).map (fun s => (s.made.length, s.heard)) = some (95, events) := by decide +kernel

set_option maxRecDepth 100000 in
theorem all_eq : (run (first ++ still)).map view =
    some (⟨135, events, true, none, [], List.replicate 65 [[false, true]] ++ List.replicate 71 [[false, false]], some [0, 0, 0, 0, 0, 0, 0, 0]⟩, false, false,
      [[0, 0, 0, 0, 0, 0, 0, 0], [2, 0, 0, 0, 0, 0, 0, 0], [2, 0, 4, 0, 0, 0, 0, 0]]) := by decide +kernel

set_option maxRecDepth 100000 in
theorem other_eq : (fun s => s.tx) <$> (Right.new 1 2).run right other = .ok [1, 2, 1, 0, 3, 1, 1, 0] := by decide +kernel

set_option maxRecDepth 100000 in
/-- The hypotheses are met by this history: in the end nothing is pressed. -/
example : ∃ s0 s, Waits K refs Search.std 30 quick 1 2 left first still s0 s ∧
    Linked K refs Search.std 30 quick 1 2 1 2 left right (first ++ still) other s (allOpen 1 2) (allOpen 1 2) ∧
    s0.made.length + 40 ≤ s.made.length ∧ s.backend.km.hasScheduledEvents = false ∧ s.keyboards.getLast? = some [0, 0, 0, 0, 0, 0, 0, 0] ∧
    s.keyboards.eraseDups = [[0, 0, 0, 0, 0, 0, 0, 0], [2, 0, 0, 0, 0, 0, 0, 0], [2, 0, 4, 0, 0, 0, 0, 0]] := by
  obtain ⟨s0, a1, a2⟩ := Option.map_eq_some_iff.1 first_eq
  obtain ⟨s, b1, b2⟩ := Option.map_eq_some_iff.1 all_eq
  obtain ⟨s', c1, c2⟩ := Res.map_eq_ok.1 other_eq
  obtain ⟨a3, _, _, _⟩ := bearRun_sound _ a1
  obtain ⟨b3, _, b4, b5⟩ := bearRun_sound _ b1
  simp only [view, facts, Facts.mk.injEq, Option.isNone_iff_eq_none, Prod.mk.injEq] at a2 b2
  obtain ⟨⟨m1, m2, m3, m4, m5, m6, _⟩, m8, m9, m10⟩ := b2
  obtain ⟨s1, d1, d2⟩ := run_split b3
  rw [a3] at d1; cases d1
  have hw : Waits K refs Search.std 30 quick 1 2 left first still s0 s :=
    ⟨a3, d2, by rw [m2, a2.2], fun a b c hm => mem_millis hm, b5⟩
  have hlink : Linked K refs Search.std 30 quick 1 2 1 2 left right (first ++ still) other s (allOpen 1 2) (allOpen 1 2) := by
    refine ⟨b4, ⟨s', c1, by rw [c2]; decide +kernel⟩, m3, m4, m5, ?_, ?_, by rw [m6]; decide, by decide⟩
    · intro m hm
      rw [m6] at hm
      rcases List.mem_append.1 hm with hm | hm <;> rw [List.eq_of_mem_replicate hm] <;> exact ⟨rfl, by decide⟩
    · intro m hm
      rcases List.mem_append.1 hm with hm | hm <;> rw [List.eq_of_mem_replicate hm] <;> exact ⟨rfl, by decide⟩
  have hle : s0.made.length + 40 ≤ s.made.length := by rw [a2.1, m1]; decide
  refine ⟨s0, s, hw, hlink, hle, m8, ?_, m10⟩
  rcases C98_embassy_at_rest_partial laid_left laid_right apart (by decide) (Nothing.Demo.noNesting refs) rfl (.inl (by decide)) hw hlink (by omega) m8 with h | ⟨h, _⟩
  · exact h
  · rw [m9] at h; cases h

/-- The keymap meets the hypotheses of `C98_embassy_no_stuck_keys_partial`. -/
example (is : List Input) : ∃ N, ∀ {still : List Input} {raws : List Levels} {s0 s : CLeft}, Waits K refs Search.std 30 quick 1 2 left is still s0 s →
    Linked K refs Search.std 30 quick 1 2 1 2 left right (is ++ still) raws s (allOpen 1 2) (allOpen 1 2) →
    s0.made.length + N ≤ s.made.length → Free s :=
  C98_embassy_no_stuck_keys_partial laid_left laid_right apart (by decide) acyclic (by decide) (Nothing.Demo.noNesting refs) rfl (.inl (by decide)) is

end UnstuckDemo

end Verif.EmbSplit
