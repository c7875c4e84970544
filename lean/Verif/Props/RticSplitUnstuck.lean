import Verif.Props.RticSplit
import Verif.Props.RticUnstuck

/-! # C98: when all switches of both halves are open, before long the last report of a half is the one of no key -/

namespace Verif.RticSplit

open Verif.Rtic
open Comp
open Verif.Keyboard (Within input_holds start)
open _root_.Verif.Spec (evDown opDown keyDown)
open Unstuck (run_app heard_app report_take evDown_changed)

section

variable {R Ev Ctx PKS KS : Type} {C : Cfg R Ev Ctx PKS KS} {n : Nat} {indices : List (List (Option Nat))}

/-- The keymap at the message `Tick`: a tick and a report, if the last report has been taken. -/
theorem advance_ok {s s' : Core R Ev Ctx PKS KS} (h : advance C n s = .ok s') :
    (s.success = true ∧ ∃ km1 os, tick C n s.backend.km = .ok km1 ∧ km1.pressedKeys C = .ok os ∧ s'.backend.km = { km1 with rep := (km1.rep.report os).1 } ∧
      s'.backend.out = (km1.rep.report os).2 ∧ s'.made = s.made ++ [s'.backend.out]) ∨ (s.success = false ∧ s' = s) := by
  unfold advance at h
  split at h
  · next hs =>
    obtain ⟨⟨b, ch⟩, h1, h⟩ := Res.bind_eq_ok.1 h
    cases h
    obtain ⟨km1, os, b1, b2, b3, b4⟩ := backendTick_ok h1
    exact .inl ⟨hs, km1, os, b1, b2, b3, b4, rfl⟩
  · next hs => cases h; exact .inr ⟨by simpa using hs, rfl⟩

/-- The calls made so far. -/
structure Called (C : Cfg R Ev Ctx PKS KS) (n : Nat) (km0 : KM R Ev Ctx PKS KS) (s : Half R Ev Ctx PKS KS) (ops : List Op) : Prop where
  run : Verif.run C n km0 ops = .ok s.backend.km
  heard : Verif.heard C n km0 ops = true
  keys : ∀ op ∈ ops, Nothing.keysOnly op = true
  plain : ∀ op ∈ ops, (∃ e, op = .input e) ∨ op = .tick ∨ op = .report
  down : ∀ i, keyDown i ops = s.heard.foldl (evDown i) false

theorem Called.same {km0 : KM R Ev Ctx PKS KS} {s s' : Half R Ev Ctx PKS KS} {ops : List Op} (h : Called C n km0 s ops)
    (h1 : s'.backend.km = s.backend.km) (h2 : s'.heard = s.heard) : Called C n km0 s' ops :=
  ⟨by rw [h1]; exact h.run, h.heard, h.keys, h.plain, by rw [h2]; exact h.down⟩

theorem Called.advance {km0 : KM R Ev Ctx PKS KS} {s s' : Half R Ev Ctx PKS KS} {ops : List Op} (h : Called C n km0 s ops) {core : Core R Ev Ctx PKS KS}
    (ha : RticSplit.advance C n s.toCore = .ok core) (h1 : s'.backend = core.backend) (h2 : s'.heard = s.heard) : ∃ ops', Called C n km0 s' ops' := by
  rcases advance_ok ha with ⟨_, km1, os, b1, b2, b3, _⟩ | ⟨_, rfl⟩
  · have hrun : Verif.run C n s.backend.km [.tick, .report] = .ok s'.backend.km := by
      simp only [Verif.run, Verif.step, b1, Res.ok_bind, reportOutput, b2, h1, b3]
      rfl
    refine ⟨ops ++ [.tick, .report], by rw [run_app, h.run]; exact hrun, heard_app h.heard h.run ?_, fun op ho => ?_, fun op ho => ?_, fun i => ?_⟩
    · simp only [Verif.heard, Bool.true_and, Verif.step, b1, reportOutput, b2]
      rfl
    · rcases List.mem_append.1 ho with ho | ho
      · exact h.keys op ho
      · simp at ho; rcases ho with rfl | rfl <;> rfl
    · rcases List.mem_append.1 ho with ho | ho
      · exact h.plain op ho
      · simp at ho; exact .inr ho
    · rw [h2, ← h.down i, keyDown, List.foldl_append]; rfl
  · exact ⟨ops, h.same (by rw [h1]) h2⟩

theorem Called.event {km0 : KM R Ev Ctx PKS KS} {s s' : Half R Ev Ctx PKS KS} {ops : List Op} (h : Called C n km0 s ops) {e : InputEvent}
    (he : Comp.isPhysical e = true) (hroom : s.backend.km.inq.length < 31) (h1 : s.backend.event C n e = .ok s'.backend) (h2 : s'.heard = s.heard ++ [e]) :
    Called C n km0 s' (ops ++ [.input e]) := by
  obtain ⟨km, g1, g2⟩ := Res.bind_eq_ok.1 h1
  have hk : s'.backend.km = km := by rw [← Res.ok.inj g2]
  refine ⟨?_, heard_app h.heard h.run ?_, fun op ho => ?_, fun op ho => ?_, fun i => ?_⟩
  · rw [run_app, h.run, hk]
    show Verif.run C n s.backend.km [.input e] = .ok km
    exact Res.bind_eq_ok.2 ⟨km, g1, rfl⟩
  · simp only [Verif.heard, Verif.step, g1, hroom, decide_true, Bool.true_and]
  · rcases List.mem_append.1 ho with ho | ho
    · exact h.keys op ho
    · simp at ho; subst ho; cases e <;> first | rfl | cases he
  · rcases List.mem_append.1 ho with ho | ho
    · exact h.plain op ho
    · simp at ho; exact .inl ⟨e, ho⟩
  · rw [h2, keyDown, List.foldl_append, List.foldl_append, ← h.down i]; rfl

theorem Called.new (rows cols : Nat) (km : KM R Ev Ctx PKS KS) : Called C n km (Half.new rows cols km) [] :=
  ⟨rfl, rfl, (fun _ h => by cases h), (fun _ h => by cases h), fun _ => rfl⟩

/-- After `k` ticks of the keymap in which no key event came and the keyboard reports did not wait. -/
structure Calm {Rep : Type} (make : List Byte → Rep) (C : Cfg R Ev Ctx PKS KS) (n : Nat) (km : KM R Ev Ctx PKS KS) (k : Nat) (s : Half R Ev Ctx PKS KS) : Prop where
  paced : Rest.Paced C n k km s.backend.km
  success : 1 ≤ k → s.success = true
  report : 1 ≤ k → ∃ outs m, s.backend.km.pressedKeys C = .ok outs ∧ s.backend.out = outs.take m
  sent : 1 ≤ k → ∃ codes, s.backend.out.pressedKeyCodes = .ok codes ∧ s.sent.getLast?.map make = some (make codes)

theorem Calm.run {Rep : Type} {make : List Byte → Rep} {km : KM R Ev Ctx PKS KS} {is : List Input} : ∀ {k : Nat} {s s' : Half R Ev Ctx PKS KS},
    Calm make C n km k s → (∀ a b c d, .layout a b c d ∈ is → a = true ∧ b ≠ .wouldBlock) →
    Lawful C n indices make s is → s.run C n indices is = .ok s' → s'.heard = s.heard →
    ∃ k', k + s'.made.length = k' + s.made.length ∧ Calm make C n km k' s' := by
  induction is with
  | nil => intro k s s' h _ _ hr _; cases hr; exact ⟨k, by omega, h⟩
  | cons i is ih =>
    intro k s s' h hl hlaw hr hh
    obtain ⟨s1, g1, g2⟩ := Res.bind_eq_ok.1 hr
    have hh1 : s1.heard = s.heard := by
      have p1 : s.heard <+: s1.heard := heard_prefix (is := [i]) (Res.bind_eq_ok.2 ⟨s1, g1, rfl⟩)
      have p2 := heard_prefix g2
      rw [hh] at p2
      exact (p2.eq_of_length (Nat.le_antisymm p2.length_le p1.length_le))
    have hnext : ∃ k1, k + s1.made.length = k1 + s.made.length ∧ Calm make C n km k1 s1 := by
      cases effect g1 with
      | none h1 h2 h3 h4 h5 =>
        refine ⟨k, by rw [h3], by rw [h1]; exact h.paced, fun hk => by rw [h2]; exact h.success hk, ?_, ?_⟩
        · rw [h1]; exact h.report
        · rw [h1, h4]; exact h.sent
      | event _ _ _ _ _ h5 =>
        rw [hh1] at h5
        have := congrArg List.length h5
        simp at this
      | @report b _ _ core codes q0 h0 h1 h2 h3 h4 h5 h6 h7 h8 =>
        obtain ⟨_, hw⟩ := hl _ _ _ _ (List.mem_cons_self ..)
        have hsucc : s1.success = true := by rw [h2]; simpa using hw
        have hsent : ∃ codes, s1.backend.out.pressedKeyCodes = .ok codes ∧ s1.sent.getLast?.map make = some (make codes) := by
          refine ⟨codes, by rw [h7]; exact h4, ?_⟩
          rw [h5]
          cases b with
          | ok => simp
          | duplicate => rw [if_neg (by simp)]; exact hlaw.1 ⟨_, _, rfl⟩ ⟨_, h0⟩ core codes h1 h4
          | wouldBlock => exact absurd rfl hw
          | error => exact absurd rfl h8
        rcases advance_ok h1 with ⟨_, km1, os, b1, b2, b3, b4, b5⟩ | ⟨b1, b2⟩
        · refine ⟨k + 1, by rw [h3, b5]; simp; omega, ?_, fun _ => hsucc, fun _ => ?_, fun _ => hsent⟩
          · rw [h7, b3]; exact h.paced.snoc _ b1
          · obtain ⟨m, hm⟩ := report_take km1.rep os
            exact ⟨os, m, by rw [h7, b3]; exact b2, by rw [h7, b4, hm]⟩
        · by_cases hk : 1 ≤ k
          · rw [h.success hk] at b1; cases b1
          · refine ⟨k, by rw [h3, b2], by rw [h7, b2]; exact h.paced, fun _ => hsucc, ?_, ?_⟩
            all_goals intro hk'; omega
      | idle => exact absurd (hl _ _ _ _ (List.mem_cons_self ..)).1 (by simp)
    obtain ⟨k1, e1, e3⟩ := hnext
    obtain ⟨k2, f1, f2⟩ := ih e3 (fun a b c d hm => hl a b c d (List.mem_cons_of_mem _ hm)) (hlaw.2 s1 g1) g2 (by rw [hh, hh1])
    exact ⟨k2, by omega, f2⟩

/-- Which keys are down, and which keys a board holds. -/
theorem holds_within {count : Nat} (i : Nat) : ∀ (es : List InputEvent), (∀ e ∈ es, Within (board count).length e) → ∀ (b : Board.State),
    (es.foldl (Board.State.input (board count)) b).holds i = es.foldl (evDown i) (b.holds i)
  | [], _, b => rfl
  | e :: es, h, b => by
    simp only [List.foldl_cons]
    rw [holds_within i es (fun e he => h e (by simp [he]))]
    congr 1
    obtain ⟨j, v, hj, rfl⟩ : ∃ j v, j < (board count).length ∧ e = Firmware.stateChanged j v := by
      obtain ⟨j, hj, rfl | rfl⟩ := h e (by simp)
      · exact ⟨j, true, hj, rfl⟩
      · exact ⟨j, false, hj, rfl⟩
    rw [input_holds b hj v i, evDown_changed]

theorem Merge.mem {α : Type} {xs ys zs : List α} (h : Merge xs ys zs) {z : α} (hz : z ∈ zs) : z ∈ xs ∨ z ∈ ys := by
  induction h with
  | nil => cases hz
  | left _ ih =>
    rcases List.mem_append.1 hz with hz | hz
    · exact (ih hz).imp_left (List.mem_append_left _)
    · exact .inl (List.mem_append_right _ hz)
  | right _ ih =>
    rcases List.mem_append.1 hz with hz | hz
    · exact (ih hz).imp_right (List.mem_append_left _)
    · exact .inr (List.mem_append_right _ hz)

end

section

variable {K : Keys} {refs : List Ref} {S : Search} {c : Comp.Config} {n rows cols rows' cols' : Nat} {indices indices' : List (List (Option Nat))}

theorem Called.run_all {km0 : KM Ref Comp.Ev Comp.Ctx PKS KS} {is : List Input} : ∀ {s s' : CHalf} {ops : List Op}, Physical s → Called ⟨Comp.system K, refs, S⟩ (n + 2) km0 s ops →
    Roomy ⟨Comp.system K, refs, S⟩ (n + 2) indices s is → s.run ⟨Comp.system K, refs, S⟩ (n + 2) indices is = .ok s' →
    ∃ ops', Called ⟨Comp.system K, refs, S⟩ (n + 2) km0 s' ops' := by
  induction is with
  | nil => intro s s' ops _ h _ hr; cases hr; exact ⟨ops, h⟩
  | cons i is ih =>
    intro s s' ops hp h hro hr
    obtain ⟨s1, g1, g2⟩ := Res.bind_eq_ok.1 hr
    have hnext : ∃ ops1, Called ⟨Comp.system K, refs, S⟩ (n + 2) km0 s1 ops1 := by
      cases effect g1 with
      | none h1 _ _ _ h5 => exact ⟨ops, h.same (by rw [h1]) h5⟩
      | event h0 h1 _ _ _ h5 =>
        exact ⟨_, h.event (hp _ (by rw [h0]; exact List.mem_cons_self ..)) (hro.1 ⟨_, _, _, _, rfl⟩ ⟨_, _, h0⟩) h1 h5⟩
      | report _ h1 _ _ _ _ h6 h7 _ => exact h.advance h1 h7 h6
      | idle h1 _ _ _ h5 h6 => exact h.advance h1 h6 h5
    obtain ⟨ops1, h1⟩ := hnext
    exact ih (hp.step g1) h1 (hro.2 s1 g1) g2

/-- In `is` anything happens. Then, in `still`, no key event comes to the keymap, the USB device is configured and the keyboard reports do not wait. No key event
is dropped. -/
structure Waits {Rep : Type} (make : List Byte → Rep) (K : Keys) (refs : List Ref) (S : Search) (n : Nat) (c : Comp.Config) (rows cols : Nat)
    (indices : List (List (Option Nat))) (is still : List Input) (s0 s : CHalf) : Prop where
  before : (fresh rows cols c).run ⟨Comp.system K, refs, S⟩ (n + 2) indices is = .ok s0
  runs : s0.run ⟨Comp.system K, refs, S⟩ (n + 2) indices still = .ok s
  quiet : s.heard = s0.heard
  answers : ∀ configured keyboard consumer mouse, .layout configured keyboard consumer mouse ∈ still → configured = true ∧ keyboard ≠ .wouldBlock
  lawful : Lawful ⟨Comp.system K, refs, S⟩ (n + 2) indices make (fresh rows cols c) (is ++ still)
  roomy : Roomy ⟨Comp.system K, refs, S⟩ (n + 2) indices (fresh rows cols c) (is ++ still)

/-- The keyboard report the driver has accepted last is the one of no key, or of left shift (0xE1; the code 0 is that of no key) while caps-word is active. -/
def Free {Rep : Type} (make : List Byte → Rep) (s : CHalf) : Prop :=
  s.sent.getLast?.map make = some (make []) ∨ (s.backend.km.ctx.capsWord.active = true ∧ s.sent.getLast?.map make = some (make [0xE1, 0]))

/-- C98, at rest. Also with tap-hold keys, tap-dances, chords, layers and macros: when all the switches of both halves of an RTIC split keyboard have been read open
26 times, all key events have been handled, and the keymap of a half has ticked since and has nothing scheduled, then the keyboard report that the driver of this half
has accepted last is the one of no key, or of the left shift key while caps-word is active.

In keymaps without sticky modifiers, in which undecided keys do not become undecided keys, and in which macros tap keys and wait (or only wait, if some key
may have to wait for a decision): for the others the claim is false of the keymap already, see C93. -/
theorem C98_rtic_at_rest_partial {Rep : Type} {make : List Byte → Rep} {count : Nat} (hl : Laid rows cols count indices) (hl' : Laid rows' cols' count indices')
    (ha : Apart indices indices') (h128 : count ≤ 128) (hN : Down.NoNesting K refs) (hk : K.sticky = [])
    (hm : (∀ i ∈ c.automation.instructions, Nothing.waits i = true) ∨
      ((∀ i ∈ c.automation.instructions, Nothing.taps i = true) ∧ ∀ r ∈ refs, Decided K r))
    {R' Ev' Ctx' PKS' KS' : Type} {C' : Cfg R' Ev' Ctx' PKS' KS'} {n' : Nat} {km' : KM R' Ev' Ctx' PKS' KS'}
    {is still is' : List Input} {s0 s : CHalf} {s' : Half R' Ev' Ctx' PKS' KS'} (h : Waits make K refs S n c rows cols indices is still s0 s)
    (hlink : Linked C' n' km' rows cols rows' cols' indices' (is ++ still) is' s s' (allOpen rows cols) (allOpen rows' cols'))
    (hle : s0.made.length + 1 ≤ s.made.length) (hs : s.backend.km.hasScheduledEvents = false) : Free make s := by
  have hrun := run_append h.before h.runs
  have hmerge := C91_all (fun r c i hi => Nat.lt_of_lt_of_le (hl.within r c i hi) h128) (fun r c i hi => Nat.lt_of_lt_of_le (hl'.within r c i hi) h128)
    hrun hlink.other hlink.bytes hlink.todo hlink.queue hlink.todo'
  have hb : (board count).length = count := List.length_replicate ..
  obtain ⟨ops, called⟩ := Called.run_all (S := S) (fun e he => by cases he) (Called.new rows cols _) h.roomy hrun
  have hup : ∀ i, keyDown i ops = false := by
    intro i
    rw [called.down i]
    have hw : ∀ e ∈ s.heard, Within (board count).length e := by
      intro e he
      rcases hmerge.mem he with he | he
      · exact moves_within (layout := board count) (by rw [hb]; exact hl) _ e he
      · exact moves_within (layout := board count) (by rw [hb]; exact hl') _ e he
    have h1 := holds_within i _ hw (start c)
    have h2 := merge_held (layout := board count) (by rw [hb]; exact hl) (by rw [hb]; exact hl') ha c hlink.sizes hlink.sizes' hmerge i
    rw [stable_of_last hlink.last, stable_of_last hlink.last', h1] at h2
    cases hv : s.heard.foldl (evDown i) false with
    | false => rfl
    | true =>
      rcases h2.1 hv with ⟨r, c, _, hx⟩ | ⟨r, c, _, hx⟩ <;> exact absurd hx (allOpen_entry _ _ _ _)
  obtain ⟨k, hk1, calm⟩ := Calm.run (make := make) (km := s0.backend.km) (k := 0) ⟨.done _, fun h => by omega, fun h => by omega, fun h => by omega⟩
    h.answers (lawful_append h.before h.lawful) h.runs h.quiet
  obtain ⟨outs, m, p1, p2⟩ := calm.report (by omega)
  obtain ⟨codes, q1, q2⟩ := calm.sent (by omega)
  unfold Free
  rw [q2]
  rw [p2] at q1
  rcases Nothing.C93_nothing_pressed_partial hN hk hm called.keys called.heard called.run hs hup with h | ⟨h1, h2⟩
  · rw [show s.backend.km.pressedKeys (cfg K refs S) = .ok outs from p1] at h
    cases Res.ok.inj h
    rw [List.take_nil, show KeymapOutput.pressedKeyCodes [] = .ok [] from rfl] at q1
    exact .inl (by rw [Res.ok.inj q1])
  · rw [show s.backend.km.pressedKeys (cfg K refs S) = .ok outs from p1] at h2
    cases Res.ok.inj h2
    cases m with
    | zero =>
      rw [List.take_zero, show KeymapOutput.pressedKeyCodes [] = .ok [] from rfl] at q1
      exact .inl (by rw [Res.ok.inj q1])
    | succ m =>
      rw [show [CapsWord.shift].take (m + 1) = [CapsWord.shift] by simp, show KeymapOutput.pressedKeyCodes [CapsWord.shift] = .ok [0xE1, 0] by decide] at q1
      exact .inr ⟨h1, by rw [← Res.ok.inj q1]⟩

/-- C98. No key is stuck, also with tap-hold keys, tap-dances, chords, layers and macros: whatever happened before, when all the switches of both halves are open and all
key events have been handled, then after some ticks of the keymap of a half the keyboard report that its driver has accepted last is the one of no key, or of
the left shift key while caps-word is active.

In keymaps without sticky modifiers, in which no key refers back to itself, undecided keys do not become undecided keys, no macro is repeated, and the macros
tap keys and wait (or only wait, if some key may have to wait for a decision). -/
theorem C98_rtic_no_stuck_keys_partial {Rep : Type} {make : List Byte → Rep} {count : Nat} (hl : Laid rows cols count indices) (hl' : Laid rows' cols' count indices')
    (ha : Apart indices indices') (h128 : count ≤ 128) (hK : Acyclic K) (hw : ∀ k ∈ K.automation, k.whilePressed.length = 0)
    (hN : Down.NoNesting K refs) (hk : K.sticky = [])
    (hm : (∀ i ∈ c.automation.instructions, Nothing.waits i = true) ∨
      ((∀ i ∈ c.automation.instructions, Nothing.taps i = true) ∧ ∀ r ∈ refs, Decided K r)) (is : List Input) :
    ∃ N, ∀ {R' Ev' Ctx' PKS' KS' : Type} {C' : Cfg R' Ev' Ctx' PKS' KS'} {n' : Nat} {km' : KM R' Ev' Ctx' PKS' KS'}
      {still is' : List Input} {s0 s : CHalf} {s' : Half R' Ev' Ctx' PKS' KS'}, Waits make K refs S n c rows cols indices is still s0 s →
      Linked C' n' km' rows cols rows' cols' indices' (is ++ still) is' s s' (allOpen rows cols) (allOpen rows' cols') →
      s0.made.length + N ≤ s.made.length → Free make s := by
  by_cases hex : ∃ s0, (fresh rows cols c).run ⟨Comp.system K, refs, S⟩ (n + 2) indices is = .ok s0
  · obtain ⟨s0, h0⟩ := hex
    have hT := Resting.tires (M := Resting.delays (Ctx.fromConfig c)) hK hw refs S
    refine ⟨1 + (Rest.pot (Resting.wt (Resting.delays (Ctx.fromConfig c))) (Resting.bound K (Resting.delays (Ctx.fromConfig c)) + 1) K.nested.length (rank K)
      (Resting.cpot (Resting.delays (Ctx.fromConfig c))) s0.backend.km + s0.backend.km.delay), ?_⟩
    intro R' Ev' Ctx' PKS' KS' C' n' km' still is' s0' s s' h hlink hle
    have heq : s0' = s0 := by have := h.before; rw [h0] at this; exact (Res.ok.inj this).symm
    subst heq
    refine C98_rtic_at_rest_partial hl hl' ha h128 hN hk hm h hlink (by omega) ?_
    obtain ⟨ops0, called⟩ := Called.run_all (S := S) (fun e he => by cases he) (Called.new rows cols _) (roomy_append h0 h.roomy).1 h0
    obtain ⟨k, hk1, calm⟩ := Calm.run (make := make) (km := s0'.backend.km) (k := 0) ⟨.done _, fun h => by omega, fun h => by omega, fun h => by omega⟩
      h.answers (lawful_append h.before h.lawful) h.runs h.quiet
    have hi : Rest.Inv (Resting.Good (Resting.delays (Ctx.fromConfig c))) s0'.backend.km := (Rest.inv_api hT).of_reachable
      ⟨⟨by simp [KM.new], (qinv_api NonPhys (emits_nonPhys K refs S)).of_reachable (QInv.new _ _) ⟨0, [], rfl⟩⟩,
        Resting.good_delays _, fun p hp => by simp [KM.new] at hp⟩ ⟨n + 2, ops0, called.run⟩
    have hms : s0'.backend.km.msPerTick = 1 := Unstuck.ms_run (QInv.new _ _) called.plain called.run
    exact calm.paced.rests hT hi (by rw [hms]; decide) (by omega)
  · refine ⟨0, ?_⟩
    intro R' Ev' Ctx' PKS' KS' C' n' km' still is' s0' s s' h hlink hle
    exact absurd ⟨_, h.before⟩ hex

end

/-! ## Two halves with caps-word and a tap-hold key on one, and A and enter on the other -/

namespace UnstuckDemo

open Nothing.Demo (K refs)
open _root_.Verif.Unstuck.Demo (quick acyclic)
open _root_.Verif.RticSplit.Demo (millis mem_millis roomyRun roomyRun_sound lawful_of facts Facts)

abbrev C : Cfg Ref Comp.Ev Comp.Ctx PKS KS := ⟨Comp.system K, refs, Search.std⟩

/-- Caps-word, and the tap-hold key (a digit, or left shift). -/
def left : List (List (Option Nat)) := [[some 0, some 2]]

/-- A and enter. -/
def right : List (List (Option Nat)) := [[some 1, some 3]]

theorem laid_left : Laid 1 2 4 left where
  size := ⟨rfl, by decide⟩
  within := by
    intro r c i h
    rcases r with _ | r <;> rcases c with _ | _ | c <;> simp [KeyAt, entry, left] at h <;> omega
  different := by
    intro r c r' c' i h h'
    rcases r with _ | r <;> rcases c with _ | _ | c <;> simp [KeyAt, entry, left] at h <;>
      rcases r' with _ | r' <;> rcases c' with _ | _ | c' <;> simp [KeyAt, entry, left] at h' <;> first | (exact ⟨rfl, rfl⟩) | omega

theorem laid_right : Laid 1 2 4 right where
  size := ⟨rfl, by decide⟩
  within := by
    intro r c i h
    rcases r with _ | r <;> rcases c with _ | _ | c <;> simp [KeyAt, entry, right] at h <;> omega
  different := by
    intro r c r' c' i h h'
    rcases r with _ | r <;> rcases c with _ | _ | c <;> simp [KeyAt, entry, right] at h <;>
      rcases r' with _ | r' <;> rcases c' with _ | _ | c' <;> simp [KeyAt, entry, right] at h' <;> first | (exact ⟨rfl, rfl⟩) | omega

theorem apart : Apart left right := by
  intro r c r' c' i h h'
  rcases r with _ | r <;> rcases c with _ | _ | c <;> simp [KeyAt, entry, left] at h <;>
    rcases r' with _ | r' <;> rcases c' with _ | _ | c' <;> simp [KeyAt, entry, right] at h' <;> omega

/-- The tap-hold key is held; meanwhile A is tapped on the other half. -/
def first : List Input :=
  millis 60 [[false, true]] ++ [.byte 1, .byte 2, .byte 1, .byte 0, .layout true .ok .ok .ok] ++ millis 5 [[false, true]] ++
    [.byte 3, .byte 1, .byte 1, .byte 0, .layout true .ok .ok .ok] ++ millis 30 [[false, false]]

/-- Then nothing moves. -/
def still : List Input := millis 40 [[false, false]]

/-- The other half. -/
def other : List Input := millis 30 [[true, false]] ++ millis 30 [[false, false]]

/-- What matters of a half. -/
def view (s : CHalf) : Facts × Bool × Bool × List (List Byte) :=
  (facts s, s.backend.km.hasScheduledEvents, s.backend.km.ctx.capsWord.active, s.sent.eraseDups)

def events : List InputEvent := [.press 2, .press 1, .release 1, .release 2]

set_option maxRecDepth 100000 in
theorem first_eq : (roomyRun C 32 left (fresh 1 2 quick) first).map (fun s => (s.made.length, s.heard)) = some (95, events) := by decide +kernel

set_option maxRecDepth 100000 in
theorem all_eq : (roomyRun C 32 left (fresh 1 2 quick) (first ++ still)).map view =
    some (⟨135, events, true, [], List.replicate 65 [[false, true]] ++ List.replicate 70 [[false, false]], some [], [1, 2, 2, 0, 3, 1, 2, 0]⟩, false, false,
      [[], [0xE1, 0], [0xE1, 0, 4]]) := by decide +kernel

set_option maxRecDepth 100000 in
theorem other_eq : (roomyRun C 32 right (fresh 1 2 quick) other).map (fun s => (s.tx, s.todo.isNone, s.scanned)) =
    some ([1, 2, 1, 0, 3, 1, 1, 0], true, List.replicate 30 [[true, false]] ++ List.replicate 30 [[false, false]]) := by decide +kernel

set_option maxRecDepth 100000 in
/-- The hypotheses are met by this history: in the end nothing is pressed. -/
example : ∃ s0 s s', Waits (id : List Byte → List Byte) K refs Search.std 30 quick 1 2 left first still s0 s ∧
    Linked C 32 (KM.new (Comp.Ctx.fromConfig quick)) 1 2 1 2 right (first ++ still) other s s' (allOpen 1 2) (allOpen 1 2) ∧
    s0.made.length + 40 ≤ s.made.length ∧ s.backend.km.hasScheduledEvents = false ∧ s.sent.getLast? = some [] ∧
    s.sent.eraseDups = [[], [0xE1, 0], [0xE1, 0, 4]] := by
  obtain ⟨s0, a1, a2⟩ := Option.map_eq_some_iff.1 first_eq
  obtain ⟨s, b1, b2⟩ := Option.map_eq_some_iff.1 all_eq
  obtain ⟨s', c1, c2⟩ := Option.map_eq_some_iff.1 other_eq
  obtain ⟨a3, a4⟩ := roomyRun_sound _ a1
  obtain ⟨b3, b4⟩ := roomyRun_sound _ b1
  obtain ⟨c3, _⟩ := roomyRun_sound _ c1
  simp only [view, facts, Facts.mk.injEq, Option.isNone_iff_eq_none, Prod.mk.injEq] at a2 b2 c2
  obtain ⟨⟨m1, m2, m3, m4, m5, _, _⟩, m8, m9, m10⟩ := b2
  obtain ⟨s1, d1, d2⟩ := run_split b3
  rw [a3] at d1; cases d1
  have hw : Waits (id : List Byte → List Byte) K refs Search.std 30 quick 1 2 left first still s0 s := by
    refine ⟨a3, d2, by rw [m2, a2.2], ?_, lawful_of _ _ _ ?_, b4⟩
    · intro a b c d hm
      obtain ⟨h1, h2⟩ := mem_millis hm
      exact ⟨h1, by rw [h2]; decide⟩
    · intro a b c d hm
      simp only [first, still, List.mem_append] at hm
      rcases hm with ((((hm | hm) | hm) | hm) | hm) | hm
      · rw [(mem_millis hm).2]; decide
      · simp only [List.mem_cons, reduceCtorEq, Input.layout.injEq, List.not_mem_nil, or_false, false_or] at hm
        rw [hm.2.1]; decide
      · rw [(mem_millis hm).2]; decide
      · simp only [List.mem_cons, reduceCtorEq, Input.layout.injEq, List.not_mem_nil, or_false, false_or] at hm
        rw [hm.2.1]; decide
      · rw [(mem_millis hm).2]; decide
      · rw [(mem_millis hm).2]; decide
  have hlink : Linked C 32 (KM.new (Comp.Ctx.fromConfig quick)) 1 2 1 2 right (first ++ still) other s s' (allOpen 1 2) (allOpen 1 2) := by
    refine ⟨c3, by rw [c2.1]; decide +kernel, m3, m4, c2.2.1, ?_, ?_, by rw [m5]; decide, by rw [c2.2.2]; decide⟩
    · intro m hm
      rw [m5] at hm
      rcases List.mem_append.1 hm with hm | hm <;> rw [List.eq_of_mem_replicate hm] <;> exact ⟨rfl, by decide⟩
    · intro m hm
      rw [c2.2.2] at hm
      rcases List.mem_append.1 hm with hm | hm <;> rw [List.eq_of_mem_replicate hm] <;> exact ⟨rfl, by decide⟩
  have hle : s0.made.length + 40 ≤ s.made.length := by rw [a2.1, m1]; decide
  refine ⟨s0, s, s', hw, hlink, hle, m8, ?_, m10⟩
  rcases C98_rtic_at_rest_partial laid_left laid_right apart (by decide) (Nothing.Demo.noNesting refs) rfl (.inl (by decide)) hw hlink (by omega) m8 with h | ⟨h, _⟩
  · simpa using h
  · rw [m9] at h; cases h

/-- The keymap meets the hypotheses of `C98_rtic_no_stuck_keys_partial`. -/
example (is : List Input) : ∃ N, ∀ {still is' : List Input} {s0 s s' : CHalf}, Waits (id : List Byte → List Byte) K refs Search.std 30 quick 1 2 left is still s0 s →
    Linked C 32 (KM.new (Comp.Ctx.fromConfig quick)) 1 2 1 2 right (is ++ still) is' s s' (allOpen 1 2) (allOpen 1 2) →
    s0.made.length + N ≤ s.made.length → Free id s := by
  obtain ⟨N, h⟩ := C98_rtic_no_stuck_keys_partial (make := id) (S := Search.std) (n := 30) (c := quick) laid_left laid_right apart (by decide) acyclic (by decide)
    (Nothing.Demo.noNesting refs) rfl (.inl (by decide)) is
  exact ⟨N, h⟩

end UnstuckDemo

end Verif.RticSplit
