import Verif.Lemmas.BleRounds

/-!
# What a ch58x keyboard has sent after a round
-/

namespace Verif.Ble

open Verif.Board (Queued Entry Cell)
open Verif.Keyboard (start HeldOk heldOk_foldl heldOk_start)

section

variable {R Ev Ctx PKS KS : Type} {C : Cfg R Ev Ctx PKS KS} {n : Nat} {s s' : State R Ev Ctx PKS KS} {p : Phase} {ok : Bool}

/-- How often something is processed until nothing is left. -/
def weight (s : State R Ev Ctx PKS KS) : Nat :=
  [Task.wake, .scan, .timeout, .keyboard, .mouse, .consumer, .tick].countP (fun t => decide (t ∈ s.events)) +
    if s.pc = .idle ∧ .tick ∈ s.events then 1 else 0

theorem weight_le (s : State R Ev Ctx PKS KS) : weight s ≤ 8 := by
  have : [Task.wake, .scan, .timeout, .keyboard, .mouse, .consumer, .tick].countP (fun t => decide (t ∈ s.events)) ≤ 7 := List.countP_le_length
  unfold weight
  split <;> omega

theorem weight_zero (h : weight s = 0) (t : Task) : t ∉ s.events := by
  have : [Task.wake, .scan, .timeout, .keyboard, .mouse, .consumer, .tick].countP (fun t => decide (t ∈ s.events)) = 0 := by unfold weight at h; omega
  have := List.countP_eq_zero.1 this t (by cases t <;> simp)
  simpa using this

theorem weight_lt {u : Task} (hm : u ∈ s.events) (h : ∀ t, t ∈ s'.events ↔ t ∈ s.events ∧ t ≠ u) (hpc : s'.pc = s.pc ∨ u = .tick) : weight s' < weight s := by
  have hpart : [Task.wake, .scan, .timeout, .keyboard, .mouse, .consumer, .tick].countP (fun t => decide (t ∈ s'.events)) <
      [Task.wake, .scan, .timeout, .keyboard, .mouse, .consumer, .tick].countP (fun t => decide (t ∈ s.events)) := by
    simp only [h]
    cases u <;>
      simp only [List.countP_cons, List.countP_nil, ne_eq, not_true_eq_false, and_false, decide_false, hm, decide_true, reduceCtorEq,
        not_false_eq_true, and_true] <;> simp <;> omega
  have hrest : (if s'.pc = .idle ∧ Task.tick ∈ s'.events then 1 else 0) ≤ (if s.pc = .idle ∧ Task.tick ∈ s.events then 1 else 0) := by
    split
    · next hx =>
      have h1 := (h .tick).1 hx.2
      rcases hpc with hpc | rfl
      · rw [if_pos ⟨hpc ▸ hx.1, h1.1⟩]; exact Nat.le_refl _
      · exact absurd rfl h1.2
    · omega
  unfold weight
  omega

/-- A report and whether it has still to be sent, before and after something was processed. -/
def Kept {α : Type} (f : CApi.HidReport → α) (u : Task) (s s' : State R Ev Ctx PKS KS) : Prop :=
  f s'.previous = f s.report ∨ (f s'.previous = f s.previous ∧ (u ∈ s'.events ↔ u ∈ s.events))

/-- What processing something does to what is to be sent. -/
structure Effect (s s' : State R Ev Ctx PKS KS) : Prop where
  keyboard : Kept (·.keyboard) .keyboard s s'
  mouse : Kept (·.mouse) .mouse s s'
  consumer : Kept (·.consumer) .consumer s s'
  weight : weight s' ≤ weight s - 1

theorem Effect.of {u : Task} (hp : s'.previous = s.previous) (hm : u ∈ s.events) (h : ∀ t, t ∈ s'.events ↔ t ∈ s.events ∧ t ≠ u) (hpc : s'.pc = s.pc ∨ u = .tick)
    (hu : u = .wake ∨ u = .scan ∨ u = .timeout ∨ u = .tick) : Effect s s' := by
  have hk : ∀ v, v ≠ u → (v ∈ s'.events ↔ v ∈ s.events) := fun v hv => by rw [h]; exact ⟨And.left, fun x => ⟨x, hv⟩⟩
  refine ⟨.inr ⟨by rw [hp], hk _ ?_⟩, .inr ⟨by rw [hp], hk _ ?_⟩, .inr ⟨by rw [hp], hk _ ?_⟩, by have := weight_lt hm h hpc; omega⟩ <;>
    rcases hu with rfl | rfl | rfl | rfl <;> simp

theorem effect (h : At p s) (e : s.process C n true = .ok s') : Effect s s' := by
  unfold State.process at e
  split at e
  · next hp =>
    cases p with
    | arming =>
      cases e
      obtain ⟨ts, hcm, _⟩ := compare_frame ({ s with pc := .idle, irq := true } : State R Ev Ctx PKS KS)
      unfold State.armed
      rw [hcm]
      exact .of (u := .tick) rfl h.2.2.2.2.2.1 (fun t => mem_events_done) (.inr rfl) (by simp)
    | _ => exact absurd (h.2.2.1.symm.trans hp) (by simp)
  · next hp =>
    have hidle : s.pc = .idle := by cases hx : s.pc with
      | idle => rfl
      | arming => exact absurd hx hp
    split at e
    · next hw => cases e; exact .of (u := .wake) rfl hw (fun t => mem_events_done) (.inl rfl) (by simp)
    · next hw =>
      split at e
      · next hs =>
        simp only [State.onScan] at e
        obtain ⟨⟨s1, next⟩, e1, e⟩ := Res.bind_eq_ok.1 e
        obtain ⟨km, r, made, u, rfl⟩ := registerAfter_frame e1
        have e := Res.ok.inj e
        rw [← e]
        simp only
        split
        all_goals
          generalize hx : (State.start _ Task.tick 12) = x
          obtain ⟨ts, hc, hts⟩ := compare_frame x
          rw [hc]
          subst hx
          exact .of (u := .scan) rfl hs (fun t => mem_events_done) (.inl rfl) (by simp)
      · next hs =>
        split at e
        · next hm =>
          obtain ⟨_, _, _, f4⟩ := onTimeout_frame e
          refine .of (u := .timeout) ?_ hm f4 (.inl (same_onTimeout e).pc) (by simp)
          exact (ext_onTimeout e).previous
        · split at e
          · next hm =>
            cases e
            have hw := weight_lt (s' := s.onKeyboard true) hm (fun t => mem_events_done) (.inl rfl)
            refine ⟨.inl rfl, .inr ⟨rfl, ?_⟩, .inr ⟨rfl, ?_⟩, by omega⟩ <;> exact mem_events_done.trans ⟨And.left, fun x => ⟨x, by simp⟩⟩
          · split at e
            · next hm =>
              cases e
              have hw := weight_lt (s' := s.onMouse true) hm (fun t => mem_events_done) (.inl rfl)
              refine ⟨.inr ⟨rfl, ?_⟩, .inl rfl, .inr ⟨rfl, ?_⟩, by omega⟩ <;> exact mem_events_done.trans ⟨And.left, fun x => ⟨x, by simp⟩⟩
            · split at e
              · next hm =>
                cases e
                have hw := weight_lt (s' := s.onConsumer true) hm (fun t => mem_events_done) (.inl rfl)
                refine ⟨.inr ⟨rfl, ?_⟩, .inr ⟨rfl, ?_⟩, .inl rfl, by omega⟩ <;> exact mem_events_done.trans ⟨And.left, fun x => ⟨x, by simp⟩⟩
              · split at e
                · next ht =>
                  simp only [State.onTick] at e
                  obtain ⟨km1, e1, e⟩ := Res.bind_eq_ok.1 e
                  obtain ⟨⟨km, r⟩, e2, e⟩ := Res.bind_eq_ok.1 e
                  simp only at e
                  split at e
                  · have e := Res.ok.inj e
                    rw [← e]
                    generalize hx : (State.start _ Task.tick 12) = x
                    obtain ⟨ts, hc, hts⟩ := compare_frame x
                    rw [hc]
                    subst hx
                    exact .of (u := .tick) rfl ht (fun t => mem_events_done) (.inr rfl) (by simp)
                  · have e := Res.ok.inj e
                    rw [← e]
                    refine ⟨.inr ⟨rfl, Iff.rfl⟩, .inr ⟨rfl, Iff.rfl⟩, .inr ⟨rfl, Iff.rfl⟩, ?_⟩
                    unfold weight
                    rw [if_neg (by simp), if_pos ⟨hidle, ht⟩]
                    simp [State.make]
                    exact Nat.le_refl _
                · next h1 h2 h3 h4 ht =>
                  cases e
                  refine ⟨.inr ⟨rfl, Iff.rfl⟩, .inr ⟨rfl, Iff.rfl⟩, .inr ⟨rfl, Iff.rfl⟩, ?_⟩
                  have : weight s = 0 := by
                    unfold weight
                    rw [if_neg (fun hx => ht hx.2), Nat.add_zero, List.countP_eq_zero]
                    intro t htm
                    simp only [List.mem_cons, List.not_mem_nil, or_false] at htm
                    rcases htm with rfl | rfl | rfl | rfl | rfl | rfl | rfl <;> simp_all
                  omega

/-- What was not sent is about to be. -/
structure Ready (s : State R Ev Ctx PKS KS) : Prop where
  keyboard : s.previous.keyboard = s.report.keyboard ∨ .keyboard ∈ s.events
  mouse : s.previous.mouse = s.report.mouse ∨ .mouse ∈ s.events
  consumer : s.previous.consumer = s.report.consumer ∨ .consumer ∈ s.events

theorem Ready.process (h : Ready s) (e : Effect s s') (hr : s'.report = s.report) : Ready s' := by
  have key : ∀ {α : Type} (f : CApi.HidReport → α) (u : Task), (f s.previous = f s.report ∨ u ∈ s.events) → Kept f u s s' →
      f s'.previous = f s'.report ∨ u ∈ s'.events := by
    intro α f u h1 h2
    rw [hr]
    rcases h2 with h2 | ⟨h2, h3⟩
    · exact .inl h2
    · rw [h2, h3]; exact h1
  exact ⟨key (·.keyboard) .keyboard h.keyboard e.keyboard, key (·.mouse) .mouse h.mouse e.mouse, key (·.consumer) .consumer h.consumer e.consumer⟩

end

section

variable {K : Comp.Keys} {refs : List Comp.Ref} {S : Search} {layout : List Entry} {n : Nat} {row : Nat → Nat} {rows : Nat}
variable {c : Comp.Config} {count : Nat} {s s' : CState} {t : Nat} {m : Queued} {evs : List CApi.CEvent} {L : Nat}

theorem update_zero {old : CApi.HidReport} (h : Device.Sizes old) (out : KeymapOutput) : old.update out = zero.update out := by
  unfold CApi.HidReport.update
  have h1 : CApi.copyInto old.keyboard (KeymapOutput.asBootReport out) = CApi.copyInto zero.keyboard (KeymapOutput.asBootReport out) := by
    unfold CApi.copyInto
    rw [C01_boot_report_length, List.drop_eq_nil_of_le (Nat.le_of_eq h.1), List.drop_eq_nil_of_le (by simp [zero])]
  simp only [h1]

/-- The report, when the keyboard has got far enough. -/
theorem Known.report (hc : count ≤ layout.length) (h : Known K layout c count evs 51 s) :
    ∃ b : Board.State, b = (evs.map CApi.CEvent.toInput).foldl (Board.State.input layout) (start c) ∧ b.outputs.length ≤ 16 ∧
      zero.update b.outputs = .ok s.report ∧ HeldOk layout b ∧ (∀ i, b.holds i = true ↔ s.closed[i]? = some true) ∧
      pressedAfter (List.replicate count false) evs = some s.closed := by
  obtain ⟨t, m, h1, h2⟩ := h.core
  have hpg : Progress 49 s m := by
    cases h2 with
    | waking _ hl => cases hl
    | scan _ hl => omega
    | tick _ _ hp => exact hp
    | arming ha _ => exact h1.asleep (.inr ha.2.2.1)
    | asleep ha _ => exact h1.asleep (.inl ha.1)
  have hq : m.queue = [] := List.length_eq_zero_iff.1 (by have := hpg.queue (by omega); omega)
  have hl : m.board.held.length ≤ 16 := h1.keeps.sim.sim.len
  have hol : m.board.outputs.length ≤ 16 := Nat.le_trans (List.length_filterMap_le _ _) hl
  obtain ⟨g1, g2, old, o1, o2⟩ := hpg.rep (by omega)
  have hrep : s.km.rep.reportable = m.board.outputs := by
    rw [Reporter.reportable, g1, List.take_of_length_le (by omega)]
  rw [hrep, update_zero o1] at o2
  have hb := (h1.holds hc hq 0).1
  exact ⟨m.board, hb, hol, o2, by rw [hb]; exact heldOk_foldl _ (heldOk_start c), fun i => by rw [← h.settled]; exact (h1.holds hc hq i).2,
    by rw [← h.settled]; exact h1.told⟩

theorem Known.report_eq (hc : count ≤ layout.length) (h : Known K layout c count evs 51 s) (h' : Known K layout c count evs 51 s') : s'.report = s.report := by
  obtain ⟨b, h1, _, h2, _⟩ := h.report hc
  obtain ⟨b', h1', _, h2', _⟩ := h'.report hc
  rw [h1', ← h1, h2] at h2'
  exact (Res.ok.inj h2').symm

/-- Everything that is about to be sent is sent. -/
theorem Known.sends (hp : Comp.Plain K refs c layout) (hc : count ≤ layout.length) (hcount : count ≤ 255) (hr : ∀ k < count, row k < rows) {k : Nat} :
    ∀ {s : CState}, Known K layout c count evs 51 s → weight s ≤ k →
    s.run ⟨Comp.system K, refs, S⟩ (n + 2) row rows (List.replicate k (.process true)) = .ok s' →
    (∀ u, u ∉ s'.events) ∧ (Ready s → s'.previous.keyboard = s'.report.keyboard ∧ s'.previous.mouse = s'.report.mouse ∧ s'.previous.consumer = s'.report.consumer) := by
  induction k with
  | zero =>
    intro s h hk e
    cases e
    have := weight_zero (show weight s' = 0 by omega)
    exact ⟨this, fun hr => ⟨hr.keyboard.resolve_right (this _), hr.mouse.resolve_right (this _), hr.consumer.resolve_right (this _)⟩⟩
  | succ k ih =>
    intro s h hk e
    simp only [List.replicate_succ, State.run] at e
    obtain ⟨s1, e1, e⟩ := Res.bind_eq_ok.1 e
    obtain ⟨_, a2, _⟩ := h.step hp hc hcount hr (by simp) e1
    obtain ⟨_, _, _, hlv⟩ := h.core
    obtain ⟨p, hat⟩ := hlv.phase
    have ef := effect hat e1
    have hw := ef.weight
    obtain ⟨b1, b2⟩ := ih a2 (by omega) e
    exact ⟨b1, fun hr => b2 (hr.process ef (h.report_eq hc a2))⟩

/-- A round. -/
theorem Known.delivers (hp : Comp.Plain K refs c layout) (hc : count ≤ layout.length) (hcount : count ≤ 255) (hr : ∀ k < count, row k < rows)
    (h : Known K layout c count evs 51 s) (hso : Soon s) (e : s.run ⟨Comp.system K, refs, S⟩ (n + 2) row rows Ble.round = .ok s') :
    s'.pc = .idle ∧ (s.pc = .idle → Due s → s'.previous.keyboard = s'.report.keyboard ∧ s'.previous.mouse = s'.report.mouse ∧ s'.previous.consumer = s'.report.consumer) := by
  have hwhole := (h.run hp hc hcount hr noMove_round e).2
  have e' := e
  rw [Ble.round, List.cons_append] at e'
  simp only [State.run, State.step, Res.ok_bind] at e'
  obtain ⟨s2, e2, e'⟩ := run_append e'
  have hnomove : ∀ i ∈ [Task.wake, .scan, .timeout, .keyboard, .mouse, .consumer, .tick].map Input.expire, ∀ c, i ≠ .move c := by
    intro i hi c e
    subst e
    simp at hi
  have h1 : Known K layout c count evs 51 ({ s with clock := s.clock + 12 } : CState) :=
    (h.step (S := S) (n := n) (i := .wait 12) hp hc hcount hr (by simp) rfl).2.1
  have h2 := (h1.run hp hc hcount hr hnomove e2).2
  obtain ⟨b1, b2⟩ := h2.sends hp hc hcount hr (Nat.le_succ_of_le (weight_le s2)) e'
  refine ⟨?_, fun hpc hd => b2 ?_⟩
  · obtain ⟨_, _, _, hlv⟩ := hwhole.core
    obtain ⟨p, hat⟩ := hlv.phase
    cases p with
    | arming => exact absurd hat.2.2.2.2.2.1 (b1 _)
    | _ => exact hat.2.2.1
  · obtain ⟨_, _, _, hlv⟩ := h1.core
    obtain ⟨p, hat⟩ := hlv.phase
    obtain ⟨_, _, _, x4⟩ := expires hat e2
    have hdue : Due s2 := due_run (s := { s with clock := s.clock + 12 }) (fun _ => ⟨hd.keyboard, hd.mouse, hd.consumer⟩) (by intro ok ho; simp at ho) e2
      ((expires_pending e2).1.trans hpc)
    have no : ∀ u : Task, u.sends → ∀ d, (u, d) ∉ s2.timers := fun u hu => x4 u (by rcases hu with rfl | rfl | rfl <;> simp)
      (fun d hd => Nat.le_trans (hso u d hd hu) (by show s.clock + 1 ≤ s.clock + 12; omega))
    have pick : ∀ u : Task, u.sends → Pending u s2 → u ∈ s2.events := fun u hu h => h.resolve_right fun ⟨d, hd⟩ => no u hu d hd
    exact ⟨hdue.keyboard.imp Eq.symm (pick _ (.inl rfl)), hdue.mouse.imp Eq.symm (pick _ (.inr (.inl rfl))), hdue.consumer.imp Eq.symm (pick _ (.inr (.inr rfl)))⟩

end

end Verif.Ble
