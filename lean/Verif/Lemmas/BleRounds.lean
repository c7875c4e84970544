import Verif.Lemmas.BleKeyboard

/-!
# Rounds of the ch58x keyboard
-/

namespace Verif.Ble

open Verif.Board (Queued Entry Cell)
open Verif.Keyboard (start)

section

variable {R Ev Ctx PKS KS : Type} {C : Cfg R Ev Ctx PKS KS} {n : Nat} {s s' : State R Ev Ctx PKS KS} {p : Phase} {ok : Bool}

/-- The phases follow one another. -/
theorem process_phase (h : At p s) (e : s.process C n ok = .ok s') :
    At p s' ∨ (p = .waking ∧ At .scan s') ∨ (p = .scan ∧ At .tick s') ∨ (p = .tick ∧ At .arming s') ∨ (p = .arming ∧ At .asleep s') := by
  unfold State.process at e
  split at e
  · next hp =>
    cases p with
    | arming => cases e; exact .inr (.inr (.inr (.inr ⟨rfl, at_armed h⟩)))
    | _ => exact absurd (h.2.2.1.symm.trans hp) (by simp)
  · next hp =>
    split at e
    · next hw =>
      cases p with
      | waking => cases e; exact .inr (.inl ⟨rfl, at_onWake h⟩)
      | asleep => exact absurd (Or.inl hw) h.2.2.2.1
      | scan => exact absurd (Or.inl hw) h.2.2.2.1
      | tick => exact absurd (Or.inl hw) h.2.2.2.1
      | arming => exact absurd (Or.inl hw) h.2.2.2.1
    · next hw =>
      split at e
      · next hs =>
        cases p with
        | waking => exact absurd h.2.2.2.1 hw
        | asleep => exact absurd (Or.inl hs) h.2.2.2.2.1
        | scan => exact .inr (.inr (.inl ⟨rfl, at_onScan h hs e⟩))
        | tick => exact absurd (Or.inl hs) h.2.2.2.2.1
        | arming => exact absurd (Or.inl hs) h.2.2.2.2.1
      · next hs =>
        split at e
        · exact .inl ((same_onTimeout e).at h)
        · split at e
          · cases e; exact .inl (same_report.1.at h)
          · split at e
            · cases e; exact .inl (same_report.2.1.at h)
            · split at e
              · cases e; exact .inl (same_report.2.2.at h)
              · split at e
                · next ht =>
                  cases p with
                  | waking => exact absurd (Or.inl ht) h.2.2.2.2.2.2
                  | asleep => exact absurd (Or.inl ht) h.2.2.2.2.2
                  | scan => exact absurd (Or.inl ht) h.2.2.2.2.2.2
                  | tick => rcases at_onTick h ht e with h | h
                            · exact .inl h
                            · exact .inr (.inr (.inr (.inl ⟨rfl, h⟩)))
                  | arming => exact absurd h.2.2.1 hp
                · cases e; exact .inl h

theorem step_phase {row : Nat → Nat} {rows : Nat} {i : Input} (h : At p s) (hi : ∀ c, i ≠ .move c) (e : s.step C n row rows i = .ok s') :
    At p s' ∨ (p = .waking ∧ At .scan s') ∨ (p = .scan ∧ At .tick s') ∨ (p = .tick ∧ At .arming s') ∨ (p = .arming ∧ At .asleep s') := by
  cases i with
  | wait d => cases e; refine .inl (Same.at ?_ h); exact ⟨rfl, rfl, rfl, fun _ _ => Iff.rfl, fun _ _ _ => Iff.rfl⟩
  | expire t => exact .inl (expires (C := C) (n := n) (row := row) (rows := rows) (ts := [t]) h (by simp only [List.map_cons, List.map_nil, State.run, e]; rfl)).1
  | move c => exact absurd rfl (hi c)
  | process ok => exact process_phase h e

/-- A tick is next, or one of the tasks that come before is done. -/
theorem process_tickNow (hp : At .tick s) (ht : .tick ∈ s.events) (e : s.process C n ok = .ok s') :
    (s.pc ≠ .arming ∧ .wake ∉ s.events ∧ .scan ∉ s.events ∧ .timeout ∉ s.events ∧ .keyboard ∉ s.events ∧ .mouse ∉ s.events ∧ .consumer ∉ s.events) ∨
    (At .tick s' ∧ .tick ∈ s'.events ∧ left s' < left s) := by
  unfold State.process at e
  split at e
  · next hpc => exact absurd (hp.2.2.1.symm.trans hpc) (by simp)
  · next h1 =>
    split at e
    · next hw => exact absurd (Or.inl hw) hp.2.2.2.1
    · next h2 =>
      split at e
      · next hs => exact absurd (Or.inl hs) hp.2.2.2.2.1
      · next h3 =>
        split at e
        · next hm =>
          obtain ⟨_, _, _, f4⟩ := onTimeout_frame e
          exact Or.inr ⟨(same_onTimeout e).at hp, (f4 _).2 ⟨ht, by simp⟩, left_lt (by simp) hm f4⟩
        · next h4 =>
          split at e
          · next hm =>
            cases e
            have hev : ∀ u, u ∈ (s.onKeyboard ok).events ↔ u ∈ s.events ∧ u ≠ .keyboard := by
              intro u; cases ok <;> exact mem_events_done
            exact Or.inr ⟨same_report.1.at hp, (hev _).2 ⟨ht, by simp⟩, left_lt (by simp) hm hev⟩
          · next h5 =>
            split at e
            · next hm =>
              cases e
              have hev : ∀ u, u ∈ (s.onMouse ok).events ↔ u ∈ s.events ∧ u ≠ .mouse := by
                intro u; cases ok <;> exact mem_events_done
              exact Or.inr ⟨same_report.2.1.at hp, (hev _).2 ⟨ht, by simp⟩, left_lt (by simp) hm hev⟩
            · next h6 =>
              split at e
              · next hm =>
                cases e
                have hev : ∀ u, u ∈ (s.onConsumer ok).events ↔ u ∈ s.events ∧ u ≠ .consumer := by
                  intro u; cases ok <;> exact mem_events_done
                exact Or.inr ⟨same_report.2.2.at hp, (hev _).2 ⟨ht, by simp⟩, left_lt (by simp) hm hev⟩
              · next h7 => exact Or.inl ⟨h1, h2, h3, h4, h5, h6, h7⟩

end

/-! ## How far the keyboard has got -/

/-- How far it has got at least, in each phase. -/
def Phase.level : Phase → Nat
  | .waking => 0
  | .scan => 1
  | .tick => 2
  | _ => 51

/-- At least so far. -/
inductive Level (L : Nat) (s : CState) (m : Queued) : Prop where
  | waking (h : At .waking s) (hl : L = 0)
  | scan (h : At .scan s) (hl : L ≤ 1)
  | tick (h : At .tick s) (hl : L ≤ 51) (hp : Progress (L - 2) s m)
  | arming (h : At .arming s) (hl : L ≤ 51)
  | asleep (h : At .asleep s) (hl : L ≤ 51)

section

variable {K : Comp.Keys} {refs : List Comp.Ref} {S : Search} {layout : List Entry} {n : Nat} {row : Nat → Nat} {rows : Nat}
variable {c : Comp.Config} {count : Nat} {s s' : CState} {t : Nat} {m : Queued} {evs : List CApi.CEvent} {L : Nat}

theorem Level.phase (h : Level L s m) : ∃ p, At p s := by cases h <;> exact ⟨_, by assumption⟩

theorem Level.mono {L' : Nat} (h : Level L s m) (hl : L' ≤ L) : Level L' s m := by
  cases h with
  | waking h h1 => exact .waking h (by omega)
  | scan h h1 => exact .scan h (by omega)
  | tick h h1 h2 => exact .tick h (by omega) (h2.mono (by omega))
  | arming h h1 => exact .arming h (by omega)
  | asleep h h1 => exact .asleep h (by omega)

theorem Progress.zero (s : CState) (m : Queued) : Progress 0 s m := ⟨fun h => by omega, fun h => by omega, fun h => by omega⟩

/-- The level is at least that of the phase. -/
theorem Level.of_at {p : Phase} (h : At p s) : Level p.level s m := by
  cases p with
  | waking => exact .waking h rfl
  | scan => exact .scan h (Nat.le_refl _)
  | tick => exact .tick h (by decide) (Progress.zero _ _)
  | arming => exact .arming h (Nat.le_refl _)
  | asleep => exact .asleep h (Nat.le_refl _)

/-- All that is known: the state of every switch is known too. -/
structure Known (K : Comp.Keys) (layout : List Entry) (c : Comp.Config) (count : Nat) (evs : List CApi.CEvent) (L : Nat) (s : CState) : Prop where
  track : Track count s
  settled : s.matrix.debounced = s.closed
  core : ∃ t m, Core K layout c count s t m evs ∧ Level L s m

theorem Known.mono {L' : Nat} (h : Known K layout c count evs L s) (hl : L' ≤ L) : Known K layout c count evs L' s := by
  obtain ⟨t, m, h1, h2⟩ := h.core
  exact ⟨h.track, h.settled, t, m, h1, h2.mono hl⟩

theorem Known.of_at {p : Phase} (h : Known K layout c count evs L s) (hp : At p s) :
    Known K layout c count evs p.level s := by
  obtain ⟨t, m, h1, h2⟩ := h.core
  exact ⟨h.track, h.settled, t, m, h1, .of_at hp⟩

theorem settled_nothing (hs : s.matrix.debounced = s.closed) (ht : Track count s) (h : Core K layout c count s t m evs) : s.km.inq.length + moved s ≤ 31 := by
  rw [moved, (scan_told h ht.sized).2 hs, h.keeps.sim.inq]
  exact h.keeps.room

/-- A step at which no switch moves. -/
theorem Known.step (hp : Comp.Plain K refs c layout) (hc : count ≤ layout.length) (hcount : count ≤ 255) (hr : ∀ k < count, row k < rows)
    (h : Known K layout c count evs L s) {i : Input} (hi : ∀ c, i ≠ .move c)
    (e : s.step ⟨Comp.system K, refs, S⟩ (n + 2) row rows i = .ok s') :
    s'.closed = s.closed ∧ Known K layout c count evs L s' ∧
      (At .tick s → TickNow s → (∃ ok, i = .process ok) → L ≤ 50 → Known K layout c count evs (L + 1) s') := by
  obtain ⟨t, m, h1, h2⟩ := h.core
  obtain ⟨p, hat⟩ := h2.phase
  obtain ⟨k, ⟨t', m', evs', g1, _, g2⟩, g3⟩ := step_core hp hc hcount h1 h.track.sized hat (fun _ _ => settled_nothing h.settled h.track h1) e
  obtain ⟨rfl, g4⟩ := g2 h.settled
  have htr := track_step hcount hr hat h.track (fun c hc => absurd hc (hi c)) e
  obtain ⟨q1, q2⟩ := step_matrix hi e
  have hset : s'.matrix.debounced = s'.closed := by
    rcases q2 with q2 | q2
    · rw [q2, q1]; exact h.settled
    · rw [q2, q1]; exact scan_id h.track
  refine ⟨q1, ⟨htr, hset, t', m', g1, ?_⟩, fun ha hn hpr hL => ⟨htr, hset, t', m', g1, ?_⟩⟩
  · cases h2 with
    | waking ha hl =>
      subst hl
      obtain ⟨p', hp'⟩ := at_step hat e
      exact (Level.of_at hp').mono (Nat.zero_le _)
    | scan ha hl =>
      rcases step_phase ha hi e with h | ⟨h, _⟩ | ⟨_, h⟩ | ⟨h, _⟩ | ⟨h, _⟩
      · exact .scan h hl
      · cases h
      · exact (Level.of_at h).mono (by show _ ≤ 2; omega)
      · cases h
      · cases h
    | tick ha hl hpg =>
      rcases step_phase ha hi e with h | ⟨h, _⟩ | ⟨h, _⟩ | ⟨_, h⟩ | ⟨h, _⟩
      · exact .tick h hl ((g4 _ hpg).mono (by omega))
      · cases h
      · cases h
      · exact .arming h hl
      · cases h
    | arming ha hl =>
      rcases step_phase ha hi e with h | ⟨h, _⟩ | ⟨h, _⟩ | ⟨h, _⟩ | ⟨_, h⟩
      · exact .arming h hl
      · cases h
      · cases h
      · cases h
      · exact .asleep h hl
    | asleep ha hl =>
      rcases step_phase ha hi e with h | ⟨h, _⟩ | ⟨h, _⟩ | ⟨h, _⟩ | ⟨h, _⟩
      · exact .asleep h hl
      all_goals cases h
  · obtain ⟨ok, rfl⟩ := hpr
    have hk := g3 hn ok rfl
    subst hk
    have hpg : Progress (L - 2) s m := by
      cases h2 with
      | waking ha' hl => subst hl; exact Progress.zero _ _
      | scan ha' hl => exact (Progress.zero _ _).mono (by omega)
      | tick _ _ hpg => exact hpg
      | arming ha' _ => exact absurd (ha.2.2.1.symm.trans ha'.2.2.1) (by simp)
      | asleep ha' _ => exact absurd (ha.1.symm.trans ha'.1) (by simp)
    rcases step_phase ha hi e with h | ⟨h, _⟩ | ⟨h, _⟩ | ⟨_, h⟩ | ⟨h, _⟩
    · exact .tick h (by omega) ((g4 _ hpg).mono (by omega))
    · cases h
    · cases h
    · exact .arming h (by omega)
    · cases h

theorem Known.run (hp : Comp.Plain K refs c layout) (hc : count ≤ layout.length) (hcount : count ≤ 255) (hr : ∀ k < count, row k < rows) {is : List Input} :
    ∀ {s : CState}, Known K layout c count evs L s → (∀ i ∈ is, ∀ c, i ≠ .move c) →
    s.run ⟨Comp.system K, refs, S⟩ (n + 2) row rows is = .ok s' → s'.closed = s.closed ∧ Known K layout c count evs L s' := by
  induction is with
  | nil => intro s h _ e; cases e; exact ⟨rfl, h⟩
  | cons i is ih =>
    intro s h hi e
    simp only [State.run] at e
    obtain ⟨s1, e1, e⟩ := Res.bind_eq_ok.1 e
    obtain ⟨a1, a2, _⟩ := h.step hp hc hcount hr (hi i List.mem_cons_self) e1
    obtain ⟨b1, b2⟩ := ih a2 (fun j hj => hi j (List.mem_cons_of_mem _ hj)) e
    exact ⟨b1.trans a1, b2⟩

/-- Enough processing to get to the tick. -/
theorem Known.ticks (hp : Comp.Plain K refs c layout) (hc : count ≤ layout.length) (hcount : count ≤ 255) (hr : ∀ k < count, row k < rows) (hL : L ≤ 50) {k : Nat} :
    ∀ {s : CState}, Known K layout c count evs L s → At .tick s → .tick ∈ s.events → left s < k →
    s.run ⟨Comp.system K, refs, S⟩ (n + 2) row rows (List.replicate k (.process true)) = .ok s' → Known K layout c count evs (L + 1) s' := by
  induction k with
  | zero => intro s _ _ _ hk; omega
  | succ k ih =>
    intro s h ha ht hk e
    simp only [List.replicate_succ, State.run] at e
    obtain ⟨s1, e1, e⟩ := Res.bind_eq_ok.1 e
    obtain ⟨_, a2, a3⟩ := h.step hp hc hcount hr (by simp) e1
    rcases process_tickNow ha ht e1 with hn | ⟨b1, b2, b3⟩
    · exact ((a3 ha ⟨hn.1, hn.2.1, hn.2.2.1, hn.2.2.2.1, hn.2.2.2.2.1, hn.2.2.2.2.2.1, hn.2.2.2.2.2.2, ht⟩ ⟨true, rfl⟩ hL).run hp hc hcount hr noMove_process e).2
    · exact ih a2 b1 b2 (by omega) e

/-- Every round gets further. -/
theorem Known.round (hp : Comp.Plain K refs c layout) (hc : count ≤ layout.length) (hcount : count ≤ 255) (hr : ∀ k < count, row k < rows) (hL : L ≤ 50)
    (h : Known K layout c count evs L s) (e : s.run ⟨Comp.system K, refs, S⟩ (n + 2) row rows round = .ok s') : Known K layout c count evs (L + 1) s' := by
  have hwhole := (h.run hp hc hcount hr noMove_round e).2
  obtain ⟨_, _, _, hlv⟩ := h.core
  have e' := e
  rw [Ble.round, List.cons_append] at e'
  simp only [State.run, State.step, Res.ok_bind] at e'
  obtain ⟨s2, e2, e'⟩ := run_append e'
  have hnomove : ∀ i ∈ [Task.wake, .scan, .timeout, .keyboard, .mouse, .consumer, .tick].map Input.expire, ∀ c, i ≠ .move c := by
    intro i hi c e
    subst e
    simp at hi
  have h1 : Known K layout c count evs L ({ s with clock := s.clock + 12 } : CState) :=
    (h.step (S := S) (n := n) (i := .wait 12) hp hc hcount hr (by simp) rfl).2.1
  have h2 := (h1.run hp hc hcount hr hnomove e2).2
  have move : ∀ p, At p s → At p s2 ∧ (∀ d, (Task.scan, d) ∉ s2.timers) ∧ (∀ d, (Task.tick, d) ∉ s2.timers) := by
    intro p hat
    have hp1 : At p ({ s with clock := s.clock + 12 } : CState) := by
      refine Same.at ?_ hat
      exact ⟨rfl, rfl, rfl, fun _ _ => Iff.rfl, fun _ _ _ => Iff.rfl⟩
    obtain ⟨x1, x2, x3, x4⟩ := expires hp1 e2
    exact ⟨x1, x4 .scan (by simp) (fun d hd => h.track.scan d hd), x4 .tick (by simp) (fun d hd => h.track.tick d hd)⟩
  cases hlv with
  | asleep ha hl =>
    obtain ⟨x1, _, _⟩ := move _ ha
    exact ((h2.of_at x1).run hp hc hcount hr noMove_process e').2.mono (by show _ ≤ 51; omega)
  | arming ha hl =>
    obtain ⟨x1, _, _⟩ := move _ ha
    exact ((h2.of_at x1).run hp hc hcount hr noMove_process e').2.mono (by show _ ≤ 51; omega)
  | tick ha hl hpg =>
    obtain ⟨x1, _, notk⟩ := move _ ha
    have htk : .tick ∈ s2.events := (x1.2.2.2.2.2.1).resolve_right fun ⟨d, hd⟩ => notk d hd
    have hleft : left s2 < 9 := by
      have : left s2 ≤ [Task.timeout, .keyboard, .mouse, .consumer].length := List.countP_le_length
      simp at this
      omega
    exact h2.ticks hp hc hcount hr hL x1 htk hleft e'
  | scan ha hl =>
    obtain ⟨x1, nosc, _⟩ := move _ ha
    rw [show (9 : Nat) = 8 + 1 from rfl, List.replicate_succ] at e'
    simp only [State.run] at e'
    obtain ⟨s3, e3, e'⟩ := Res.bind_eq_ok.1 e'
    have h3 := (h2.step hp hc hcount hr (by simp) e3).2.1
    have hsc : .scan ∈ s2.events := (x1.2.2.2.2.1).resolve_right fun ⟨d, hd⟩ => nosc d hd
    have hat3 : At .tick s3 := by
      simp only [State.step, State.process] at e3
      rw [if_neg (by rw [x1.2.2.1]; simp), if_neg (fun hw => x1.2.2.2.1 (Or.inl hw)), if_pos hsc] at e3
      exact at_onScan x1 hsc e3
    exact ((h3.of_at hat3).run hp hc hcount hr noMove_process e').2.mono (by show _ ≤ 2; omega)
  | waking ha hl =>
    obtain ⟨x1, _, _⟩ := move _ ha
    rw [show (9 : Nat) = 8 + 1 from rfl, List.replicate_succ] at e'
    simp only [State.run] at e'
    obtain ⟨s3, e3, e'⟩ := Res.bind_eq_ok.1 e'
    have h3 := (h2.step hp hc hcount hr (by simp) e3).2.1
    have hat3 : At .scan s3 := by
      simp only [State.step, State.process] at e3
      rw [if_neg (by rw [x1.2.2.1]; simp), if_pos x1.2.2.2.1] at e3
      rw [← Res.ok.inj e3]
      exact at_onWake x1
    exact ((h3.of_at hat3).run hp hc hcount hr noMove_process e').2.mono (by show _ ≤ 1; omega)

theorem noMove_rounds {k : Nat} : ∀ i ∈ (List.replicate k Ble.round).flatten, ∀ c, i ≠ .move c := by
  intro i hi
  obtain ⟨l, h1, h2⟩ := List.mem_flatten.1 hi
  rw [(List.mem_replicate.1 h1).2] at h2
  exact noMove_round i h2

theorem Known.rounds (hp : Comp.Plain K refs c layout) (hc : count ≤ layout.length) (hcount : count ≤ 255) (hr : ∀ k < count, row k < rows) {k : Nat} :
    ∀ {L : Nat} {s : CState}, L ≤ 51 → Known K layout c count evs L s →
    s.run ⟨Comp.system K, refs, S⟩ (n + 2) row rows (List.replicate k Ble.round).flatten = .ok s' → Known K layout c count evs (min (L + k) 51) s' := by
  induction k with
  | zero => intro L s hL h e; cases e; exact h.mono (by omega)
  | succ k ih =>
    intro L s hL h e
    rw [List.replicate_succ, List.flatten_cons] at e
    obtain ⟨s1, e1, e⟩ := run_append e
    by_cases hlt : L ≤ 50
    · exact (ih (by omega) (h.round hp hc hcount hr hlt e1) e).mono (by omega)
    · have h1 := (h.run hp hc hcount hr noMove_round e1).2
      exact (ih hL h1 e).mono (by omega)

end

end Verif.Ble
