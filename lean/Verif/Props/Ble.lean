import Verif.Spec.Ble
import Verif.Props.Firmware
import Verif.Example

/-!
# C72 to C74: the ch58x keyboard
-/

namespace Verif.Ble

variable {R Ev Ctx PKS KS : Type} {C : Cfg R Ev Ctx PKS KS} {n : Nat} {row : Nat → Nat} {rows : Nat}

/-! ## Tasks -/

theorem pending_start {s : State R Ev Ctx PKS KS} {t u : Task} {d : Nat} :
    Pending t (s.start u d) ↔ t = u ∨ Pending t s := by
  simp only [Pending, State.start, List.mem_cons, List.mem_filter, Prod.mk.injEq, decide_eq_true_eq]
  constructor
  · rintro (h | ⟨d', ⟨rfl, _⟩ | ⟨h, _⟩⟩)
    · exact Or.inr (Or.inl h)
    · exact Or.inl rfl
    · exact Or.inr (Or.inr ⟨d', h⟩)
  · rintro (rfl | h | ⟨d', h⟩)
    · exact Or.inr ⟨_, Or.inl ⟨rfl, rfl⟩⟩
    · exact Or.inl h
    · by_cases e : t = u
      · subst e; exact Or.inr ⟨_, Or.inl ⟨rfl, rfl⟩⟩
      · exact Or.inr ⟨d', Or.inr ⟨h, e⟩⟩

theorem pending_done_ne {s : State R Ev Ctx PKS KS} {t u : Task} (h : t ≠ u) : Pending t (s.done u) ↔ Pending t s := by
  simp [Pending, State.done, h]

theorem mem_events_done {s : State R Ev Ctx PKS KS} {t u : Task} : t ∈ (s.done u).events ↔ t ∈ s.events ∧ t ≠ u := by
  simp [State.done]

theorem not_pending_done {s : State R Ev Ctx PKS KS} {t : Task} (h : ∀ d, (t, d) ∉ s.timers) : ¬ Pending t (s.done t) := by
  simp [Pending, State.done, h]

theorem pending_set {s : State R Ev Ctx PKS KS} {t u : Task} : Pending t (s.set u) ↔ t = u ∨ Pending t s := by
  simp only [Pending, State.set]
  by_cases hu : u ∈ s.events
  · rw [if_pos hu]
    constructor
    · exact Or.inr
    · rintro (rfl | h)
      · exact Or.inl hu
      · exact h
  · rw [if_neg hu]
    simp only [List.mem_cons, or_assoc]

/-- The parts of the state that comparing reports does not touch. -/
theorem compare_frame (s : State R Ev Ctx PKS KS) :
    ∃ ts, s.compare = { s with timers := ts } ∧
      ∀ t d, t ≠ .keyboard → t ≠ .mouse → t ≠ .consumer → ((t, d) ∈ ts ↔ (t, d) ∈ s.timers) := by
  have h1 : ∀ (s : State R Ev Ctx PKS KS) (u : Task) (c : Prop) [Decidable c], ∃ ts, (if c then s.start u 1 else s) = { s with timers := ts } ∧
      ∀ t d, t ≠ u → ((t, d) ∈ ts ↔ (t, d) ∈ s.timers) := by
    intro s u c _
    by_cases hc : c
    · exact ⟨_, by rw [if_pos hc]; rfl, fun t d h => by simp [h]⟩
    · exact ⟨s.timers, by rw [if_neg hc], fun t d _ => Iff.rfl⟩
  unfold State.compare
  obtain ⟨t1, e1, f1⟩ := h1 s .keyboard (s.report.keyboard ≠ s.previous.keyboard)
  rw [e1]
  obtain ⟨t2, e2, f2⟩ := h1 { s with timers := t1 } .mouse
    (s.report.mouse ≠ s.previous.mouse ∨ s.report.mouse ≠ MouseOutput.none)
  simp only at e2 ⊢
  rw [e2]
  obtain ⟨t3, e3, f3⟩ := h1 { s with timers := t2 } .consumer (s.report.consumer ≠ s.previous.consumer)
  simp only at e3 ⊢
  rw [e3]
  exact ⟨t3, rfl, fun t d a b c => (f3 t d c).trans ((f2 t d b).trans (f1 t d a))⟩

theorem registerAfter_frame : ∀ {es : List (Option Bool)} {i : Nat} {s s' : State R Ev Ctx PKS KS} {next next' : Nat},
    registerAfter C n i s next es = .ok (s', next') →
    ∃ km r made u, s' = { s with km := km, report := r, made := made, updated := u }
  | [], _, s, s', _, _, h => by
    cases h
    exact ⟨s.km, s.report, s.made, s.updated, rfl⟩
  | none :: es, i, s, s', _, _, h => registerAfter_frame (es := es) h
  | some b :: es, i, s, s', next, next', h => by
    simp only [registerAfter] at h
    obtain ⟨⟨km, r, nx⟩, _, h⟩ := Res.bind_eq_ok.1 h
    obtain ⟨km', r', made', u', e⟩ := registerAfter_frame (es := es) h
    exact ⟨km', r', made', u', e⟩

/-! ## Phases -/

/-- Where the keyboard is in its cycle. -/
inductive Phase where
  | asleep | waking | scan | tick | arming

/-- What holds in each phase. -/
def At : Phase → State R Ev Ctx PKS KS → Prop
  | .asleep, s => s.irq = true ∧ s.mode = .interrupt ∧ s.pc = .idle ∧ ¬ Pending .wake s ∧ ¬ Pending .scan s ∧ ¬ Pending .tick s
  | .waking, s => s.irq = false ∧ s.mode = .interrupt ∧ s.pc = .idle ∧ .wake ∈ s.events ∧ (∀ d, (Task.wake, d) ∉ s.timers) ∧
      ¬ Pending .scan s ∧ ¬ Pending .tick s
  | .scan, s => s.irq = false ∧ s.mode = .scanning ∧ s.pc = .idle ∧ ¬ Pending .wake s ∧ Pending .scan s ∧
      ¬ (.scan ∈ s.events ∧ ∃ d, (Task.scan, d) ∈ s.timers) ∧ ¬ Pending .tick s
  | .tick, s => s.irq = false ∧ s.mode = .scanning ∧ s.pc = .idle ∧ ¬ Pending .wake s ∧ ¬ Pending .scan s ∧ Pending .tick s ∧
      ¬ (.tick ∈ s.events ∧ ∃ d, (Task.tick, d) ∈ s.timers)
  | .arming, s => s.irq = false ∧ s.mode = .interrupt ∧ s.pc = .arming ∧ ¬ Pending .wake s ∧ ¬ Pending .scan s ∧
      .tick ∈ s.events ∧ ∀ d, (Task.tick, d) ∉ s.timers

/-- The parts of the state on which the phases depend. -/
structure Same (s s' : State R Ev Ctx PKS KS) : Prop where
  irq : s'.irq = s.irq
  mode : s'.mode = s.mode
  pc : s'.pc = s.pc
  events : ∀ t, t = .wake ∨ t = .scan ∨ t = .tick → (t ∈ s'.events ↔ t ∈ s.events)
  timers : ∀ t d, t = .wake ∨ t = .scan ∨ t = .tick → ((t, d) ∈ s'.timers ↔ (t, d) ∈ s.timers)

theorem Same.pending {s s' : State R Ev Ctx PKS KS} (h : Same s s') {t : Task} (ht : t = .wake ∨ t = .scan ∨ t = .tick) :
    Pending t s' ↔ Pending t s := by
  simp only [Pending, h.events t ht, h.timers t _ ht]

theorem Same.at {s s' : State R Ev Ctx PKS KS} (h : Same s s') {p : Phase} (hp : At p s) : At p s' := by
  have hw := h.pending (t := .wake) (by simp)
  have hs := h.pending (t := .scan) (by simp)
  have ht := h.pending (t := .tick) (by simp)
  have ew := h.events .wake (by simp)
  have es := h.events .scan (by simp)
  have et := h.events .tick (by simp)
  have tw := fun d => h.timers .wake d (by simp)
  have ts := fun d => h.timers .scan d (by simp)
  have tt := fun d => h.timers .tick d (by simp)
  cases p <;> simpa only [At, h.irq, h.mode, h.pc, hw, hs, ht, ew, es, et, tw, ts, tt] using hp

theorem Same.refl (s : State R Ev Ctx PKS KS) : Same s s := ⟨rfl, rfl, rfl, fun _ _ => Iff.rfl, fun _ _ _ => Iff.rfl⟩

theorem Same.trans {s s' s'' : State R Ev Ctx PKS KS} (h : Same s s') (h' : Same s' s'') : Same s s'' :=
  ⟨h'.irq.trans h.irq, h'.mode.trans h.mode, h'.pc.trans h.pc, fun t ht => (h'.events t ht).trans (h.events t ht),
    fun t d ht => (h'.timers t d ht).trans (h.timers t d ht)⟩

theorem Same.compare (s : State R Ev Ctx PKS KS) : Same s s.compare := by
  obtain ⟨ts, e, h⟩ := compare_frame s
  rw [e]
  refine ⟨rfl, rfl, rfl, fun _ _ => Iff.rfl, fun t d ht => h t d ?_ ?_ ?_⟩ <;> rcases ht with rfl | rfl | rfl <;> simp

theorem Same.done {s : State R Ev Ctx PKS KS} {t : Task} (ht : t = .timeout ∨ t = .keyboard ∨ t = .mouse ∨ t = .consumer) :
    Same s (s.done t) := by
  refine ⟨rfl, rfl, rfl, fun u hu => ?_, fun _ _ _ => Iff.rfl⟩
  rw [mem_events_done]
  constructor
  · exact And.left
  · exact fun h => ⟨h, by rcases ht with rfl | rfl | rfl | rfl <;> rcases hu with rfl | rfl | rfl <;> simp⟩

theorem Same.start {s : State R Ev Ctx PKS KS} {d : Nat} : Same s (s.start .timeout d) := by
  refine ⟨rfl, rfl, rfl, fun _ _ => Iff.rfl, fun u d' hu => ?_⟩
  rcases hu with rfl | rfl | rfl <;> simp [State.start]

theorem at_onWake {s : State R Ev Ctx PKS KS} (h : At .waking s) : At .scan s.onWake := by
  obtain ⟨_, _, h3, h4, h5, h6, h7⟩ := h
  refine ⟨rfl, rfl, h3, not_pending_done fun d hd => ?_, ?_, ?_, ?_⟩
  · simp only [State.start, List.mem_cons, List.mem_filter, Prod.mk.injEq] at hd
    rcases hd with ⟨h, _⟩ | ⟨h, _⟩
    · cases h
    · exact h5 d h
  · rw [State.onWake, pending_done_ne (by simp), pending_start]
    exact Or.inl rfl
  · rintro ⟨he, _⟩
    have := (mem_events_done.1 he).1
    exact h6 (Or.inl this)
  · rw [State.onWake, pending_done_ne (by simp), pending_start]
    rintro (h | h)
    · cases h
    · exact h7 h

/-- After a scan a tick is due. -/
theorem at_scanned {s : State R Ev Ctx PKS KS} (h : At .scan s) (he : .scan ∈ s.events) :
    At .tick ((s.start .tick 12).compare.done .scan) := by
  obtain ⟨h1, h2, h3, h4, h5, h6, h7⟩ := h
  have hc := Same.compare (s.start .tick 12)
  have hno : ∀ d, (Task.scan, d) ∉ s.timers := fun d hd => h6 ⟨he, d, hd⟩
  refine ⟨hc.irq.trans h1, hc.mode.trans h2, hc.pc.trans h3, ?_, not_pending_done fun d hd => ?_, ?_, ?_⟩
  · rw [pending_done_ne (by simp), hc.pending (by simp), pending_start]
    rintro (h | h)
    · cases h
    · exact h4 h
  · rw [hc.timers _ _ (by simp)] at hd
    simp only [State.start, List.mem_cons, List.mem_filter, Prod.mk.injEq] at hd
    rcases hd with ⟨h, _⟩ | ⟨h, _⟩
    · cases h
    · exact hno d h
  · rw [pending_done_ne (by simp), hc.pending (by simp), pending_start]
    exact Or.inl rfl
  · rintro ⟨ht, _⟩
    have := (hc.events .tick (by simp)).1 (mem_events_done.1 ht).1
    exact h7 (Or.inl this)

theorem at_onScan {s s' : State R Ev Ctx PKS KS} (h : At .scan s) (he : .scan ∈ s.events) (e : s.onScan C n = .ok s') : At .tick s' := by
  simp only [State.onScan] at e
  obtain ⟨⟨s1, next⟩, e1, e⟩ := Res.bind_eq_ok.1 e
  obtain ⟨km, r, made, u, rfl⟩ := registerAfter_frame e1
  have e := Res.ok.inj e
  rw [← e]
  have hs : ∀ s1 : State R Ev Ctx PKS KS, Same s s1 → At .tick ((s1.start .tick 12).compare.done .scan) := fun s1 hs =>
    at_scanned (hs.at h) ((hs.events .scan (by simp)).2 he)
  apply hs
  split
  · exact (Same.trans ⟨rfl, rfl, rfl, fun _ _ => Iff.rfl, fun _ _ _ => Iff.rfl⟩ Same.start).trans
      ⟨rfl, rfl, rfl, fun _ _ => Iff.rfl, fun _ _ _ => Iff.rfl⟩
  · exact ⟨rfl, rfl, rfl, fun _ _ => Iff.rfl, fun _ _ _ => Iff.rfl⟩

theorem at_onTick {s s' : State R Ev Ctx PKS KS} (h : At .tick s) (he : .tick ∈ s.events) (e : s.onTick C n = .ok s') :
    At .tick s' ∨ At .arming s' := by
  simp only [State.onTick] at e
  obtain ⟨km1, e1, e⟩ := Res.bind_eq_ok.1 e
  obtain ⟨⟨km, r⟩, e2, e⟩ := Res.bind_eq_ok.1 e
  obtain ⟨h1, h2, h3, h4, h5, h6, h7⟩ := h
  have hno : ∀ d, (Task.tick, d) ∉ s.timers := fun d hd => h7 ⟨he, d, hd⟩
  simp only at e
  split at e
  · have e := Res.ok.inj e
    rw [← e]
    left
    generalize hs1 : ({ ({ s with matrix := (s.matrix.scan s.closed).1 }).make km r with updated := s.clock } : State R Ev Ctx PKS KS) = s1
    have hs : Same s s1 := by subst hs1; exact ⟨rfl, rfl, rfl, fun _ _ => Iff.rfl, fun _ _ _ => Iff.rfl⟩
    have hc := Same.compare (s1.start .tick 12)
    refine ⟨hc.irq.trans (hs.irq.trans h1), hc.mode.trans (hs.mode.trans h2), hc.pc.trans (hs.pc.trans h3), ?_, ?_, ?_, ?_⟩
    · rw [pending_done_ne (by simp), hc.pending (by simp), pending_start, hs.pending (by simp)]
      simpa using h4
    · rw [pending_done_ne (by simp), hc.pending (by simp), pending_start, hs.pending (by simp)]
      simpa using h5
    · refine Or.inr ⟨s1.clock + 12, ?_⟩
      exact (hc.timers .tick _ (by simp)).2 (by simp [State.start])
    · rintro ⟨ht, _⟩
      exact (mem_events_done.1 ht).2 rfl
  · have e := Res.ok.inj e
    rw [← e]
    right
    exact ⟨h1, rfl, rfl, h4, h5, he, hno⟩

theorem at_armed {s : State R Ev Ctx PKS KS} (h : At .arming s) : At .asleep s.armed := by
  obtain ⟨h1, h2, h3, h4, h5, h6, h7⟩ := h
  have hc := Same.compare ({ s with pc := .idle, irq := true } : State R Ev Ctx PKS KS)
  refine ⟨hc.irq, hc.mode.trans h2, hc.pc, ?_, ?_, not_pending_done fun d hd => ?_⟩
  · rw [State.armed, pending_done_ne (by simp), hc.pending (by simp)]; exact h4
  · rw [State.armed, pending_done_ne (by simp), hc.pending (by simp)]; exact h5
  · rw [hc.timers _ _ (by simp)] at hd; exact h7 d hd

theorem same_onTimeout {s s' : State R Ev Ctx PKS KS} (e : s.onTimeout C n = .ok s') : Same s s' := by
  simp only [State.onTimeout] at e
  obtain ⟨⟨km, r, next⟩, e1, e⟩ := Res.bind_eq_ok.1 e
  have e := Res.ok.inj e
  rw [← e]
  simp only
  refine Same.trans ?_ (Same.trans (Same.compare _) (Same.done (by simp)))
  split
  · refine Same.trans (s' := { s.make km r with updated := s.clock }) ?_ Same.start
    exact ⟨rfl, rfl, rfl, fun _ _ => Iff.rfl, fun _ _ _ => Iff.rfl⟩
  · exact ⟨rfl, rfl, rfl, fun _ _ => Iff.rfl, fun _ _ _ => Iff.rfl⟩

theorem same_report {s : State R Ev Ctx PKS KS} {ok : Bool} :
    Same s (s.onKeyboard ok) ∧ Same s (s.onMouse ok) ∧ Same s (s.onConsumer ok) := by
  refine ⟨?_, ?_, ?_⟩ <;> refine Same.trans ?_ (Same.done (by simp)) <;> split <;>
    exact ⟨rfl, rfl, rfl, fun _ _ => Iff.rfl, fun _ _ _ => Iff.rfl⟩

theorem at_process {s s' : State R Ev Ctx PKS KS} {p : Phase} {ok : Bool} (h : At p s) (e : s.process C n ok = .ok s') :
    ∃ p', At p' s' := by
  unfold State.process at e
  split at e
  · next hp =>
    cases p with
    | arming => cases e; exact ⟨.asleep, at_armed h⟩
    | _ => exact absurd (h.2.2.1.symm.trans hp) (by simp)
  · next hp =>
    split at e
    · next hw =>
      cases p with
      | waking => cases e; exact ⟨.scan, at_onWake h⟩
      | asleep => exact absurd (Or.inl hw) h.2.2.2.1
      | scan => exact absurd (Or.inl hw) h.2.2.2.1
      | tick => exact absurd (Or.inl hw) h.2.2.2.1
      | arming => exact absurd (Or.inl hw) h.2.2.2.1
    · next hw =>
      split at e
      · next hs =>
        cases p with
        | waking => exact absurd h.2.2.2.1 hw
        | asleep => exact absurd (Or.inl hs) h.2.2.2.2.1
        | scan => exact ⟨.tick, at_onScan h hs e⟩
        | tick => exact absurd (Or.inl hs) h.2.2.2.2.1
        | arming => exact absurd (Or.inl hs) h.2.2.2.2.1
      · next hs =>
        split at e
        · exact ⟨p, (same_onTimeout e).at h⟩
        · split at e
          · cases e; exact ⟨p, same_report.1.at h⟩
          · split at e
            · cases e; exact ⟨p, same_report.2.1.at h⟩
            · split at e
              · cases e; exact ⟨p, same_report.2.2.at h⟩
              · split at e
                · next ht =>
                  cases p with
                  | waking => exact absurd (Or.inl ht) h.2.2.2.2.2.2
                  | asleep => exact absurd (Or.inl ht) h.2.2.2.2.2
                  | scan => exact absurd (Or.inl ht) h.2.2.2.2.2.2
                  | tick => rcases at_onTick h ht e with h | h
                            · exact ⟨_, h⟩
                            · exact ⟨_, h⟩
                  | arming => exact absurd h.2.2.1 hp
                · cases e; exact ⟨p, h⟩

/-- A task becomes due. -/
theorem at_expire {s : State R Ev Ctx PKS KS} {p : Phase} (t : Task) (hm : ∃ d, (t, d) ∈ s.timers) (h : At p s) :
    At p ({ s with timers := s.timers.filter (·.1 ≠ t) }.set t) := by
  obtain ⟨d0, hm⟩ := hm
  have hmem : ∀ u d, (u, d) ∈ s.timers.filter (·.1 ≠ t) ↔ (u, d) ∈ s.timers ∧ u ≠ t := fun u d => by simp
  have hpen : ∀ u, Pending u ({ s with timers := s.timers.filter (·.1 ≠ t) }.set t) ↔ Pending u s := by
    intro u
    rw [pending_set]
    simp only [Pending, hmem]
    constructor
    · rintro (rfl | h | ⟨d, h, _⟩)
      · exact Or.inr ⟨d0, hm⟩
      · exact Or.inl h
      · exact Or.inr ⟨d, h⟩
    · rintro (h | ⟨d, h⟩)
      · exact Or.inr (Or.inl h)
      · by_cases e : u = t
        · exact Or.inl e
        · exact Or.inr (Or.inr ⟨d, h, e⟩)
  have hev : ∀ u, u ∈ ({ s with timers := s.timers.filter (·.1 ≠ t) }.set t).events ↔ u = t ∨ u ∈ s.events := by
    intro u
    simp only [State.set]
    split
    · next h => exact ⟨Or.inr, fun h' => h'.elim (fun e => e ▸ h) id⟩
    · simp
  have htm : ∀ u d, (u, d) ∈ ({ s with timers := s.timers.filter (·.1 ≠ t) }.set t).timers ↔ (u, d) ∈ s.timers ∧ u ≠ t := hmem
  cases p with
  | asleep =>
    obtain ⟨h1, h2, h3, h4, h5, h6⟩ := h
    exact ⟨h1, h2, h3, by rwa [hpen], by rwa [hpen], by rwa [hpen]⟩
  | waking =>
    obtain ⟨h1, h2, h3, h4, h5, h6, h7⟩ := h
    exact ⟨h1, h2, h3, (hev _).2 (Or.inr h4), fun d hd => h5 d ((htm _ _).1 hd).1, by rwa [hpen], by rwa [hpen]⟩
  | scan =>
    obtain ⟨h1, h2, h3, h4, h5, h6, h7⟩ := h
    refine ⟨h1, h2, h3, by rwa [hpen], by rwa [hpen], ?_, by rwa [hpen]⟩
    rintro ⟨he, d, hd⟩
    obtain ⟨hd, hne⟩ := (htm _ _).1 hd
    rcases (hev _).1 he with e | he
    · exact hne e
    · exact h6 ⟨he, d, hd⟩
  | tick =>
    obtain ⟨h1, h2, h3, h4, h5, h6, h7⟩ := h
    refine ⟨h1, h2, h3, by rwa [hpen], by rwa [hpen], by rwa [hpen], ?_⟩
    rintro ⟨he, d, hd⟩
    obtain ⟨hd, hne⟩ := (htm _ _).1 hd
    rcases (hev _).1 he with e | he
    · exact hne e
    · exact h7 ⟨he, d, hd⟩
  | arming =>
    obtain ⟨h1, h2, h3, h4, h5, h6, h7⟩ := h
    exact ⟨h1, h2, h3, by rwa [hpen], by rwa [hpen], (hev _).2 (Or.inr h6), fun d hd => h7 d ((htm _ _).1 hd).1⟩

theorem at_step {s s' : State R Ev Ctx PKS KS} {p : Phase} {i : Input} (h : At p s) (e : s.step C n row rows i = .ok s') :
    ∃ p', At p' s' := by
  cases i with
  | wait t =>
    cases e
    refine ⟨p, Same.at ?_ h⟩
    exact ⟨rfl, rfl, rfl, fun _ _ => Iff.rfl, fun _ _ _ => Iff.rfl⟩
  | expire t =>
    simp only [State.step] at e
    split at e
    · next d hf =>
      split at e
      · have ht : ∃ d, (t, d) ∈ s.timers := by
          have h1 := List.mem_of_find?_eq_some hf
          have h2 := List.find?_some hf
          simp only [decide_eq_true_eq] at h2
          exact ⟨d, by rw [← h2]; exact h1⟩
        cases e
        exact ⟨p, at_expire t ht h⟩
      · cases e; exact ⟨p, h⟩
    · cases e; exact ⟨p, h⟩
  | move closed =>
    simp only [State.step] at e
    split at e
    · next hr =>
      simp only [Bool.and_eq_true] at hr
      cases p with
      | asleep =>
        obtain ⟨h1, h2, h3, h4, h5, h6⟩ := h
        cases e
        refine ⟨.waking, rfl, h2, h3, ?_, fun d hd => h4 (Or.inr ⟨d, hd⟩), ?_, ?_⟩
        · simp only [State.interrupt, State.set]
          split
          · next h => exact h
          · simp
        · rw [State.interrupt, pending_set]; rintro (h | h)
          · cases h
          · exact h5 h
        · rw [State.interrupt, pending_set]; rintro (h | h)
          · cases h
          · exact h6 h
      | _ => exact absurd (h.1.symm.trans hr.1) (by simp)
    · cases e
      refine ⟨p, Same.at ?_ h⟩
      exact ⟨rfl, rfl, rfl, fun _ _ => Iff.rfl, fun _ _ _ => Iff.rfl⟩
  | process ok => exact at_process h e

theorem at_run : ∀ {is : List Input} {s s' : State R Ev Ctx PKS KS} {p : Phase}, At p s → s.run C n row rows is = .ok s' → ∃ p', At p' s'
  | [], _, _, p, h, e => by cases e; exact ⟨p, h⟩
  | i :: is, s, s', p, h, e => by
    simp only [State.run] at e
    obtain ⟨s1, e1, e⟩ := Res.bind_eq_ok.1 e
    obtain ⟨p1, h1⟩ := at_step h e1
    exact at_run h1 e

theorem at_new (count : Nat) (km : KM R Ev Ctx PKS KS) : At .asleep (State.new count km) := by
  simp [At, State.new, Pending]

/-! ## C72 -/

/-- C72: whatever happens, the keyboard does not go deaf: it waits for a key to be pressed, or will scan its switches before. -/
theorem C72_listening (count : Nat) (km : KM R Ev Ctx PKS KS) (is : List Input) (s : State R Ev Ctx PKS KS)
    (h : (State.new count km).run C n row rows is = .ok s) : Listening s := by
  obtain ⟨p, hp⟩ := at_run (at_new count km) h
  cases p with
  | asleep => exact Or.inl ⟨hp.1, hp.2.1⟩
  | waking => exact Or.inr (Or.inl hp.2.2.2.1)
  | scan => exact Or.inr (Or.inr (Or.inl hp.2.2.2.2.1))
  | tick => exact Or.inr (Or.inr (Or.inr hp.2.2.2.2.2.1))
  | arming => exact Or.inr (Or.inr (Or.inr (Or.inl hp.2.2.2.2.2.1)))

/-- C72: whenever the switches are scanned, the pins are configured for it, so that the scan reads the switches (C71). -/
theorem C72_configured (count : Nat) (km : KM R Ev Ctx PKS KS) (is : List Input) (s : State R Ev Ctx PKS KS)
    (h : (State.new count km).run C n row rows is = .ok s) (hs : .scan ∈ s.events ∨ .tick ∈ s.events) (hp : s.pc = .idle) :
    s.mode = .scanning := by
  obtain ⟨p, hat⟩ := at_run (at_new count km) h
  cases p with
  | asleep => rcases hs with hs | hs
              · exact absurd (Or.inl hs) hat.2.2.2.2.1
              · exact absurd (Or.inl hs) hat.2.2.2.2.2
  | waking => rcases hs with hs | hs
              · exact absurd (Or.inl hs) hat.2.2.2.2.2.1
              · exact absurd (Or.inl hs) hat.2.2.2.2.2.2
  | scan => exact hat.2.1
  | tick => exact hat.2.1
  | arming => exact absurd (hat.2.2.1.symm.trans hp) (by simp)

/-! ### The switches are seen -/

/-- A scan takes over the state of every switch and counts the closed ones. -/
theorem scan_matrix (m : Firmware.Ch58x) (closed : List Bool) (hl : closed.length = m.debounced.length)
    (hp : m.pressed = BitVec.ofNat 8 (Firmware.countPressed m.debounced)) :
    (m.scan closed).1 = ⟨closed, BitVec.ofNat 8 (Firmware.countPressed closed)⟩ := by
  obtain ⟨e1, e2, _⟩ := Firmware.scanLoop58_spec m.debounced closed m.pressed hl
  have h1 : (m.scan closed).1.debounced = closed := e1
  have h2 : (m.scan closed).1.pressed = BitVec.ofNat 8 (Firmware.countPressed closed) := by
    show (Firmware.scanLoop58 m.debounced closed m.pressed).2.1 = _
    rw [e2, hp]
    generalize BitVec.ofNat 8 (Firmware.countPressed closed) = x
    generalize BitVec.ofNat 8 (Firmware.countPressed m.debounced) = y
    rw [BitVec.add_comm]; exact BitVec.add_sub_cancel x y
  cases hm : (m.scan closed).1 with
  | mk a b => rw [hm] at h1 h2; simp only at h1 h2; rw [h1, h2]

/-- What is known about the switches. -/
structure Track (count : Nat) (s : State R Ev Ctx PKS KS) : Prop where
  closed : s.closed.length = count
  debounced : s.matrix.debounced.length = count
  pressed : s.matrix.pressed = BitVec.ofNat 8 (Firmware.countPressed s.matrix.debounced)
  quiet : s.irq = true ∨ s.pc = .arming → s.closed = List.replicate count false ∧ s.matrix.debounced = s.closed
  scan : ∀ d, (Task.scan, d) ∈ s.timers → d ≤ s.clock + 12
  tick : ∀ d, (Task.tick, d) ∈ s.timers → d ≤ s.clock + 12

theorem not_rises {count : Nat} {closed : List Bool} (hl : closed.length = count) (hr : ∀ k < count, row k < rows)
    (h : rises row rows (List.replicate count false) closed = false) : closed = List.replicate count false := by
  apply List.ext_getElem
  · simp [hl]
  · intro k h1 h2
    rw [List.getElem_replicate]
    simp only [rises, List.any_eq_false, List.mem_range, Bool.and_eq_true, not_and, Bool.not_eq_true', Bool.not_eq_true] at h
    have hlow : rowHigh row (List.replicate count false) (row k) = false := by
      simp only [rowHigh, List.any_eq_false, List.mem_range, Bool.and_eq_true, not_and, Bool.not_eq_true]
      intro j hj _
      rw [List.getD_eq_getElem?_getD, List.getElem?_replicate]
      split <;> rfl
    have := h (row k) (hr k (by omega)) hlow
    simp only [rowHigh, List.any_eq_false, List.mem_range, Bool.and_eq_true, not_and, Bool.not_eq_true] at this
    have := this k h1 (by simp)
    rwa [List.getD_eq_getElem?_getD, List.getElem?_eq_getElem h1] at this

theorem none_pressed {l : List Bool} {count : Nat} (hl : l.length = count) (hc : count ≤ 255)
    (h : ¬ (BitVec.ofNat 8 (Firmware.countPressed l)).toNat > 0) : l = List.replicate count false := by
  have h1 : Firmware.countPressed l ≤ l.length := List.length_filter_le _ _
  have h2 : Firmware.countPressed l = 0 := by
    rw [BitVec.toNat_ofNat, Nat.mod_eq_of_lt (by omega)] at h
    omega
  apply List.ext_getElem
  · simp [hl]
  · intro k h3 h4
    rw [List.getElem_replicate]
    have h5 : l.filter id = [] := List.length_eq_zero_iff.1 h2
    have := List.filter_eq_nil_iff.1 h5 l[k] (List.getElem_mem h3)
    simpa using this

/-- The parts of the state on which `Track` depends, when interrupts stay disabled. -/
theorem Track.of_scan {count : Nat} {s s' : State R Ev Ctx PKS KS} (h : Track count s) (hc : s'.closed = s.closed)
    (hm : s'.matrix = s.matrix ∨ s'.matrix = (s.matrix.scan s.closed).1) (hq : s'.irq = false ∧ s'.pc = .idle)
    (hs : ∀ d, (Task.scan, d) ∈ s'.timers → d ≤ s'.clock + 12) (ht : ∀ d, (Task.tick, d) ∈ s'.timers → d ≤ s'.clock + 12) :
    Track count s' := by
  have e := scan_matrix s.matrix s.closed (h.closed.trans h.debounced.symm) h.pressed
  refine ⟨hc ▸ h.closed, ?_, ?_, fun h => ?_, hs, ht⟩
  · rcases hm with hm | hm <;> rw [hm]
    · exact h.debounced
    · rw [e]; exact h.closed
  · rcases hm with hm | hm <;> rw [hm]
    · exact h.pressed
    · rw [e]
  · rw [hq.1, hq.2] at h
    simp at h

/-- Leaving all of it as it was. -/
theorem Track.same {count : Nat} {s s' : State R Ev Ctx PKS KS} (h : Track count s) (hs : Same s s') (hc : s'.closed = s.closed)
    (hm : s'.matrix = s.matrix) (ht : s'.clock = s.clock) : Track count s' :=
  ⟨hc ▸ h.closed, hm ▸ h.debounced, hm ▸ h.pressed, by rw [hs.irq, hs.pc, hc, hm]; exact h.quiet,
    fun d hd => ht ▸ h.scan d ((hs.timers .scan d (by simp)).1 hd), fun d hd => ht ▸ h.tick d ((hs.timers .tick d (by simp)).1 hd)⟩

/-- A scan by `KEYBOARD_SCAN_EVT`. -/
theorem onScan_frame {s s' : State R Ev Ctx PKS KS} (e : s.onScan C n = .ok s') :
    s'.matrix = (s.matrix.scan s.closed).1 ∧ s'.closed = s.closed ∧ s'.clock = s.clock ∧
    (∀ d, (Task.scan, d) ∈ s'.timers → (Task.scan, d) ∈ s.timers) ∧ (∀ d, (Task.tick, d) ∈ s'.timers → d = s.clock + 12) ∧
    ∀ t, t ∈ s'.events ↔ t ∈ s.events ∧ t ≠ .scan := by
  simp only [State.onScan] at e
  obtain ⟨⟨s1, next⟩, e1, e⟩ := Res.bind_eq_ok.1 e
  obtain ⟨km, r, made, u, rfl⟩ := registerAfter_frame e1
  have e := Res.ok.inj e
  rw [← e]
  simp only
  split
  all_goals
    generalize hx : (State.start _ Task.tick 12) = x
    obtain ⟨ts, hc, hts⟩ := compare_frame x
    rw [hc]
    subst hx
    refine ⟨rfl, rfl, rfl, fun d hd => ?_, fun d hd => ?_, fun t => mem_events_done⟩
    · simpa [State.start] using (hts .scan d (by simp) (by simp) (by simp)).1 hd
    · simpa [State.start] using (hts .tick d (by simp) (by simp) (by simp)).1 hd

theorem onTimeout_frame {s s' : State R Ev Ctx PKS KS} (e : s.onTimeout C n = .ok s') :
    s'.matrix = s.matrix ∧ s'.closed = s.closed ∧ s'.clock = s.clock ∧ ∀ t, t ∈ s'.events ↔ t ∈ s.events ∧ t ≠ .timeout := by
  simp only [State.onTimeout] at e
  obtain ⟨⟨km, r, next⟩, e1, e⟩ := Res.bind_eq_ok.1 e
  have e := Res.ok.inj e
  rw [← e]
  simp only
  have key : ∀ x : State R Ev Ctx PKS KS, x.matrix = s.matrix → x.closed = s.closed → x.clock = s.clock → x.events = s.events →
      (x.compare.done .timeout).matrix = s.matrix ∧ (x.compare.done .timeout).closed = s.closed ∧
      (x.compare.done .timeout).clock = s.clock ∧ ∀ t, t ∈ (x.compare.done .timeout).events ↔ t ∈ s.events ∧ t ≠ .timeout := by
    intro x h1 h2 h3 h4
    obtain ⟨ts, hc, hts⟩ := compare_frame x
    rw [hc]
    exact ⟨h1, h2, h3, fun t => h4 ▸ mem_events_done⟩
  apply key <;> split <;> rfl

/-- A scan by `KEYMAP_TICK_EVT`. -/
theorem onTick_frame {s s' : State R Ev Ctx PKS KS} (e : s.onTick C n = .ok s') :
    s'.matrix = (s.matrix.scan s.closed).1 ∧ s'.closed = s.closed ∧ s'.clock = s.clock ∧
    ((s'.pc = s.pc ∧ (∀ d, (Task.scan, d) ∈ s'.timers → (Task.scan, d) ∈ s.timers) ∧
      ∀ d, (Task.tick, d) ∈ s'.timers → d = s.clock + 12) ∨
     ((∀ t d, (t, d) ∈ s'.timers ↔ (t, d) ∈ s.timers) ∧ ¬ s'.matrix.pressed.toNat > 0)) := by
  simp only [State.onTick] at e
  obtain ⟨km1, e1, e⟩ := Res.bind_eq_ok.1 e
  obtain ⟨⟨km, r⟩, e2, e⟩ := Res.bind_eq_ok.1 e
  simp only at e
  split at e
  · have e := Res.ok.inj e
    rw [← e]
    generalize hx : (State.start _ Task.tick 12) = x
    obtain ⟨ts, hc, hts⟩ := compare_frame x
    rw [hc]
    subst hx
    refine ⟨rfl, rfl, rfl, Or.inl ⟨rfl, fun d hd => ?_, fun d hd => ?_⟩⟩
    · simpa [State.start, State.make] using (hts .scan d (by simp) (by simp) (by simp)).1 hd
    · simpa [State.start, State.make] using (hts .tick d (by simp) (by simp) (by simp)).1 hd
  · next hn =>
    have e := Res.ok.inj e
    rw [← e]
    refine ⟨rfl, rfl, rfl, Or.inr ⟨fun _ _ => Iff.rfl, ?_⟩⟩
    simp only [Bool.or_eq_true, not_or, decide_eq_true_eq] at hn
    exact hn.2

theorem track_process {count : Nat} (hcount : count ≤ 255) {s s' : State R Ev Ctx PKS KS} {p : Phase} {ok : Bool} (hp : At p s)
    (h : Track count s) (e : s.process C n ok = .ok s') : Track count s' := by
  unfold State.process at e
  split at e
  · next hpc =>
    cases e
    obtain ⟨ts, hc, hts⟩ := compare_frame ({ s with pc := .idle, irq := true } : State R Ev Ctx PKS KS)
    unfold State.armed
    rw [hc]
    exact ⟨h.closed, h.debounced, h.pressed, fun _ => h.quiet (Or.inr hpc), fun d hd => h.scan d ((hts .scan d (by simp) (by simp) (by simp)).1 hd),
      fun d hd => h.tick d ((hts .tick d (by simp) (by simp) (by simp)).1 hd)⟩
  · next hpc =>
    have hidle : s.pc = .idle := by cases hx : s.pc with
      | idle => rfl
      | arming => exact absurd hx hpc
    split at e
    · cases e
      refine h.of_scan rfl (Or.inl rfl) ⟨rfl, hidle⟩ (fun d hd => ?_) (fun d hd => h.tick d ?_)
      · simp only [State.onWake, State.start, State.done, List.mem_cons, List.mem_filter, Prod.mk.injEq] at hd
        show d ≤ s.clock + 12
        rcases hd with ⟨_, rfl⟩ | ⟨h', _⟩
        · omega
        · exact h.scan d h'
      · simpa [State.onWake, State.start, State.done] using hd
    · next hw =>
      split at e
      · next hs =>
        obtain ⟨f1, f2, f3, f4, f5, _⟩ := onScan_frame e
        have hscan : At .scan s := by
          cases p with
          | scan => exact hp
          | waking => exact absurd hp.2.2.2.1 hw
          | asleep => exact absurd (Or.inl hs) hp.2.2.2.2.1
          | tick => exact absurd (Or.inl hs) hp.2.2.2.2.1
          | arming => exact absurd (Or.inl hs) hp.2.2.2.2.1
        have ha := at_onScan hscan hs e
        exact h.of_scan f2 (Or.inr f1) ⟨ha.1, ha.2.2.1⟩ (fun d hd => f3 ▸ h.scan d (f4 d hd)) (fun d hd => by
          rw [f5 d hd, f3]; exact Nat.le_refl _)
      · next hs =>
        split at e
        · obtain ⟨f1, f2, f3, _⟩ := onTimeout_frame e
          exact h.same (same_onTimeout e) f2 f1 f3
        · split at e
          · cases e
            refine h.same same_report.1 ?_ ?_ ?_ <;> cases ok <;> rfl
          · split at e
            · cases e
              refine h.same same_report.2.1 ?_ ?_ ?_ <;> cases ok <;> rfl
            · split at e
              · cases e
                refine h.same same_report.2.2 ?_ ?_ ?_ <;> cases ok <;> rfl
              · split at e
                · next ht =>
                  have htick : At .tick s := by
                    cases p with
                    | scan => exact absurd (Or.inl ht) hp.2.2.2.2.2.2
                    | waking => exact absurd (Or.inl ht) hp.2.2.2.2.2.2
                    | asleep => exact absurd (Or.inl ht) hp.2.2.2.2.2
                    | tick => exact hp
                    | arming => exact absurd hp.2.2.1 hpc
                  obtain ⟨f1, f2, f3, f4⟩ := onTick_frame e
                  have hsc := scan_matrix s.matrix s.closed (h.closed.trans h.debounced.symm) h.pressed
                  rcases f4 with ⟨g1, g2, g3⟩ | ⟨g1, g2⟩
                  · have hirq : s'.irq = false := by
                      rcases at_onTick htick ht e with ha | ha
                      · exact ha.1
                      · exact ha.1
                    exact h.of_scan f2 (Or.inr f1) ⟨hirq, g1.trans hidle⟩ (fun d hd => f3 ▸ h.scan d (g2 d hd)) (fun d hd => by
                      rw [g3 d hd, f3]; exact Nat.le_refl _)
                  · rw [f1, hsc] at g2
                    have hz := none_pressed h.closed hcount g2
                    refine ⟨f2 ▸ h.closed, ?_, ?_, fun _ => ⟨f2.trans hz, ?_⟩, fun d hd => f3 ▸ h.scan d ((g1 _ _).1 hd),
                      fun d hd => f3 ▸ h.tick d ((g1 _ _).1 hd)⟩
                    · rw [f1, hsc]; exact h.closed
                    · rw [f1, hsc]
                    · rw [f1, hsc, f2]
                · cases e; exact h

theorem track_step {count : Nat} (hcount : count ≤ 255) (hr : ∀ k < count, row k < rows) {s s' : State R Ev Ctx PKS KS} {p : Phase} {i : Input}
    (hp : At p s) (h : Track count s) (hi : ∀ closed, i = .move closed → s.pc = .idle ∧ closed.length = count)
    (e : s.step C n row rows i = .ok s') : Track count s' := by
  cases i with
  | wait t =>
    cases e
    exact ⟨h.closed, h.debounced, h.pressed, h.quiet, fun d hd => Nat.le_trans (h.scan d hd) (by show _ ≤ s.clock + t + 12; omega),
      fun d hd => Nat.le_trans (h.tick d hd) (by show _ ≤ s.clock + t + 12; omega)⟩
  | expire t =>
    simp only [State.step] at e
    have key : Track count ({ s with timers := s.timers.filter (·.1 ≠ t) }.set t) :=
      ⟨h.closed, h.debounced, h.pressed, h.quiet, fun d hd => h.scan d (List.mem_filter.1 hd).1,
        fun d hd => h.tick d (List.mem_filter.1 hd).1⟩
    split at e
    · split at e
      · cases e; exact key
      · cases e; exact h
    · cases e; exact h
  | move closed =>
    obtain ⟨hpc, hl⟩ := hi closed rfl
    simp only [State.step] at e
    split at e
    · cases e
      exact ⟨hl, h.debounced, h.pressed, fun hq => absurd hq (by simp [State.interrupt, State.set, hpc]), h.scan, h.tick⟩
    · next hn =>
      cases e
      refine ⟨hl, h.debounced, h.pressed, fun hq => ?_, h.scan, h.tick⟩
      rcases hq with hq | hq
      · have hq : s.irq = true := hq
        obtain ⟨q1, q2⟩ := h.quiet (Or.inl hq)
        rw [hq, q1] at hn
        have := not_rises hl hr (by simpa using hn)
        exact ⟨this, q2.trans (q1.trans this.symm)⟩
      · exact absurd (hpc.symm.trans hq) (by simp)
  | process ok => exact track_process hcount hp h e

theorem track_new (count : Nat) (km : KM R Ev Ctx PKS KS) : Track count (State.new count km) := by
  refine ⟨by simp [State.new], by simp [State.new], ?_, fun _ => ⟨rfl, rfl⟩, by simp [State.new], by simp [State.new]⟩
  show (0 : BitVec 8) = BitVec.ofNat 8 (Firmware.countPressed (List.replicate count false))
  simp only [Firmware.countPressed]
  rw [show (List.replicate count false).filter id = [] by simp]
  rfl

theorem track_run {count : Nat} (hcount : count ≤ 255) (hr : ∀ k < count, row k < rows) :
    ∀ {is : List Input} {s s' : State R Ev Ctx PKS KS} {p : Phase}, At p s → Track count s → undisturbed C n row rows s is = true →
    (∀ closed, Input.move closed ∈ is → closed.length = count) → s.run C n row rows is = .ok s' → ∃ p', At p' s' ∧ Track count s'
  | [], _, _, p, hp, h, _, _, e => by cases e; exact ⟨p, hp, h⟩
  | i :: is, s, s', p, hp, h, hu, hl, e => by
    simp only [State.run] at e
    obtain ⟨s1, e1, e⟩ := Res.bind_eq_ok.1 e
    obtain ⟨p1, h1⟩ := at_step hp e1
    simp only [undisturbed, e1, Bool.and_eq_true] at hu
    have h2 := track_step hcount hr hp h (fun c hc => ⟨by subst hc; exact of_decide_eq_true hu.1, hl c (hc ▸ List.mem_cons_self)⟩) e1
    exact track_run hcount hr h1 h2 hu.2 (fun c hc => hl c (List.mem_cons_of_mem _ hc)) e

theorem run_append : ∀ {is js : List Input} {s s' : State R Ev Ctx PKS KS}, s.run C n row rows (is ++ js) = .ok s' →
    ∃ s1, s.run C n row rows is = .ok s1 ∧ s1.run C n row rows js = .ok s'
  | [], _, s, _, e => ⟨s, rfl, e⟩
  | i :: is, js, s, s', e => by
    simp only [List.cons_append, State.run] at e
    obtain ⟨s1, e1, e⟩ := Res.bind_eq_ok.1 e
    obtain ⟨s2, e2, e⟩ := run_append e
    exact ⟨s2, by simp only [State.run, e1, Res.ok_bind, e2], e⟩

theorem scan_id {s : State R Ev Ctx PKS KS} {count : Nat} (h : Track count s) : (s.matrix.scan s.closed).1.debounced = s.closed := by
  rw [scan_matrix s.matrix s.closed (h.closed.trans h.debounced.symm) h.pressed]

/-- What one event does to the matrix: nothing, or a scan; the switches stay where they are. -/
theorem process_matrix {s s' : State R Ev Ctx PKS KS} {ok : Bool} (e : s.process C n ok = .ok s') :
    s'.closed = s.closed ∧ (s'.matrix = s.matrix ∨ s'.matrix = (s.matrix.scan s.closed).1) := by
  unfold State.process at e
  split at e
  · cases e
    obtain ⟨ts, hc, hts⟩ := compare_frame ({ s with pc := .idle, irq := true } : State R Ev Ctx PKS KS)
    unfold State.armed
    rw [hc]
    exact ⟨rfl, Or.inl rfl⟩
  · split at e
    · cases e; exact ⟨rfl, Or.inl rfl⟩
    · split at e
      · obtain ⟨f1, f2, _⟩ := onScan_frame e; exact ⟨f2, Or.inr f1⟩
      · split at e
        · obtain ⟨f1, f2, _⟩ := onTimeout_frame e; exact ⟨f2, Or.inl f1⟩
        · split at e
          · cases e; cases ok <;> exact ⟨rfl, Or.inl rfl⟩
          · split at e
            · cases e; cases ok <;> exact ⟨rfl, Or.inl rfl⟩
            · split at e
              · cases e; cases ok <;> exact ⟨rfl, Or.inl rfl⟩
              · split at e
                · obtain ⟨f1, f2, _⟩ := onTick_frame e; exact ⟨f2, Or.inr f1⟩
                · cases e; exact ⟨rfl, Or.inl rfl⟩

theorem step_matrix {s s' : State R Ev Ctx PKS KS} {i : Input} (hi : ∀ c, i ≠ .move c) (e : s.step C n row rows i = .ok s') :
    s'.closed = s.closed ∧ (s'.matrix = s.matrix ∨ s'.matrix = (s.matrix.scan s.closed).1) := by
  cases i with
  | wait t => cases e; exact ⟨rfl, Or.inl rfl⟩
  | expire t =>
    simp only [State.step] at e
    split at e
    · split at e <;> cases e <;> exact ⟨rfl, Or.inl rfl⟩
    · cases e; exact ⟨rfl, Or.inl rfl⟩
  | move c => exact absurd rfl (hi c)
  | process ok => exact process_matrix e

/-- The state of every switch is known, and nothing but moving a switch changes that. -/
theorem settled_run {count : Nat} (hcount : count ≤ 255) (hr : ∀ k < count, row k < rows) :
    ∀ {is : List Input} {s s' : State R Ev Ctx PKS KS} {p : Phase}, At p s → Track count s →
    (∀ i ∈ is, ∀ c, i ≠ .move c) → s.run C n row rows is = .ok s' →
    (∃ p', At p' s') ∧ Track count s' ∧ s'.closed = s.closed ∧ (s.matrix.debounced = s.closed → s'.matrix.debounced = s.closed)
  | [], _, _, p, hp, h, _, e => by cases e; exact ⟨⟨p, hp⟩, h, rfl, id⟩
  | i :: is, s, s', p, hp, h, hm, e => by
    simp only [State.run] at e
    obtain ⟨s1, e1, e⟩ := Res.bind_eq_ok.1 e
    obtain ⟨p1, h1⟩ := at_step hp e1
    have hi := hm i List.mem_cons_self
    have h2 := track_step hcount hr hp h (fun c hc => absurd hc (hi c)) e1
    obtain ⟨a, b, c, d⟩ := settled_run hcount hr h1 h2 (fun j hj => hm j (List.mem_cons_of_mem _ hj)) e
    obtain ⟨g1, g2⟩ := step_matrix hi e1
    refine ⟨a, b, c.trans g1, fun hs => ?_⟩
    rw [← g1]
    apply d
    rcases g2 with g2 | g2
    · rw [g2, g1]; exact hs
    · rw [g2, g1]; exact scan_id h

theorem expires {ts : List Task} : ∀ {s s' : State R Ev Ctx PKS KS} {p : Phase}, At p s → s.run C n row rows (ts.map .expire) = .ok s' →
    At p s' ∧ s'.clock = s.clock ∧ (∀ u d, (u, d) ∈ s'.timers → (u, d) ∈ s.timers) ∧
    ∀ u ∈ ts, (∀ d, (u, d) ∈ s.timers → d ≤ s.clock) → ∀ d, (u, d) ∉ s'.timers := by
  induction ts with
  | nil => intro s s' p hp e; cases e; exact ⟨hp, rfl, fun _ _ => id, by simp⟩
  | cons t ts ih =>
    intro s s' p hp e
    simp only [List.map_cons, State.run] at e
    obtain ⟨s1, e1, e⟩ := Res.bind_eq_ok.1 e
    have key : At p s1 ∧ s1.clock = s.clock ∧ (∀ u d, (u, d) ∈ s1.timers → (u, d) ∈ s.timers) ∧
        ((∀ d, (t, d) ∈ s.timers → d ≤ s.clock) → ∀ d, (t, d) ∉ s1.timers) := by
      simp only [State.step] at e1
      split at e1
      · next d hf =>
        have h1 := List.mem_of_find?_eq_some hf
        have h2 := List.find?_some hf
        simp only [decide_eq_true_eq] at h2
        rw [h2] at h1
        split at e1
        · cases e1
          refine ⟨at_expire t ⟨d, h1⟩ hp, rfl, fun u d hd => (List.mem_filter.1 hd).1, fun _ d hd => ?_⟩
          simpa using (List.mem_filter.1 hd).2
        · next hd =>
          cases e1
          exact ⟨hp, rfl, fun _ _ => id, fun hall => absurd (hall d h1) hd⟩
      · next hf =>
        cases e1
        refine ⟨hp, rfl, fun _ _ => id, fun _ d hd => ?_⟩
        have := List.find?_eq_none.1 hf (t, d) hd
        simp at this
    obtain ⟨k1, k2, k3, k4⟩ := key
    obtain ⟨j1, j2, j3, j4⟩ := ih k1 e
    refine ⟨j1, j2.trans k2, fun u d h => k3 u d (j3 u d h), fun u hu hall d hd => ?_⟩
    rcases List.mem_cons.1 hu with rfl | hu
    · exact k4 hall d (j3 _ _ hd)
    · exact j4 u hu (fun d hd => k2 ▸ hall d (k3 _ _ hd)) d hd

/-- The tasks that are processed before a tick. -/
def left (s : State R Ev Ctx PKS KS) : Nat := [Task.timeout, .keyboard, .mouse, .consumer].countP fun t => decide (t ∈ s.events)

theorem left_lt {s s' : State R Ev Ctx PKS KS} {t : Task} (ht : t = .timeout ∨ t = .keyboard ∨ t = .mouse ∨ t = .consumer)
    (hm : t ∈ s.events) (h : ∀ u, u ∈ s'.events ↔ u ∈ s.events ∧ u ≠ t) : left s' < left s := by
  simp only [left, h]
  rcases ht with rfl | rfl | rfl | rfl <;>
    simp only [List.countP_cons, List.countP_nil, ne_eq, not_true_eq_false, and_false, decide_false, hm, decide_true, reduceCtorEq,
      not_false_eq_true, and_true] <;> simp <;> omega

/-- The matrix is scanned, or one of the tasks that come before is done. -/
theorem process_tick {count : Nat} {s s' : State R Ev Ctx PKS KS} {ok : Bool} (hp : At .tick s) (h : Track count s) (ht : .tick ∈ s.events)
    (e : s.process C n ok = .ok s') :
    s'.matrix.debounced = s.closed ∨ (At .tick s' ∧ .tick ∈ s'.events ∧ left s' < left s) := by
  unfold State.process at e
  split at e
  · next hpc => exact absurd (hp.2.2.1.symm.trans hpc) (by simp)
  · split at e
    · next hw => exact absurd (Or.inl hw) hp.2.2.2.1
    · split at e
      · next hs => exact absurd (Or.inl hs) hp.2.2.2.2.1
      · split at e
        · next hm =>
          obtain ⟨_, _, _, f4⟩ := onTimeout_frame e
          exact Or.inr ⟨(same_onTimeout e).at hp, (f4 _).2 ⟨ht, by simp⟩, left_lt (by simp) hm f4⟩
        · split at e
          · next hm =>
            cases e
            have hev : ∀ u, u ∈ (s.onKeyboard ok).events ↔ u ∈ s.events ∧ u ≠ .keyboard := by
              intro u; cases ok <;> exact mem_events_done
            exact Or.inr ⟨same_report.1.at hp, (hev _).2 ⟨ht, by simp⟩, left_lt (by simp) hm hev⟩
          · split at e
            · next hm =>
              cases e
              have hev : ∀ u, u ∈ (s.onMouse ok).events ↔ u ∈ s.events ∧ u ≠ .mouse := by
                intro u; cases ok <;> exact mem_events_done
              exact Or.inr ⟨same_report.2.1.at hp, (hev _).2 ⟨ht, by simp⟩, left_lt (by simp) hm hev⟩
            · split at e
              · next hm =>
                cases e
                have hev : ∀ u, u ∈ (s.onConsumer ok).events ↔ u ∈ s.events ∧ u ≠ .consumer := by
                  intro u; cases ok <;> exact mem_events_done
                exact Or.inr ⟨same_report.2.2.at hp, (hev _).2 ⟨ht, by simp⟩, left_lt (by simp) hm hev⟩
              · obtain ⟨f1, _⟩ := onTick_frame e
                exact Or.inl (f1 ▸ scan_id h)

theorem process_scan {count : Nat} {s s' : State R Ev Ctx PKS KS} {ok : Bool} (hp : At .scan s) (h : Track count s)
    (e : s.process C n ok = .ok s') :
    s'.matrix.debounced = s.closed ∨ (.scan ∉ s.events ∧ At .scan s') := by
  unfold State.process at e
  split at e
  · next hpc => exact absurd (hp.2.2.1.symm.trans hpc) (by simp)
  · split at e
    · next hw => exact absurd (Or.inl hw) hp.2.2.2.1
    · split at e
      · obtain ⟨f1, _⟩ := onScan_frame e
        exact Or.inl (f1 ▸ scan_id h)
      · next hns =>
        refine Or.inr ⟨hns, ?_⟩
        split at e
        · exact (same_onTimeout e).at hp
        · split at e
          · cases e; exact same_report.1.at hp
          · split at e
            · cases e; exact same_report.2.1.at hp
            · split at e
              · cases e; exact same_report.2.2.at hp
              · split at e
                · next ht => exact absurd (Or.inl ht) hp.2.2.2.2.2.2
                · cases e; exact hp

theorem noMove_process {k : Nat} : ∀ i ∈ List.replicate k (Input.process true), ∀ c, i ≠ .move c := by
  intro i hi c e
  rw [e] at hi
  simp [List.mem_replicate] at hi

theorem noMove_round : ∀ i ∈ round, ∀ c, i ≠ .move c := by
  intro i hi c e
  subst e
  simp [round] at hi

theorem ticks_settle {count : Nat} (hcount : count ≤ 255) (hr : ∀ k < count, row k < rows) : ∀ {k : Nat} {s s' : State R Ev Ctx PKS KS}, At .tick s → Track count s → .tick ∈ s.events → left s < k →
    s.run C n row rows (List.replicate k (.process true)) = .ok s' → s'.matrix.debounced = s.closed
  | 0, _, _, _, _, _, hk, _ => absurd hk (by omega)
  | k + 1, s, s', hp, h, ht, hk, e => by
    simp only [List.replicate_succ, State.run] at e
    obtain ⟨s1, e1, e⟩ := Res.bind_eq_ok.1 e
    obtain ⟨p1, h1⟩ := at_step hp e1
    have h2 := track_step hcount hr hp h (by simp) e1
    have hc := (step_matrix (by simp) e1).1
    rcases process_tick hp h ht e1 with hs | ⟨a, b, c⟩
    · obtain ⟨_, _, _, d⟩ := settled_run hcount hr h1 h2 noMove_process e
      rw [← hc]
      exact d (hs.trans hc.symm)
    · rw [← hc]
      exact ticks_settle hcount hr a h2 b (by omega) e

theorem scans_settle {count : Nat} (hcount : count ≤ 255) (hr : ∀ k < count, row k < rows) : ∀ {k : Nat} {s s' : State R Ev Ctx PKS KS}, At .scan s → Track count s →
    s.run C n row rows (List.replicate k (.process true)) = .ok s' → s'.matrix.debounced = s.closed ∨ At .scan s'
  | 0, _, _, hp, _, e => by cases e; exact Or.inr hp
  | k + 1, s, s', hp, h, e => by
    simp only [List.replicate_succ, State.run] at e
    obtain ⟨s1, e1, e⟩ := Res.bind_eq_ok.1 e
    obtain ⟨p1, h1⟩ := at_step hp e1
    have h2 := track_step hcount hr hp h (by simp) e1
    have hc := (step_matrix (by simp) e1).1
    rcases process_scan hp h e1 with hs | ⟨_, a⟩
    · obtain ⟨_, _, _, d⟩ := settled_run hcount hr h1 h2 noMove_process e
      exact Or.inl (hc ▸ d (hs.trans hc.symm))
    · exact hc ▸ scans_settle hcount hr a h2 e

/-- A round settles the state of the switches, or at least wakes the keyboard up. -/
theorem round_settles {count : Nat} (hcount : count ≤ 255) (hr : ∀ k < count, row k < rows) {s s' : State R Ev Ctx PKS KS} {p : Phase}
    (hp : At p s) (h : Track count s) (e : s.run C n row rows round = .ok s') :
    s'.matrix.debounced = s.closed ∨ (At .waking s ∧ At .scan s') := by
  have hwhole := settled_run hcount hr hp h noMove_round e
  have quiet : s.irq = true ∨ s.pc = .arming → s'.matrix.debounced = s.closed := fun hq => hwhole.2.2.2 (h.quiet hq).2
  have e' := e
  rw [round, List.cons_append] at e'
  simp only [State.run, State.step, Res.ok_bind] at e'
  obtain ⟨s2, e2, e'⟩ := run_append e'
  have hp1 : At p ({ s with clock := s.clock + 12 } : State R Ev Ctx PKS KS) := by
    refine Same.at ?_ hp
    exact ⟨rfl, rfl, rfl, fun _ _ => Iff.rfl, fun _ _ _ => Iff.rfl⟩
  have ht1 : Track count ({ s with clock := s.clock + 12 } : State R Ev Ctx PKS KS) :=
    track_step (C := C) (n := n) (i := .wait 12) hcount hr hp h (by simp) rfl
  obtain ⟨x1, x2, x3, x4⟩ := expires hp1 e2
  have hnomove : ∀ i ∈ [Task.wake, .scan, .timeout, .keyboard, .mouse, .consumer, .tick].map Input.expire, ∀ c, i ≠ .move c := by
    intro i hi c e
    subst e
    simp at hi
  obtain ⟨_, y2, y3, _⟩ := settled_run hcount hr hp1 ht1 hnomove e2
  have nosc : ∀ d, (Task.scan, d) ∉ s2.timers := x4 .scan (by simp) (fun d hd => h.scan d hd)
  have notk : ∀ d, (Task.tick, d) ∉ s2.timers := x4 .tick (by simp) (fun d hd => h.tick d hd)
  cases p with
  | asleep => exact Or.inl (quiet (Or.inl hp.1))
  | arming => exact Or.inl (quiet (Or.inr hp.2.2.1))
  | waking =>
    rw [show (9 : Nat) = 8 + 1 from rfl, List.replicate_succ] at e'
    simp only [State.run] at e'
    obtain ⟨s3, e3, e'⟩ := Res.bind_eq_ok.1 e'
    have h3 : s3 = s2.onWake := by
      simp only [State.step, State.process] at e3
      rw [if_neg (by rw [x1.2.2.1]; simp), if_pos x1.2.2.2.1] at e3
      exact (Res.ok.inj e3).symm
    have ht3 := track_step hcount hr x1 y2 (by simp) e3
    have hc3 := (step_matrix (by simp) e3).1
    subst h3
    rcases scans_settle hcount hr (at_onWake x1) ht3 e' with hs | hs
    · exact Or.inl (hs.trans (hc3.trans y3))
    · exact Or.inr ⟨hp, hs⟩
  | scan =>
    rw [show (9 : Nat) = 8 + 1 from rfl, List.replicate_succ] at e'
    simp only [State.run] at e'
    obtain ⟨s3, e3, e'⟩ := Res.bind_eq_ok.1 e'
    have ht3 := track_step hcount hr x1 y2 (by simp) e3
    have hc3 := (step_matrix (by simp) e3).1
    obtain ⟨p3, hp3⟩ := at_step x1 e3
    have hsc : .scan ∈ s2.events := (x1.2.2.2.2.1).resolve_right fun ⟨d, hd⟩ => nosc d hd
    rcases process_scan x1 y2 e3 with hs | ⟨hn, _⟩
    · obtain ⟨_, _, _, d⟩ := settled_run hcount hr hp3 ht3 noMove_process e'
      exact Or.inl ((d (hs.trans hc3.symm)).trans (hc3.trans y3))
    · exact absurd hsc hn
  | tick =>
    have htk : .tick ∈ s2.events := (x1.2.2.2.2.2.1).resolve_right fun ⟨d, hd⟩ => notk d hd
    have hleft : left s2 < 9 := by
      have : left s2 ≤ [Task.timeout, .keyboard, .mouse, .consumer].length := List.countP_le_length
      simp at this
      omega
    exact Or.inl ((ticks_settle hcount hr x1 y2 htk hleft e').trans y3)

/-- C72: as long as no switch moves in the moment in which the keyboard goes to sleep, it knows the state of every switch at most two
rounds of its event loop after they stop moving. -/
theorem C72_seen_partial (count : Nat) (km : KM R Ev Ctx PKS KS) (is : List Input) (s s' : State R Ev Ctx PKS KS) (hcount : count ≤ 255)
    (hr : ∀ k < count, row k < rows) (hl : ∀ closed, Input.move closed ∈ is → closed.length = count)
    (hu : undisturbed C n row rows (State.new count km) is = true) (h : (State.new count km).run C n row rows is = .ok s)
    (h2 : s.run C n row rows (round ++ round) = .ok s') :
    s'.matrix.debounced = s.closed ∧ s'.matrix.pressed.toNat = (s.closed.filter id).length := by
  obtain ⟨p, hp, ht⟩ := track_run hcount hr (at_new count km) (track_new count km) hu hl h
  obtain ⟨s1, e1, e2⟩ := run_append h2
  obtain ⟨⟨p1, hp1⟩, ht1, hc1, _⟩ := settled_run hcount hr hp ht noMove_round e1
  obtain ⟨_, ht2, hc2, hset⟩ := settled_run hcount hr hp1 ht1 noMove_round e2
  have key : s'.matrix.debounced = s.closed := by
    rcases round_settles hcount hr hp ht e1 with hs | ⟨_, hs⟩
    · exact (hset (hs.trans hc1.symm)).trans hc1
    · rcases round_settles hcount hr hs ht1 e2 with hs | ⟨hw, _⟩
      · exact hs.trans hc1
      · exact absurd (Or.inl hw.2.2.2.1) hs.2.2.2.1
  refine ⟨key, ?_⟩
  rw [ht2.pressed, key, BitVec.toNat_ofNat]
  show Firmware.countPressed s.closed % 256 = _
  have : Firmware.countPressed s.closed ≤ s.closed.length := List.length_filter_le _ _
  rw [Nat.mod_eq_of_lt (by rw [ht.closed] at this; omega)]
  rfl

/-- The switches afterwards. -/
def Input.moved : Input → List Bool → List Bool
  | .move c, _ => c
  | _, c => c

/-- Without an interrupt the keyboard sleeps on. -/
theorem asleep_step {s s' : State R Ev Ctx PKS KS} {i : Input} (h : At .asleep s)
    (hi : ∀ c, i = .move c → rises row rows s.closed c = false) (e : s.step C n row rows i = .ok s') :
    At .asleep s' ∧ s'.matrix = s.matrix ∧ s'.closed = i.moved s.closed := by
  cases i with
  | wait t =>
    cases e
    refine ⟨Same.at ?_ h, rfl, rfl⟩
    exact ⟨rfl, rfl, rfl, fun _ _ => Iff.rfl, fun _ _ _ => Iff.rfl⟩
  | expire t =>
    simp only [State.step] at e
    split at e
    · next d hf =>
      split at e
      · have ht : ∃ d, (t, d) ∈ s.timers := by
          have h1 := List.mem_of_find?_eq_some hf
          have h2 := List.find?_some hf
          simp only [decide_eq_true_eq] at h2
          exact ⟨d, by rw [← h2]; exact h1⟩
        cases e
        exact ⟨at_expire t ht h, rfl, rfl⟩
      · cases e; exact ⟨h, rfl, rfl⟩
    · cases e; exact ⟨h, rfl, rfl⟩
  | move c =>
    simp only [State.step, hi c rfl, Bool.and_false] at e
    cases e
    refine ⟨Same.at ?_ h, rfl, rfl⟩
    exact ⟨rfl, rfl, rfl, fun _ _ => Iff.rfl, fun _ _ _ => Iff.rfl⟩
  | process ok =>
    simp only [State.step, State.process] at e
    rw [if_neg (by rw [h.2.2.1]; simp), if_neg fun hw => h.2.2.2.1 (Or.inl hw), if_neg fun hs => h.2.2.2.2.1 (Or.inl hs)] at e
    split at e
    · obtain ⟨f1, f2, _⟩ := onTimeout_frame e
      exact ⟨(same_onTimeout e).at h, f1, f2⟩
    · split at e
      · cases e
        refine ⟨same_report.1.at h, ?_, ?_⟩ <;> cases ok <;> rfl
      · split at e
        · cases e
          refine ⟨same_report.2.1.at h, ?_, ?_⟩ <;> cases ok <;> rfl
        · split at e
          · cases e
            refine ⟨same_report.2.2.at h, ?_, ?_⟩ <;> cases ok <;> rfl
          · rw [if_neg fun ht => h.2.2.2.2.2 (Or.inl ht)] at e
            cases e
            exact ⟨h, rfl, rfl⟩

/-- A key that is pressed while the keyboard goes to sleep: key 0 is tapped, and pressed again in the moment in which the keyboard
goes to sleep. -/
def raceInputs : List Input :=
  hold 16 [0] [0, 1, 1, 11] ++ .move (List.replicate 16 false) :: pass 0 ++
    [.wait 12, .expire .tick, .process true, .move ((List.range 16).map fun k => decide (k ∈ [0])), .process true]

/-- The keyboard is asleep, and does not know that the key is pressed. -/
def raceCheck (s : State R Ev Ctx PKS KS) : Bool :=
  s.irq && decide (s.mode = .interrupt) && decide (s.pc = .idle) && s.events.isEmpty && s.timers.all (fun x => decide (x.1 = .keyboard)) &&
    decide (s.closed = (List.range 16).map fun k => decide (k ∈ [0])) && decide (s.matrix.debounced = List.replicate 16 false)

theorem raceCheck_eq : raceCheck <$> (State.new 16 Ex.km0).run Ex.C 9 (· / 4) 4 raceInputs = .ok true := by
  decide +kernel

theorem asleep_run {k : Nat} (hk : row k < rows) : ∀ {is : List Input} {s s' : State R Ev Ctx PKS KS}, At .asleep s →
    s.closed[k]? = some true → (∀ c, Input.move c ∈ is → c[k]? = some true ∧ ∀ j : Nat, c[j]? = some true → row j = row k) →
    s.run C n row rows is = .ok s' → At .asleep s' ∧ s'.matrix = s.matrix ∧ s'.closed[k]? = some true
  | [], _, _, h, hc, _, e => by cases e; exact ⟨h, rfl, hc⟩
  | i :: is, s, s', h, hc, hm, e => by
    simp only [State.run] at e
    obtain ⟨s1, e1, e⟩ := Res.bind_eq_ok.1 e
    have hquiet : ∀ c, i = .move c → rises row rows s.closed c = false := by
      rintro c rfl
      obtain ⟨_, h2⟩ := hm c List.mem_cons_self
      simp only [rises, List.any_eq_false, List.mem_range, Bool.and_eq_true, not_and, Bool.not_eq_true', Bool.not_eq_true]
      intro r _ hlow
      simp only [rowHigh, List.any_eq_false, List.mem_range, Bool.and_eq_true, not_and, Bool.not_eq_true, decide_eq_true_eq] at hlow ⊢
      intro j hj hr
      cases hcj : c.getD j false with
      | false => rfl
      | true =>
        have hjt : c[j]? = some true := by
          rw [List.getD_eq_getElem?_getD, List.getElem?_eq_getElem hj] at hcj
          rw [List.getElem?_eq_getElem hj]
          exact congrArg some hcj
        have := hlow k (List.getElem?_eq_some_iff.1 hc).1 (by rw [← h2 j hjt, hr])
        rw [List.getD_eq_getElem?_getD, hc] at this
        cases this
    obtain ⟨a, b, c0⟩ := asleep_step h hquiet e1
    have hc1 : s1.closed[k]? = some true := by
      rw [c0]
      cases i with
      | move c => exact (hm c List.mem_cons_self).1
      | _ => exact hc
    obtain ⟨a', b', c'⟩ := asleep_run hk a hc1 (fun c hc => hm c (List.mem_cons_of_mem _ hc)) e
    exact ⟨a', b'.trans b, c'⟩

/-- C72: not always: a key that is pressed in the moment in which the keyboard goes to sleep is not noticed for as long as it is held,
and neither are the other keys in its row. -/
theorem C72_race_refuted :
    ∃ (is : List Input) (s : State Comp.Ref Comp.Ev Comp.Ctx Comp.PKS Comp.KS), (State.new 16 Ex.km0).run Ex.C 9 (· / 4) 4 is = .ok s ∧
      ∀ js s', (∀ c, Input.move c ∈ js → c[0]? = some true ∧ ∀ j : Nat, c[j]? = some true → j / 4 = 0) →
        s.run Ex.C 9 (· / 4) 4 js = .ok s' → s'.closed[0]? = some true ∧ s'.matrix.debounced = List.replicate 16 false := by
  obtain ⟨s, e, hs⟩ := Res.map_eq_ok.1 raceCheck_eq
  refine ⟨raceInputs, s, e, fun js s' hm hr => ?_⟩
  simp only [raceCheck, Bool.and_eq_true, decide_eq_true_eq, List.isEmpty_iff, List.all_eq_true] at hs
  obtain ⟨⟨⟨⟨⟨⟨h1, h2⟩, h3⟩, h4⟩, h5⟩, h6⟩, h7⟩ := hs
  have hpen : ∀ t, t ≠ .keyboard → ¬ Pending t s := by
    rintro t ht (h | ⟨d, h⟩)
    · rw [h4] at h; cases h
    · exact ht (h5 _ h)
  have hat : At .asleep s := ⟨h1, h2, h3, hpen _ (by simp), hpen _ (by simp), hpen _ (by simp)⟩
  obtain ⟨_, a, b⟩ := asleep_run (row := (· / 4)) (rows := 4) (k := 0) (by simp) hat (by rw [h6]; decide) (by simpa using hm) hr
  exact ⟨b, a ▸ h7⟩

/-- In the ordinary course of things it is: a key is tapped. -/
example : undisturbed Ex.C 9 (· / 4) 4 (State.new 16 Ex.km0) (hold 16 [0] [0, 1, 1, 11] ++ hold 16 [] [0] ++ round ++ round) = true ∧
    (fun _ => ()) <$> (State.new 16 Ex.km0).run Ex.C 9 (· / 4) 4 (hold 16 [0] [0, 1, 1, 11] ++ hold 16 [] [0] ++ round ++ round) = .ok () := by
  decide +kernel

/-! ## C73 -/

theorem Follows.append_left {α : Type} {xs ys : List α} (h : Follows xs ys) (zs : List α) : Follows (xs ++ zs) ys := by
  obtain ⟨is, h1, h2⟩ := h
  refine ⟨is, h1, h2.trans (List.map_congr_left fun i hi => ?_)⟩
  have : (fun i => xs[i]?) i ∈ ys.map some := h2 ▸ List.mem_map_of_mem hi
  obtain ⟨y, _, hy⟩ := List.mem_map.1 this
  have hlt : i < xs.length := (List.getElem?_eq_some_iff.1 hy.symm).1
  exact (List.getElem?_append_left hlt).symm

theorem Follows.append_right {α : Type} {xs ys : List α} {y : α} (h : Follows xs ys) (hy : xs.getLast? = some y) : Follows xs (ys ++ [y]) := by
  obtain ⟨is, h1, h2⟩ := h
  have hbound : ∀ i ∈ is, i ≤ xs.length - 1 := by
    intro i hi
    have : (fun i => xs[i]?) i ∈ ys.map some := h2 ▸ List.mem_map_of_mem hi
    obtain ⟨y, _, hy⟩ := List.mem_map.1 this
    have hlt : i < xs.length := (List.getElem?_eq_some_iff.1 hy.symm).1
    omega
  refine ⟨is ++ [xs.length - 1], ?_, ?_⟩
  · rw [List.pairwise_append]
    exact ⟨h1, by simp, fun a ha b hb => by simp at hb; subst hb; exact hbound a ha⟩
  · rw [List.map_append, List.map_append, h2, List.map_singleton, List.map_singleton, ← hy, List.getLast?_eq_getElem?]

/-- What is known about the reports. -/
structure Told (s : State R Ev Ctx PKS KS) : Prop where
  report : (zero :: s.made).getLast? = some s.report
  keyboard : Follows ((zero :: s.made).map (·.keyboard)) (keyboards s.sent)
  mouse : Follows ((zero :: s.made).map (·.mouse)) (mice s.sent)
  consumer : Follows ((zero :: s.made).map (·.consumer)) (consumers s.sent)
  lastKeyboard : (zero.keyboard :: keyboards s.sent).getLast? = some s.previous.keyboard
  lastMouse : (zero.mouse :: mice s.sent).getLast? = some s.previous.mouse
  lastConsumer : (zero.consumer :: consumers s.sent).getLast? = some s.previous.consumer

/-- New reports have been made, none sent. -/
structure Ext (s s' : State R Ev Ctx PKS KS) : Prop where
  sent : s'.sent = s.sent
  previous : s'.previous = s.previous
  made : ∃ rs, s'.made = s.made ++ rs ∧ (s.report :: rs).getLast? = some s'.report

theorem Ext.refl (s : State R Ev Ctx PKS KS) : Ext s s := ⟨rfl, rfl, [], by simp, rfl⟩

theorem getLast?_cons_append {α : Type} {a b c : α} {l m : List α} (h1 : (a :: l).getLast? = some b) (h2 : (b :: m).getLast? = some c) :
    (a :: (l ++ m)).getLast? = some c := by
  cases m with
  | nil => rw [List.append_nil, h1]; simpa using h2
  | cons x m =>
    rw [← List.cons_append, List.getLast?_append]
    rw [List.getLast?_cons_cons] at h2
    rw [h2]; rfl

theorem Ext.trans {s s' s'' : State R Ev Ctx PKS KS} (h : Ext s s') (h' : Ext s' s'') : Ext s s'' := by
  obtain ⟨a, b, rs, c, d⟩ := h
  obtain ⟨a', b', rs', c', d'⟩ := h'
  exact ⟨a'.trans a, b'.trans b, rs ++ rs', by rw [c', c, List.append_assoc], getLast?_cons_append d d'⟩

theorem Ext.of_eq {s s' : State R Ev Ctx PKS KS} (h1 : s'.sent = s.sent) (h2 : s'.previous = s.previous) (h3 : s'.made = s.made)
    (h4 : s'.report = s.report) : Ext s s' := ⟨h1, h2, [], by rw [h3, List.append_nil], by rw [h4]; rfl⟩

theorem Told.ext {s s' : State R Ev Ctx PKS KS} (h : Told s) (e : Ext s s') : Told s' := by
  obtain ⟨a, b, rs, c, d⟩ := e
  have hm : ∀ {α : Type} (f : CApi.HidReport → α), (zero :: s'.made).map f = (zero :: s.made).map f ++ rs.map f := by
    intro α f; rw [c, ← List.cons_append, List.map_append]
  refine ⟨by rw [c]; exact getLast?_cons_append h.report d, ?_, ?_, ?_, ?_, ?_, ?_⟩
  · rw [hm, a]; exact h.keyboard.append_left _
  · rw [hm, a]; exact h.mouse.append_left _
  · rw [hm, a]; exact h.consumer.append_left _
  · rw [a, b]; exact h.lastKeyboard
  · rw [a, b]; exact h.lastMouse
  · rw [a, b]; exact h.lastConsumer

theorem ext_compare (s : State R Ev Ctx PKS KS) : Ext s s.compare := by
  obtain ⟨ts, e, _⟩ := compare_frame s
  rw [e]; exact Ext.of_eq rfl rfl rfl rfl

theorem ext_make (s : State R Ev Ctx PKS KS) (km : KM R Ev Ctx PKS KS) (r : CApi.HidReport) : Ext s (s.make km r) :=
  ⟨rfl, rfl, [r], rfl, rfl⟩

theorem ext_registerAfter : ∀ {es : List (Option Bool)} {i : Nat} {s s' : State R Ev Ctx PKS KS} {next next' : Nat},
    registerAfter C n i s next es = .ok (s', next') → Ext s s'
  | [], _, s, s', _, _, h => by cases h; exact Ext.refl s
  | none :: es, i, s, s', _, _, h => ext_registerAfter (es := es) h
  | some b :: es, i, s, s', next, next', h => by
    simp only [registerAfter] at h
    obtain ⟨⟨km, r, nx⟩, _, h⟩ := Res.bind_eq_ok.1 h
    refine Ext.trans ?_ (ext_registerAfter (es := es) h)
    exact ⟨rfl, rfl, [r], rfl, rfl⟩

theorem ext_onScan {s s' : State R Ev Ctx PKS KS} (e : s.onScan C n = .ok s') : Ext s s' := by
  simp only [State.onScan] at e
  obtain ⟨⟨s1, next⟩, e1, e⟩ := Res.bind_eq_ok.1 e
  have h1 := ext_registerAfter e1
  rw [← Res.ok.inj e]
  have h0 : Ext s s1 := Ext.trans (s' := { s with matrix := (s.matrix.scan s.closed).1 }) (Ext.of_eq rfl rfl rfl rfl) h1
  refine h0.trans (Ext.trans ?_ (Ext.trans (ext_compare _) (Ext.of_eq rfl rfl rfl rfl)))
  split <;> exact Ext.of_eq rfl rfl rfl rfl

theorem ext_onTimeout {s s' : State R Ev Ctx PKS KS} (e : s.onTimeout C n = .ok s') : Ext s s' := by
  simp only [State.onTimeout] at e
  obtain ⟨⟨km, r, next⟩, e1, e⟩ := Res.bind_eq_ok.1 e
  rw [← Res.ok.inj e]
  refine (ext_make s km r).trans (Ext.trans ?_ (Ext.trans (ext_compare _) (Ext.of_eq rfl rfl rfl rfl)))
  simp only
  split <;> exact Ext.of_eq rfl rfl rfl rfl

theorem ext_onTick {s s' : State R Ev Ctx PKS KS} (e : s.onTick C n = .ok s') : Ext s s' := by
  simp only [State.onTick] at e
  obtain ⟨km1, e1, e⟩ := Res.bind_eq_ok.1 e
  obtain ⟨⟨km, r⟩, e2, e⟩ := Res.bind_eq_ok.1 e
  simp only at e
  split at e
  · rw [← Res.ok.inj e]
    refine Ext.trans ?_ (Ext.trans (ext_compare _) (Ext.of_eq rfl rfl rfl rfl))
    exact ⟨rfl, rfl, [r], rfl, rfl⟩
  · rw [← Res.ok.inj e]
    exact ⟨rfl, rfl, [r], rfl, rfl⟩

theorem keyboards_append (xs ys : List Sent) : keyboards (xs ++ ys) = keyboards xs ++ keyboards ys := by
  induction xs with
  | nil => rfl
  | cons x xs ih => cases x <;> simp [keyboards, ih]

theorem mice_append (xs ys : List Sent) : mice (xs ++ ys) = mice xs ++ mice ys := by
  induction xs with
  | nil => rfl
  | cons x xs ih => cases x <;> simp [mice, ih]

theorem consumers_append (xs ys : List Sent) : consumers (xs ++ ys) = consumers xs ++ consumers ys := by
  induction xs with
  | nil => rfl
  | cons x xs ih => cases x <;> simp [consumers, ih]

theorem keyboards_other {xs : List Sent} {x : Sent} (h : ∀ b, x ≠ .keyboard b) : keyboards xs ++ keyboards [x] = keyboards xs := by
  cases x <;> first | exact absurd rfl (h _) | simp [keyboards]

theorem mice_other {xs : List Sent} {x : Sent} (h : ∀ b, x ≠ .mouse b) : mice xs ++ mice [x] = mice xs := by
  cases x <;> first | exact absurd rfl (h _) | simp [mice]

theorem consumers_other {xs : List Sent} {x : Sent} (h : ∀ b, x ≠ .consumer b) : consumers xs ++ consumers [x] = consumers xs := by
  cases x <;> first | exact absurd rfl (h _) | simp [consumers]

theorem getLast?_map' {α β : Type} (f : α → β) (l : List α) {a : α} (h : l.getLast? = some a) : (l.map f).getLast? = some (f a) := by
  rw [List.getLast?_map, h]; rfl

theorem told_onKeyboard {s : State R Ev Ctx PKS KS} (h : Told s) (ok : Bool) : Told (s.onKeyboard ok) := by
  cases ok with
  | false => exact h.ext (Ext.of_eq rfl rfl rfl rfl)
  | true =>
    have hs : (s.onKeyboard true).sent = s.sent ++ [.keyboard s.report.keyboard] := rfl
    refine ⟨h.report, ?_, ?_, ?_, ?_, ?_, ?_⟩
    · rw [hs, keyboards_append]; exact h.keyboard.append_right (getLast?_map' (fun r : CApi.HidReport => r.keyboard) _ h.report)
    · rw [hs, mice_append, mice_other (by simp)]; exact h.mouse
    · rw [hs, consumers_append, consumers_other (by simp)]; exact h.consumer
    · rw [hs, keyboards_append, ← List.cons_append]; exact List.getLast?_concat
    · rw [hs, mice_append, mice_other (by simp)]; exact h.lastMouse
    · rw [hs, consumers_append, consumers_other (by simp)]; exact h.lastConsumer

theorem told_onMouse {s : State R Ev Ctx PKS KS} (h : Told s) (ok : Bool) : Told (s.onMouse ok) := by
  cases ok with
  | false => exact h.ext (Ext.of_eq rfl rfl rfl rfl)
  | true =>
    have hs : (s.onMouse true).sent = s.sent ++ [.mouse s.report.mouse] := rfl
    refine ⟨h.report, ?_, ?_, ?_, ?_, ?_, ?_⟩
    · rw [hs, keyboards_append, keyboards_other (by simp)]; exact h.keyboard
    · rw [hs, mice_append]; exact h.mouse.append_right (getLast?_map' (fun r : CApi.HidReport => r.mouse) _ h.report)
    · rw [hs, consumers_append, consumers_other (by simp)]; exact h.consumer
    · rw [hs, keyboards_append, keyboards_other (by simp)]; exact h.lastKeyboard
    · rw [hs, mice_append, ← List.cons_append]; exact List.getLast?_concat
    · rw [hs, consumers_append, consumers_other (by simp)]; exact h.lastConsumer

theorem told_onConsumer {s : State R Ev Ctx PKS KS} (h : Told s) (ok : Bool) : Told (s.onConsumer ok) := by
  cases ok with
  | false => exact h.ext (Ext.of_eq rfl rfl rfl rfl)
  | true =>
    have hs : (s.onConsumer true).sent = s.sent ++ [.consumer s.report.consumer] := rfl
    refine ⟨h.report, ?_, ?_, ?_, ?_, ?_, ?_⟩
    · rw [hs, keyboards_append, keyboards_other (by simp)]; exact h.keyboard
    · rw [hs, mice_append, mice_other (by simp)]; exact h.mouse
    · rw [hs, consumers_append]; exact h.consumer.append_right (getLast?_map' (fun r : CApi.HidReport => r.consumer) _ h.report)
    · rw [hs, keyboards_append, keyboards_other (by simp)]; exact h.lastKeyboard
    · rw [hs, mice_append, mice_other (by simp)]; exact h.lastMouse
    · rw [hs, consumers_append, ← List.cons_append]; exact List.getLast?_concat

theorem told_process {s s' : State R Ev Ctx PKS KS} {ok : Bool} (h : Told s) (e : s.process C n ok = .ok s') : Told s' := by
  unfold State.process at e
  split at e
  · cases e
    exact h.ext (Ext.trans (Ext.trans (s' := { s with pc := .idle, irq := true }) (Ext.of_eq rfl rfl rfl rfl) (ext_compare _))
      (Ext.of_eq rfl rfl rfl rfl))
  · split at e
    · cases e; exact h.ext (Ext.of_eq rfl rfl rfl rfl)
    · split at e
      · exact h.ext (ext_onScan e)
      · split at e
        · exact h.ext (ext_onTimeout e)
        · split at e
          · cases e; exact told_onKeyboard h ok
          · split at e
            · cases e; exact told_onMouse h ok
            · split at e
              · cases e; exact told_onConsumer h ok
              · split at e
                · exact h.ext (ext_onTick e)
                · cases e; exact h

theorem told_step {s s' : State R Ev Ctx PKS KS} {i : Input} (h : Told s) (e : s.step C n row rows i = .ok s') : Told s' := by
  cases i with
  | wait t => cases e; exact h.ext (Ext.of_eq rfl rfl rfl rfl)
  | expire t =>
    simp only [State.step] at e
    split at e
    · split at e <;> cases e <;> exact h.ext (Ext.of_eq rfl rfl rfl rfl)
    · cases e; exact h
  | move c =>
    simp only [State.step] at e
    split at e <;> cases e <;> exact h.ext (Ext.of_eq rfl rfl rfl rfl)
  | process ok => exact told_process h e

theorem told_run : ∀ {is : List Input} {s s' : State R Ev Ctx PKS KS}, Told s → s.run C n row rows is = .ok s' → Told s'
  | [], _, _, h, e => by cases e; exact h
  | i :: is, s, s', h, e => by
    simp only [State.run] at e
    obtain ⟨s1, e1, e⟩ := Res.bind_eq_ok.1 e
    exact told_run (told_step h e1) e

theorem told_new (count : Nat) (km : KM R Ev Ctx PKS KS) : Told (State.new count km) :=
  ⟨rfl, ⟨[], by simp, rfl⟩, ⟨[], by simp, rfl⟩, ⟨[], by simp, rfl⟩, rfl, rfl, rfl⟩

/-- C73: whatever happens, the reports of each kind that are sent are reports the keymap made, in the order in which it made them. -/
theorem C73_order (count : Nat) (km : KM R Ev Ctx PKS KS) (is : List Input) (s : State R Ev Ctx PKS KS)
    (h : (State.new count km).run C n row rows is = .ok s) :
    Follows ((zero :: s.made).map (·.keyboard)) (keyboards s.sent) ∧ Follows ((zero :: s.made).map (·.mouse)) (mice s.sent) ∧
      Follows ((zero :: s.made).map (·.consumer)) (consumers s.sent) :=
  have t := told_run (told_new count km) h
  ⟨t.keyboard, t.mouse, t.consumer⟩

/-- A report that differs from the last one sent will be sent. -/
structure Due (s : State R Ev Ctx PKS KS) : Prop where
  keyboard : s.report.keyboard = s.previous.keyboard ∨ Pending .keyboard s
  mouse : s.report.mouse = s.previous.mouse ∨ Pending .mouse s
  consumer : s.report.consumer = s.previous.consumer ∨ Pending .consumer s

theorem due_compare (s : State R Ev Ctx PKS KS) : Due s.compare := by
  have h1 : ∀ (s : State R Ev Ctx PKS KS) (u : Task) (c : Prop) [Decidable c],
      (if c then s.start u 1 else s).report = s.report ∧ (if c then s.start u 1 else s).previous = s.previous ∧
      (c → Pending u (if c then s.start u 1 else s)) ∧ ∀ t, Pending t s → Pending t (if c then s.start u 1 else s) := by
    intro s u c _
    by_cases hc : c
    · rw [if_pos hc]; exact ⟨rfl, rfl, fun _ => pending_start.2 (Or.inl rfl), fun t h => pending_start.2 (Or.inr h)⟩
    · rw [if_neg hc]; exact ⟨rfl, rfl, fun h => absurd h hc, fun _ => id⟩
  unfold State.compare
  obtain ⟨a1, b1, c1, d1⟩ := h1 s .keyboard (s.report.keyboard ≠ s.previous.keyboard)
  generalize (if s.report.keyboard ≠ s.previous.keyboard then s.start .keyboard 1 else s) = s1 at *
  obtain ⟨a2, b2, c2, d2⟩ := h1 s1 .mouse (s1.report.mouse ≠ s1.previous.mouse ∨ s1.report.mouse ≠ MouseOutput.none)
  simp only
  generalize (if s1.report.mouse ≠ s1.previous.mouse ∨ s1.report.mouse ≠ MouseOutput.none then s1.start .mouse 1 else s1) = s2 at *
  obtain ⟨a3, b3, c3, d3⟩ := h1 s2 .consumer (s2.report.consumer ≠ s2.previous.consumer)
  generalize (if s2.report.consumer ≠ s2.previous.consumer then s2.start .consumer 1 else s2) = s3 at *
  rw [a2, b2] at c3
  rw [a1, b1] at c2 c3
  refine ⟨?_, ?_, ?_⟩
  · rw [a3, b3, a2, b2, a1, b1]
    by_cases hk : s.report.keyboard = s.previous.keyboard
    · exact Or.inl hk
    · exact Or.inr (d3 _ (d2 _ (c1 hk)))
  · rw [a3, b3, a2, b2, a1, b1]
    by_cases hk : s.report.mouse = s.previous.mouse
    · exact Or.inl hk
    · exact Or.inr (d3 _ (c2 (Or.inl hk)))
  · rw [a3, b3, a2, b2, a1, b1]
    by_cases hk : s.report.consumer = s.previous.consumer
    · exact Or.inl hk
    · exact Or.inr (c3 hk)

theorem Due.done {s : State R Ev Ctx PKS KS} (h : Due s) {t : Task} (ht : t = .wake ∨ t = .scan ∨ t = .tick ∨ t = .timeout) : Due (s.done t) := by
  have hp : ∀ u, u = .keyboard ∨ u = .mouse ∨ u = .consumer → (Pending u (s.done t) ↔ Pending u s) := by
    intro u hu
    apply pending_done_ne
    rcases ht with rfl | rfl | rfl | rfl <;> rcases hu with rfl | rfl | rfl <;> simp
  exact ⟨h.keyboard.imp id (hp _ (by simp)).2, h.mouse.imp id (hp _ (by simp)).2, h.consumer.imp id (hp _ (by simp)).2⟩

theorem Due.mono {s s' : State R Ev Ctx PKS KS} (h : Due s) (h1 : s'.report = s.report) (h2 : s'.previous = s.previous)
    (h3 : ∀ t, Pending t s → Pending t s') : Due s' :=
  ⟨by rw [h1, h2]; exact h.keyboard.imp id (h3 _), by rw [h1, h2]; exact h.mouse.imp id (h3 _),
    by rw [h1, h2]; exact h.consumer.imp id (h3 _)⟩

theorem due_process {s s' : State R Ev Ctx PKS KS} (h : s.pc = .idle → Due s) (e : s.process C n true = .ok s') :
    s'.pc = .idle → Due s' := by
  intro hpc'
  unfold State.process at e
  split at e
  · cases e
    exact (due_compare _).done (by simp)
  · next hpc =>
    have hidle : s.pc = .idle := by cases hx : s.pc with
      | idle => rfl
      | arming => exact absurd hx hpc
    have h := h hidle
    split at e
    · cases e
      have hd : Due (({ s with irq := false, mode := .scanning } : State R Ev Ctx PKS KS).start .scan 1) :=
        h.mono rfl rfl fun t ht => pending_start.2 (Or.inr ht)
      exact hd.done (t := .wake) (by simp)
    · split at e
      · simp only [State.onScan] at e
        obtain ⟨⟨s1, next⟩, e1, e⟩ := Res.bind_eq_ok.1 e
        rw [← Res.ok.inj e]
        exact (due_compare _).done (by simp)
      · split at e
        · simp only [State.onTimeout] at e
          obtain ⟨⟨km, r, next⟩, e1, e⟩ := Res.bind_eq_ok.1 e
          rw [← Res.ok.inj e]
          exact (due_compare _).done (by simp)
        · split at e
          · cases e
            refine ⟨Or.inl rfl, ?_, ?_⟩
            · exact h.mouse.imp id (pending_done_ne (by simp)).2
            · exact h.consumer.imp id (pending_done_ne (by simp)).2
          · split at e
            · cases e
              refine ⟨?_, Or.inl rfl, ?_⟩
              · exact h.keyboard.imp id (pending_done_ne (by simp)).2
              · exact h.consumer.imp id (pending_done_ne (by simp)).2
            · split at e
              · cases e
                refine ⟨?_, ?_, Or.inl rfl⟩
                · exact h.keyboard.imp id (pending_done_ne (by simp)).2
                · exact h.mouse.imp id (pending_done_ne (by simp)).2
              · split at e
                · simp only [State.onTick] at e
                  obtain ⟨km1, e1, e⟩ := Res.bind_eq_ok.1 e
                  obtain ⟨⟨km, r⟩, e2, e⟩ := Res.bind_eq_ok.1 e
                  simp only at e
                  split at e
                  · rw [← Res.ok.inj e]
                    exact (due_compare _).done (by simp)
                  · rw [← Res.ok.inj e] at hpc'
                    cases hpc'
                · cases e; exact h

theorem due_step {s s' : State R Ev Ctx PKS KS} {i : Input} (h : s.pc = .idle → Due s) (hi : i ≠ .process false)
    (e : s.step C n row rows i = .ok s') : s'.pc = .idle → Due s' := by
  cases i with
  | wait t => cases e; exact fun hp => (h hp).mono rfl rfl fun _ ht => ht
  | expire t =>
    simp only [State.step] at e
    split at e
    · next d hf =>
      split at e
      · cases e
        refine fun hp => (h hp).mono rfl rfl fun u hu => ?_
        rw [pending_set]
        rcases hu with hu | ⟨d', hd'⟩
        · exact Or.inr (Or.inl hu)
        · by_cases hut : u = t
          · exact Or.inl hut
          · exact Or.inr (Or.inr ⟨d', by simp [hd', hut]⟩)
      · cases e; exact h
    · cases e; exact h
  | move c =>
    simp only [State.step] at e
    split at e
    · cases e; exact fun hp => (h hp).mono rfl rfl fun _ ht => pending_set.2 (Or.inr ht)
    · cases e; exact fun hp => (h hp).mono rfl rfl fun _ ht => ht
  | process ok =>
    cases ok with
    | false => exact absurd rfl hi
    | true => exact due_process h e

theorem due_run : ∀ {is : List Input} {s s' : State R Ev Ctx PKS KS}, (s.pc = .idle → Due s) → Accepted is →
    s.run C n row rows is = .ok s' → s'.pc = .idle → Due s'
  | [], _, _, h, _, e => by cases e; exact h
  | i :: is, s, s', h, ha, e => by
    simp only [State.run] at e
    obtain ⟨s1, e1, e⟩ := Res.bind_eq_ok.1 e
    refine due_run (due_step h ?_ e1) (fun ok hm => ha ok (List.mem_cons_of_mem _ hm)) e
    rintro rfl
    exact absurd (ha false List.mem_cons_self) (by simp)

theorem due_new (count : Nat) (km : KM R Ev Ctx PKS KS) : Due (State.new count km) := ⟨Or.inl rfl, Or.inl rfl, Or.inl rfl⟩

theorem current_of {s : State R Ev Ctx PKS KS} (t : Told s) (h1 : s.report.keyboard = s.previous.keyboard)
    (h2 : s.report.mouse = s.previous.mouse) (h3 : s.report.consumer = s.previous.consumer) : Current s :=
  ⟨by rw [t.lastKeyboard, getLast?_map' (fun r : CApi.HidReport => r.keyboard) _ t.report, h1],
   by rw [t.lastMouse, getLast?_map' (fun r : CApi.HidReport => r.mouse) _ t.report, h2],
   by rw [t.lastConsumer, getLast?_map' (fun r : CApi.HidReport => r.consumer) _ t.report, h3]⟩

/-- C73: if the stack accepts every report, then whenever the keyboard has nothing left to do the host has the newest reports. -/
theorem C73_current_partial (count : Nat) (km : KM R Ev Ctx PKS KS) (is : List Input) (s : State R Ev Ctx PKS KS) (ha : Accepted is)
    (h : (State.new count km).run C n row rows is = .ok s) (hp : s.pc = .idle)
    (hk : ¬ Pending .keyboard s ∧ ¬ Pending .mouse s ∧ ¬ Pending .consumer s) : Current s := by
  have t := told_run (told_new count km) h
  have d := due_run (fun _ => due_new count km) ha h hp
  exact current_of t (d.keyboard.resolve_right hk.1) (d.mouse.resolve_right hk.2.1) (d.consumer.resolve_right hk.2.2)

/-- The tasks that send reports. -/
def Task.sends (t : Task) : Prop := t = .keyboard ∨ t = .mouse ∨ t = .consumer

/-- Reports are sent without delay. -/
def Soon (s : State R Ev Ctx PKS KS) : Prop := ∀ t d, (t, d) ∈ s.timers → t.sends → d ≤ s.clock + 1

theorem Soon.start {s : State R Ev Ctx PKS KS} (h : Soon s) {t : Task} {d : Nat} (ht : t.sends → d ≤ 1) : Soon (s.start t d) := by
  intro u d' hm hu
  simp only [State.start, List.mem_cons, Prod.mk.injEq, List.mem_filter] at hm
  show d' ≤ s.clock + 1
  rcases hm with ⟨rfl, rfl⟩ | ⟨hm, _⟩
  · have := ht hu; omega
  · exact h u d' hm hu

theorem Soon.congr {s s' : State R Ev Ctx PKS KS} (h : Soon s) (h1 : s'.timers = s.timers) (h2 : s.clock ≤ s'.clock) : Soon s' := by
  intro t d hm ht
  rw [h1] at hm
  have := h t d hm ht
  omega

theorem Soon.compare {s : State R Ev Ctx PKS KS} (h : Soon s) : Soon s.compare := by
  unfold State.compare
  have h1 : ∀ (s : State R Ev Ctx PKS KS) (u : Task) (c : Prop) [Decidable c], Soon s → Soon (if c then s.start u 1 else s) := by
    intro s u c _ h
    split
    · exact h.start fun _ => Nat.le_refl _
    · exact h
  exact h1 _ _ _ (h1 _ _ _ (h1 _ _ _ h))

theorem Soon.done {s : State R Ev Ctx PKS KS} (h : Soon s) {t : Task} : Soon (s.done t) := h.congr rfl (Nat.le_refl _)

theorem not_sends {t : Task} (h : t = .wake ∨ t = .scan ∨ t = .timeout ∨ t = .tick) : ¬ t.sends := by
  rcases h with rfl | rfl | rfl | rfl <;> simp [Task.sends]

theorem soon_step {s s' : State R Ev Ctx PKS KS} {i : Input} (h : Soon s) (e : s.step C n row rows i = .ok s') : Soon s' := by
  cases i with
  | wait t => cases e; exact h.congr rfl (Nat.le_add_right _ _)
  | expire t =>
    simp only [State.step] at e
    split at e
    · split at e
      · cases e; exact fun u d hm hu => h u d (List.mem_filter.1 hm).1 hu
      · cases e; exact h
    · cases e; exact h
  | move c =>
    simp only [State.step] at e
    split at e <;> cases e <;> exact h.congr rfl (Nat.le_refl _)
  | process ok =>
    simp only [State.step, State.process] at e
    split at e
    · cases e
      exact (Soon.compare (s := { s with pc := .idle, irq := true }) (h.congr rfl (Nat.le_refl _))).done
    · split at e
      · cases e
        exact (Soon.start (s := { s with irq := false, mode := .scanning }) (h.congr rfl (Nat.le_refl _)) (fun _ => Nat.le_refl _)).done
      · split at e
        · simp only [State.onScan] at e
          obtain ⟨⟨s1, next⟩, e1, e⟩ := Res.bind_eq_ok.1 e
          obtain ⟨km, r, made, u, rfl⟩ := registerAfter_frame e1
          rw [← Res.ok.inj e]
          refine (Soon.compare (Soon.start ?_ (fun h => absurd h (not_sends (by simp))))).done
          simp only
          split
          · refine Soon.congr (s := State.start { s with matrix := (s.matrix.scan s.closed).1, km := km, report := r, made := made, updated := u } .timeout (toTmos next)) ?_ rfl (Nat.le_refl _)
            exact Soon.start (h.congr rfl (Nat.le_refl _)) (fun h => absurd h (not_sends (by simp)))
          · exact h.congr rfl (Nat.le_refl _)
        · split at e
          · simp only [State.onTimeout] at e
            obtain ⟨⟨km, r, next⟩, e1, e⟩ := Res.bind_eq_ok.1 e
            rw [← Res.ok.inj e]
            refine (Soon.compare ?_).done
            simp only
            split
            · exact Soon.start (h.congr rfl (Nat.le_refl _)) (fun h => absurd h (not_sends (by simp)))
            · exact h.congr rfl (Nat.le_refl _)
          · split at e
            · cases e; cases ok <;> exact h.congr rfl (Nat.le_refl _)
            · split at e
              · cases e; cases ok <;> exact h.congr rfl (Nat.le_refl _)
              · split at e
                · cases e; cases ok <;> exact h.congr rfl (Nat.le_refl _)
                · split at e
                  · simp only [State.onTick] at e
                    obtain ⟨km1, e1, e⟩ := Res.bind_eq_ok.1 e
                    obtain ⟨⟨km, r⟩, e2, e⟩ := Res.bind_eq_ok.1 e
                    simp only at e
                    split at e
                    · rw [← Res.ok.inj e]
                      refine (Soon.compare (Soon.start ?_ (fun h => absurd h (not_sends (by simp))))).done
                      exact h.congr rfl (Nat.le_refl _)
                    · rw [← Res.ok.inj e]
                      exact h.congr rfl (Nat.le_refl _)
                  · cases e; exact h

theorem soon_run : ∀ {is : List Input} {s s' : State R Ev Ctx PKS KS}, Soon s → s.run C n row rows is = .ok s' → Soon s'
  | [], _, _, h, e => by cases e; exact h
  | i :: is, s, s', h, e => by
    simp only [State.run] at e
    obtain ⟨s1, e1, e⟩ := Res.bind_eq_ok.1 e
    exact soon_run (soon_step h e1) e

theorem expires_pending {ts : List Task} : ∀ {s s' : State R Ev Ctx PKS KS}, s.run C n row rows (ts.map .expire) = .ok s' →
    s'.pc = s.pc ∧ ∀ u, Pending u s' → Pending u s := by
  induction ts with
  | nil => intro s s' e; cases e; exact ⟨rfl, fun _ => id⟩
  | cons t ts ih =>
    intro s s' e
    simp only [List.map_cons, State.run] at e
    obtain ⟨s1, e1, e⟩ := Res.bind_eq_ok.1 e
    obtain ⟨j1, j2⟩ := ih e
    have key : s1.pc = s.pc ∧ ∀ u, Pending u s1 → Pending u s := by
      simp only [State.step] at e1
      split at e1
      · next d hf =>
        have h1 := List.mem_of_find?_eq_some hf
        have h2 := List.find?_some hf
        simp only [decide_eq_true_eq] at h2
        rw [h2] at h1
        split at e1
        · cases e1
          refine ⟨rfl, fun u hu => ?_⟩
          rw [pending_set] at hu
          rcases hu with rfl | hu | ⟨d', hd'⟩
          · exact Or.inr ⟨d, h1⟩
          · exact Or.inl hu
          · exact Or.inr ⟨d', (List.mem_filter.1 hd').1⟩
        · cases e1; exact ⟨rfl, fun _ => id⟩
      · cases e1; exact ⟨rfl, fun _ => id⟩
    exact ⟨j1.trans key.1, fun u hu => key.2 u (j2 u hu)⟩

theorem drain : ∀ {k : Nat} {s s' : State R Ev Ctx PKS KS}, s.pc = .idle → (∀ t d, (t, d) ∉ s.timers) → (∀ t ∈ s.events, t.sends) →
    left s ≤ k → s.run C n row rows (List.replicate k (.process true)) = .ok s' → s'.pc = .idle ∧ ∀ t, ¬ Pending t s'
  | 0, s, _, hp, ht, he, hl, e => by
    cases e
    refine ⟨hp, fun t hpen => ?_⟩
    rcases hpen with hm | ⟨d, hm⟩
    · have h0 : left s = 0 := by omega
      rw [left, List.countP_eq_zero] at h0
      have := he t hm
      have h1 := h0 t (by rcases this with rfl | rfl | rfl <;> simp)
      simp [hm] at h1
    · exact ht t d hm
  | k + 1, s, s', hp, ht, he, hl, e => by
    simp only [List.replicate_succ, State.run] at e
    obtain ⟨s1, e1, e⟩ := Res.bind_eq_ok.1 e
    simp only [State.step, State.process] at e1
    rw [if_neg (by rw [hp]; simp), if_neg fun h => not_sends (by simp) (he _ h), if_neg fun h => not_sends (by simp) (he _ h),
      if_neg fun h => not_sends (by simp) (he _ h)] at e1
    have next : ∀ t, t.sends → t ∈ s.events → s1.pc = s.pc → s1.timers = s.timers →
        (∀ u, u ∈ s1.events ↔ u ∈ s.events ∧ u ≠ t) → s'.pc = .idle ∧ ∀ t, ¬ Pending t s' := by
      intro t hs hm h1 h2 h3
      have hlt : left s1 < left s := left_lt (by rcases hs with rfl | rfl | rfl <;> simp) hm h3
      exact drain (h1.trans hp) (h2 ▸ ht) (fun u hu => he u ((h3 u).1 hu).1) (by omega) e
    split at e1
    · next hm => cases e1; exact next .keyboard (by simp [Task.sends]) hm rfl rfl fun u => mem_events_done
    · split at e1
      · next hm => cases e1; exact next .mouse (by simp [Task.sends]) hm rfl rfl fun u => mem_events_done
      · split at e1
        · next hm => cases e1; exact next .consumer (by simp [Task.sends]) hm rfl rfl fun u => mem_events_done
        · next h1 h2 h3 =>
          rw [if_neg fun h => not_sends (by simp) (he _ h)] at e1
          cases e1
          have h0 : left s = 0 := by
            rw [left, List.countP_eq_zero]
            intro t htm
            have hno : t ∉ s.events := by
              intro hm
              rcases he t hm with rfl | rfl | rfl
              · exact h1 hm
              · exact h2 hm
              · exact h3 hm
            simp [hno]
          exact drain hp ht he (by omega) e

theorem accepted_pass (d : Nat) : Accepted (pass d) := by
  intro ok hm
  simp [pass] at hm
  exact hm

theorem Accepted.append {is js : List Input} (h1 : Accepted is) (h2 : Accepted js) : Accepted (is ++ js) :=
  fun ok hm => (List.mem_append.1 hm).elim (h1 ok) (h2 ok)

theorem accepted_hold (count : Nat) (keys times : List Nat) : Accepted (hold count keys times) := by
  intro ok hm
  rcases List.mem_cons.1 hm with h | h
  · cases h
  · obtain ⟨d, _, h⟩ := List.mem_flatMap.1 h
    exact accepted_pass d ok h

/-- C73: if the stack accepts every report, then 0.625 ms after the keyboard has done all but sending reports, the host has the newest. -/
theorem C73_delivered_partial (count : Nat) (km : KM R Ev Ctx PKS KS) (is : List Input) (s s' : State R Ev Ctx PKS KS) (ha : Accepted is)
    (h : (State.new count km).run C n row rows is = .ok s) (hp : s.pc = .idle)
    (hk : ∀ t, Pending t s → t = .keyboard ∨ t = .mouse ∨ t = .consumer) (h1 : s.run C n row rows (pass 1) = .ok s') :
    s'.pc = .idle ∧ (∀ t, ¬ Pending t s') ∧ Current s' := by
  have t := told_run (told_new count km) h
  have d := due_run (fun _ => due_new count km) ha h
  have so : Soon s := soon_run (s := State.new count km) (by intro t d hm; cases hm) h
  obtain ⟨p, hat⟩ := at_run (at_new count km) h
  have hc := h1
  rw [pass, List.cons_append] at hc
  simp only [State.run, State.step, Res.ok_bind] at hc
  obtain ⟨s2, e2, e3⟩ := run_append hc
  have hp1 : At p ({ s with clock := s.clock + 1 } : State R Ev Ctx PKS KS) := by
    refine Same.at ?_ hat
    exact ⟨rfl, rfl, rfl, fun _ _ => Iff.rfl, fun _ _ _ => Iff.rfl⟩
  obtain ⟨_, _, x3, x4⟩ := expires hp1 e2
  obtain ⟨y1, y2⟩ := expires_pending e2
  have notimers : ∀ t d, (t, d) ∉ s2.timers := by
    intro t d hm
    have hs : t.sends := hk t (Or.inr ⟨d, x3 t d hm⟩)
    exact x4 t (by rcases hs with rfl | rfl | rfl <;> simp) (fun d' hd' => so t d' hd' hs) d hm
  have hleft : left s2 ≤ 9 := by
    have : left s2 ≤ [Task.timeout, .keyboard, .mouse, .consumer].length := List.countP_le_length
    simp at this
    omega
  obtain ⟨z1, z2⟩ := drain (y1.trans hp) notimers (fun t ht => hk t (y2 t (Or.inl ht))) hleft e3
  refine ⟨z1, z2, ?_⟩
  have t' := told_run t h1
  have d' := due_run d (accepted_pass 1) h1 z1
  exact current_of t' (d'.keyboard.resolve_right (z2 _)) (d'.mouse.resolve_right (z2 _)) (d'.consumer.resolve_right (z2 _))

/-- A tap, until the keyboard sleeps. -/
def tapInputs : List Input := hold 16 [0] [0, 1, 1, 11, 12] ++ hold 16 [] [0, 12]

/-- After it the keyboard has nothing left to do but to send a report. -/
example : Accepted tapInputs ∧ prompt Ex.C 9 (· / 4) 4 (State.new 16 Ex.km0) tapInputs = true ∧
    (fun s => (s.pc, s.timers, s.events)) <$> (State.new 16 Ex.km0).run Ex.C 9 (· / 4) 4 tapInputs = .ok (.idle, [(.keyboard, 38)], []) := by
  exact ⟨(accepted_hold _ _ _).append (accepted_hold _ _ _), by decide +kernel, by decide +kernel⟩

end Verif.Ble
