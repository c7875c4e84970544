import Verif.Props.Ble

/-! # C99: a ch58x keyboard comes back to its keymap

Two of the calls of the keymap return after how many milliseconds it wants to be called again. The firmware keeps one task for this, and a flag whether it is on its way. -/

namespace Verif.Ble

variable {R Ev Ctx PKS KS : Type} {C : Cfg R Ev Ctx PKS KS} {n : Nat} {row : Nat → Nat} {rows : Nat}

/-- The answers of the keymap while it is told of the changes `es` of the keys from `i` on at the time `clock`, the last call having been made at the time `updated`. -/
def answers (C : Cfg R Ev Ctx PKS KS) (n clock : Nat) (i : Nat) (km : KM R Ev Ctx PKS KS) (r : CApi.HidReport) (updated : Nat) : List (Option Bool) → Res (List Nat)
  | [] => .ok []
  | none :: es => answers C n clock (i + 1) km r updated es
  | some b :: es => do
    let (km, r, t) ← CApi.registerInputAfterMs C n km (deltaMs clock updated) (cEvent i b) r
    let ts ← answers C n clock (i + 1) km r clock es
    pure (t :: ts)

/-- After how many milliseconds the keymap wants to be called again, by the last of its answers while the next event of the firmware is processed; 0 if it is not asked, or
does not wait for anything. -/
def asked (C : Cfg R Ev Ctx PKS KS) (n : Nat) (s : State R Ev Ctx PKS KS) : Res Nat :=
  if s.pc = .arming ∨ .wake ∈ s.events then .ok 0
  else if .scan ∈ s.events then
    (fun ts => ts.getLastD 0) <$> answers C n s.clock 0 s.km s.report s.updated (s.matrix.scan s.closed).2
  else if .timeout ∈ s.events then (fun x => x.2.2) <$> CApi.nextEventTimeout C n s.km s.report
  else .ok 0

theorem registerAfter_answers : ∀ {es : List (Option Bool)} {i : Nat} {s s' : State R Ev Ctx PKS KS} {next next' : Nat} {ts : List Nat},
    registerAfter C n i s next es = .ok (s', next') → answers C n s.clock i s.km s.report s.updated es = .ok ts → next' = ts.getLastD next
  | [], _, _, _, _, _, _, h, h' => by cases h; cases h'; rfl
  | none :: es, _, _, _, _, _, _, h, h' => registerAfter_answers (es := es) h h'
  | some b :: es, i, s, s', next, next', ts, h, h' => by
    simp only [registerAfter] at h
    simp only [answers] at h'
    obtain ⟨⟨km, r, t⟩, e, h⟩ := Res.bind_eq_ok.1 h
    obtain ⟨⟨km1, r1, t1⟩, e', h'⟩ := Res.bind_eq_ok.1 h'
    rw [e] at e'
    cases e'
    obtain ⟨ts', h1, h2⟩ := Res.bind_eq_ok.1 h'
    cases h2
    rw [List.getLastD_cons]
    exact registerAfter_answers (es := es) h h1

/-- The flag is set only while the task is on its way. -/
def Flagged (s : State R Ev Ctx PKS KS) : Prop := s.eventPending = true → Pending .timeout s

theorem Flagged.mono {s s' : State R Ev Ctx PKS KS} (h : Flagged s) (h1 : s'.eventPending = true → s.eventPending = true)
    (h2 : Pending .timeout s → Pending .timeout s') : Flagged s' := fun e => h2 (h (h1 e))

theorem pending_compare {s : State R Ev Ctx PKS KS} : Pending .timeout s.compare ↔ Pending .timeout s := by
  obtain ⟨ts, e, h⟩ := compare_frame s
  rw [e]
  simp only [Pending, h .timeout _ (by simp) (by simp) (by simp)]

theorem eventPending_compare (s : State R Ev Ctx PKS KS) : s.compare.eventPending = s.eventPending := by
  obtain ⟨ts, e, _⟩ := compare_frame s
  rw [e]

theorem Flagged.compare {s : State R Ev Ctx PKS KS} (h : Flagged s) : Flagged s.compare :=
  h.mono (fun e => eventPending_compare s ▸ e) pending_compare.2

theorem Flagged.done {s : State R Ev Ctx PKS KS} (h : Flagged s) {t : Task} (ht : .timeout ≠ t) : Flagged (s.done t) :=
  h.mono id (pending_done_ne ht).2

theorem Flagged.start {s : State R Ev Ctx PKS KS} (h : Flagged s) {t : Task} {d : Nat} : Flagged (s.start t d) :=
  h.mono id fun e => pending_start.2 (Or.inr e)

theorem flagged_onScan {s s' : State R Ev Ctx PKS KS} (h : Flagged s) (e : s.onScan C n = .ok s') : Flagged s' := by
  simp only [State.onScan] at e
  obtain ⟨⟨s1, next⟩, e1, e⟩ := Res.bind_eq_ok.1 e
  obtain ⟨km, r, made, u, rfl⟩ := registerAfter_frame e1
  have e := Res.ok.inj e
  rw [← e]
  refine Flagged.done (Flagged.compare (Flagged.start ?_)) (by simp)
  split
  · intro _
    exact Or.inr ⟨_, List.mem_cons_self⟩
  · exact h

theorem flagged_onTimeout {s s' : State R Ev Ctx PKS KS} (e : s.onTimeout C n = .ok s') : Flagged s' := by
  simp only [State.onTimeout] at e
  obtain ⟨⟨km, r, next⟩, e1, e⟩ := Res.bind_eq_ok.1 e
  have e := Res.ok.inj e
  rw [← e]
  simp only
  split
  · intro _
    generalize hx : ({ s.make km r with updated := s.clock }).start .timeout (toTmos next) = x
    obtain ⟨ts, hc, hts⟩ := compare_frame x
    rw [hc]
    refine Or.inr ⟨s.clock + toTmos next, (hts .timeout _ (by simp) (by simp) (by simp)).2 ?_⟩
    subst hx
    exact List.mem_cons_self
  · intro h
    have h := (eventPending_compare _).symm.trans h
    cases h

theorem flagged_onTick {s s' : State R Ev Ctx PKS KS} (h : Flagged s) (e : s.onTick C n = .ok s') : Flagged s' := by
  simp only [State.onTick] at e
  obtain ⟨km1, e1, e⟩ := Res.bind_eq_ok.1 e
  obtain ⟨⟨km, r⟩, e2, e⟩ := Res.bind_eq_ok.1 e
  simp only at e
  split at e
  · have e := Res.ok.inj e
    rw [← e]
    refine Flagged.done (Flagged.compare (Flagged.start ?_)) (by simp)
    exact h
  · have e := Res.ok.inj e
    rw [← e]
    exact h

theorem flagged_process {s s' : State R Ev Ctx PKS KS} {ok : Bool} (h : Flagged s) (e : s.process C n ok = .ok s') : Flagged s' := by
  unfold State.process at e
  split at e
  · cases e
    exact Flagged.done (Flagged.compare (s := { s with pc := .idle, irq := true }) h) (by simp)
  · split at e
    · cases e; exact Flagged.done (Flagged.start (s := { s with irq := false, mode := .scanning }) h) (by simp)
    · split at e
      · exact flagged_onScan h e
      · split at e
        · exact flagged_onTimeout e
        · split at e
          · cases e; refine Flagged.done ?_ (by simp); split <;> exact h
          · split at e
            · cases e; refine Flagged.done ?_ (by simp); split <;> exact h
            · split at e
              · cases e; refine Flagged.done ?_ (by simp); split <;> exact h
              · split at e
                · exact flagged_onTick h e
                · cases e; exact h

theorem flagged_step {s s' : State R Ev Ctx PKS KS} {i : Input} (h : Flagged s) (e : s.step C n row rows i = .ok s') : Flagged s' := by
  cases i with
  | wait t => cases e; exact h
  | expire t =>
    simp only [State.step] at e
    split at e
    · split at e
      · cases e
        refine h.mono ?_ fun hp => ?_
        · simp [State.set]
        · rw [pending_set]
          by_cases ht : Task.timeout = t
          · exact Or.inl ht
          · refine Or.inr ?_
            rcases hp with hp | ⟨d, hp⟩
            · exact Or.inl hp
            · exact Or.inr ⟨d, List.mem_filter.2 ⟨hp, by simpa using ht⟩⟩
      · cases e; exact h
    · cases e; exact h
  | move c =>
    simp only [State.step] at e
    split at e
    · cases e
      exact h.mono (by simp [State.interrupt, State.set]) fun hp => pending_set.2 (Or.inr hp)
    · cases e; exact h
  | process ok => exact flagged_process h e

theorem flagged_run : ∀ {is : List Input} {s s' : State R Ev Ctx PKS KS}, Flagged s → s.run C n row rows is = .ok s' → Flagged s'
  | [], _, _, h, e => by cases e; exact h
  | i :: is, s, s', h, e => by
    simp only [State.run] at e
    obtain ⟨s1, e1, e⟩ := Res.bind_eq_ok.1 e
    exact flagged_run (flagged_step h e1) e

/-- C99. Whatever has happened to the keyboard: if, while an event is processed, the keymap answers that it wants to be called again after `t` milliseconds, then afterwards
the task that calls it is due, or runs out after that time, or was already on its way and still is. -/
theorem C99_comes_back (count : Nat) (km : KM R Ev Ctx PKS KS) (is : List Input) (s s' : State R Ev Ctx PKS KS) (ok : Bool) (t : Nat)
    (h : (State.new count km).run C n row rows is = .ok s) (hp : s.process C n ok = .ok s') (ha : asked C n s = .ok t) (ht : 0 < t) :
    .timeout ∈ s'.events ∨ (.timeout, s.clock + toTmos t) ∈ s'.timers ∨ ∃ d, (.timeout, d) ∈ s.timers ∧ (.timeout, d) ∈ s'.timers := by
  have hf : Flagged s := flagged_run (by intro h; cases h) h
  unfold asked at ha
  split at ha
  · cases ha; omega
  · next hpw =>
    simp only [not_or] at hpw
    unfold State.process at hp
    rw [if_neg hpw.1, if_neg hpw.2] at hp
    split at ha
    · next hs =>
      rw [if_pos hs] at hp
      simp only [State.onScan] at hp
      obtain ⟨⟨s1, next⟩, e1, hp⟩ := Res.bind_eq_ok.1 hp
      obtain ⟨ts, e2, e3⟩ := Res.map_eq_ok.1 ha
      have e3 : next = t := (registerAfter_answers e1 e2).trans e3
      subst e3
      obtain ⟨km, r, made, u, rfl⟩ := registerAfter_frame e1
      have hp := Res.ok.inj hp
      rw [← hp]
      have key : ∀ y : State R Ev Ctx PKS KS, (.timeout ∈ y.events ∨ (.timeout, s.clock + toTmos next) ∈ y.timers ∨
            ∃ d, (.timeout, d) ∈ s.timers ∧ (.timeout, d) ∈ y.timers) →
          (.timeout ∈ ((y.start .tick 12).compare.done .scan).events ∨ (.timeout, s.clock + toTmos next) ∈ ((y.start .tick 12).compare.done .scan).timers ∨
            ∃ d, (.timeout, d) ∈ s.timers ∧ (.timeout, d) ∈ ((y.start .tick 12).compare.done .scan).timers) := by
        intro y hy
        obtain ⟨ts, hc, hts⟩ := compare_frame (y.start .tick 12)
        have hxy : ∀ d, (Task.timeout, d) ∈ y.timers → (Task.timeout, d) ∈ ts := fun d hd =>
          (hts .timeout _ (by simp) (by simp) (by simp)).2 (List.mem_cons_of_mem _ (List.mem_filter.2 ⟨hd, by simp⟩))
        rw [hc]
        rcases hy with hy | hy | ⟨d, hd, hy⟩
        · exact Or.inl (mem_events_done.2 ⟨hy, by simp⟩)
        · exact Or.inr (Or.inl (hxy _ hy))
        · exact Or.inr (Or.inr ⟨d, hd, hxy d hy⟩)
      apply key
      split
      · exact Or.inr (Or.inl List.mem_cons_self)
      · next hn =>
        have he : s.eventPending = true := by
          simp only [Bool.and_eq_true, Bool.not_eq_true', decide_eq_true_eq, not_and] at hn
          cases hq : s.eventPending with
          | true => rfl
          | false => exact absurd ht (hn hq)
        rcases hf he with hd | ⟨d, hd⟩
        · exact Or.inl hd
        · exact Or.inr (Or.inr ⟨d, hd, hd⟩)
    · next hs =>
      rw [if_neg hs] at hp
      split at ha
      · next hto =>
        rw [if_pos hto] at hp
        simp only [State.onTimeout] at hp
        obtain ⟨⟨km, r, next⟩, e1, hp⟩ := Res.bind_eq_ok.1 hp
        obtain ⟨x, e2, e3⟩ := Res.map_eq_ok.1 ha
        rw [e1] at e2
        cases e2
        have e3 : next = t := e3
        subst e3
        have hp := Res.ok.inj hp
        rw [← hp]
        simp only
        rw [if_pos ht]
        generalize hx : ({ s.make km r with updated := s.clock }).start .timeout (toTmos next) = x
        obtain ⟨ts, hc, hts⟩ := compare_frame x
        rw [hc]
        refine Or.inr (Or.inl ((hts .timeout _ (by simp) (by simp) (by simp)).2 ?_))
        subst hx
        exact List.mem_cons_self
      · cases ha; omega

/-- A tap-hold key is pressed, and the switches are about to be scanned: the keymap wants to be called again after 200 ms. -/
def tapHoldInputs : List Input := hold 16 [2] [0] ++ [.wait 1, .expire .scan]

example : (fun s => (asked Ex.C 9 s, s.clock)) <$> (State.new 16 Ex.km0).run Ex.C 9 (· / 4) 4 tapHoldInputs = .ok (.ok 200, 1) ∧
    (fun s => s.timers) <$> (State.new 16 Ex.km0).run Ex.C 9 (· / 4) 4 (tapHoldInputs ++ [.process true]) = .ok [(.tick, 13), (.timeout, 321)] := by
  exact ⟨by decide +kernel, by decide +kernel⟩

/-- A macro key is pressed, and the task is due: the keymap wants to be called again after 2 ms more. -/
example : (fun s => (asked Ex.C 9 s, s.clock, s.events)) <$> (State.new 16 Ex.km0).run Ex.C 9 (· / 4) 4 (hold 16 [8] [0, 1] ++ [.wait 3, .expire .timeout]) =
    .ok (.ok 2, 4, [.timeout]) := by decide +kernel

/-- A tap-hold key is tapped; 23 ms later a macro key is pressed, and the switches are about to be scanned. -/
def lateInputs : List Input := hold 16 [2] [0, 1, 12] ++ hold 16 [] [0, 12, 1, 11, 1, 11, 1] ++ hold 16 [8] [0] ++ [.wait 1, .expire .scan]

/-- What C99 does not say, and what is false: that the keymap is called again after the time it asked for. A task that is already on its way is left as it is: after a tap of
a tap-hold key the keymap asks to be called after 2 ms, for a macro, and the task runs out 168 ms later, although the keyboard does everything as soon as it is due. -/
theorem C99_in_time_refuted :
    ∃ (is : List Input) (s s' : State Comp.Ref Comp.Ev Comp.Ctx Comp.PKS Comp.KS), prompt Ex.C 9 (· / 4) 4 (State.new 16 Ex.km0) is = true ∧
      (State.new 16 Ex.km0).run Ex.C 9 (· / 4) 4 is = .ok s ∧ s.process Ex.C 9 true = .ok s' ∧ asked Ex.C 9 s = .ok 2 ∧ .timeout ∉ s'.events ∧
      ∀ d, (.timeout, d) ∈ s'.timers → (d - s.clock) * 625 / 1000 = 168 := by
  have h : (fun s => (asked Ex.C 9 s, s.clock)) <$> (State.new 16 Ex.km0).run Ex.C 9 (· / 4) 4 lateInputs = .ok (.ok 2, 51) := by decide +kernel
  obtain ⟨s, e, hs⟩ := Res.map_eq_ok.1 h
  have h' : (fun s => (s.timers, s.events)) <$> (State.new 16 Ex.km0).run Ex.C 9 (· / 4) 4 (lateInputs ++ [.process true]) =
      .ok ([(.keyboard, 52), (.tick, 63), (.timeout, 321)], []) := by decide +kernel
  obtain ⟨s', e', hs'⟩ := Res.map_eq_ok.1 h'
  obtain ⟨s1, e1, e2⟩ := run_append e'
  rw [e] at e1
  cases e1
  simp only [Prod.mk.injEq] at hs hs'
  simp only [State.run] at e2
  obtain ⟨s2, e3, e4⟩ := Res.bind_eq_ok.1 e2
  cases e4
  refine ⟨lateInputs, s, _, by decide +kernel, e, e3, hs.1, by rw [hs'.2]; simp, fun d hd => ?_⟩
  rw [hs'.1] at hd
  simp only [List.mem_cons, Prod.mk.injEq, reduceCtorEq, false_and, true_and, List.not_mem_nil, or_false, false_or] at hd
  subst hd
  rw [hs.2]

end Verif.Ble
