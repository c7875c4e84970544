import Verif.Props.BleTimeout

/-! # C99: the keymap is called again

`C99_comes_back` says that the task which calls the keymap is on its way. Here: when its time has run out, the keymap is called, after at most three other events. -/

namespace Verif.Ble

variable {R Ev Ctx PKS KS : Type} {C : Cfg R Ev Ctx PKS KS} {n : Nat} {row : Nat → Nat} {rows : Nat}

/-- A task has one timer. -/
def Single (s : State R Ev Ctx PKS KS) : Prop := ∀ t d d', (t, d) ∈ s.timers → (t, d') ∈ s.timers → d = d'

theorem Single.start {s : State R Ev Ctx PKS KS} (h : Single s) (t : Task) (d : Nat) : Single (s.start t d) := by
  intro u a b ha hb
  simp only [State.start, List.mem_cons, Prod.mk.injEq, List.mem_filter, decide_eq_true_eq] at ha hb
  rcases ha with ⟨rfl, rfl⟩ | ⟨ha, ha'⟩
  · rcases hb with ⟨_, rfl⟩ | ⟨_, hb'⟩
    · rfl
    · exact absurd rfl hb'
  · rcases hb with ⟨rfl, _⟩ | ⟨hb, _⟩
    · exact absurd rfl ha'
    · exact h u a b ha hb

theorem Single.compare {s : State R Ev Ctx PKS KS} (h : Single s) : Single s.compare := by
  have h1 : ∀ (s : State R Ev Ctx PKS KS) (u : Task) (c : Prop) [Decidable c], Single s → Single (if c then s.start u 1 else s) := by
    intro s u c _ h
    split
    · exact h.start u 1
    · exact h
  exact h1 _ .consumer _ (h1 _ .mouse _ (h1 s .keyboard _ h))

theorem single_onScan {s s' : State R Ev Ctx PKS KS} (h : Single s) (e : s.onScan C n = .ok s') : Single s' := by
  simp only [State.onScan] at e
  obtain ⟨⟨s1, next⟩, e1, e⟩ := Res.bind_eq_ok.1 e
  obtain ⟨km, r, made, u, rfl⟩ := registerAfter_frame e1
  have e := Res.ok.inj e
  rw [← e]
  refine Single.compare (Single.start ?_ .tick 12)
  split
  · exact Single.start (s := s) h .timeout (toTmos next)
  · exact h

theorem single_onTimeout {s s' : State R Ev Ctx PKS KS} (h : Single s) (e : s.onTimeout C n = .ok s') : Single s' := by
  simp only [State.onTimeout] at e
  obtain ⟨⟨km, r, next⟩, e1, e⟩ := Res.bind_eq_ok.1 e
  have e := Res.ok.inj e
  rw [← e]
  refine Single.compare ?_
  split
  · exact Single.start (s := { s.make km r with updated := s.clock }) h .timeout (toTmos next)
  · exact h

theorem single_onTick {s s' : State R Ev Ctx PKS KS} (h : Single s) (e : s.onTick C n = .ok s') : Single s' := by
  simp only [State.onTick] at e
  obtain ⟨km1, e1, e⟩ := Res.bind_eq_ok.1 e
  obtain ⟨⟨km, r⟩, e2, e⟩ := Res.bind_eq_ok.1 e
  simp only at e
  split at e
  · have e := Res.ok.inj e
    rw [← e]
    refine Single.compare (Single.start ?_ .tick 12)
    exact h
  · have e := Res.ok.inj e
    rw [← e]
    exact h

theorem single_process {s s' : State R Ev Ctx PKS KS} {ok : Bool} (h : Single s) (e : s.process C n ok = .ok s') : Single s' := by
  unfold State.process at e
  split at e
  · cases e
    exact Single.compare (s := { s with pc := .idle, irq := true }) h
  · split at e
    · cases e; exact Single.start (s := { s with irq := false, mode := .scanning }) h .scan 1
    · split at e
      · exact single_onScan h e
      · split at e
        · exact single_onTimeout h e
        · split at e
          · cases e; unfold State.onKeyboard; split <;> exact h
          · split at e
            · cases e; unfold State.onMouse; split <;> exact h
            · split at e
              · cases e; unfold State.onConsumer; split <;> exact h
              · split at e
                · exact single_onTick h e
                · cases e; exact h

theorem single_step {s s' : State R Ev Ctx PKS KS} {i : Input} (h : Single s) (e : s.step C n row rows i = .ok s') : Single s' := by
  cases i with
  | wait t => cases e; exact h
  | expire t =>
    simp only [State.step] at e
    split at e
    · split at e
      · cases e
        exact fun u a b ha hb => h u a b (List.mem_filter.1 ha).1 (List.mem_filter.1 hb).1
      · cases e; exact h
    · cases e; exact h
  | move c =>
    simp only [State.step] at e
    split at e <;> cases e <;> exact h
  | process ok => exact single_process h e

theorem single_run : ∀ {is : List Input} {s s' : State R Ev Ctx PKS KS}, Single s → s.run C n row rows is = .ok s' → Single s'
  | [], _, _, h, e => by cases e; exact h
  | i :: is, s, s', h, e => by
    simp only [State.run] at e
    obtain ⟨s1, e1, e⟩ := Res.bind_eq_ok.1 e
    exact single_run (single_step h e1) e

/-- The next event the firmware processes is the one in which it calls `keymap_next_event_timeout`. -/
def CallsNext (C : Cfg R Ev Ctx PKS KS) (n : Nat) (s : State R Ev Ctx PKS KS) : Prop := ∀ ok, s.process C n ok = s.onTimeout C n

/-- With the scan done, the timeout is next. -/
theorem calls_next {s : State R Ev Ctx PKS KS} (hp : s.pc = .idle) (hw : .wake ∉ s.events) (hs : .scan ∉ s.events) (ht : .timeout ∈ s.events) : CallsNext C n s := by
  intro ok
  unfold State.process
  rw [if_neg (by rw [hp]; simp), if_neg hw, if_neg hs, if_pos ht]

theorem onScan_events {s s' : State R Ev Ctx PKS KS} (e : s.onScan C n = .ok s') : s'.pc = s.pc ∧ ∀ t, t ∈ s'.events ↔ t ∈ s.events ∧ t ≠ .scan := by
  simp only [State.onScan] at e
  obtain ⟨⟨s1, next⟩, e1, e⟩ := Res.bind_eq_ok.1 e
  obtain ⟨km, r, made, u, rfl⟩ := registerAfter_frame e1
  have e := Res.ok.inj e
  rw [← e]
  have key : ∀ x : State R Ev Ctx PKS KS, x.pc = s.pc → x.events = s.events →
      (x.compare.done .scan).pc = s.pc ∧ ∀ t, t ∈ (x.compare.done .scan).events ↔ t ∈ s.events ∧ t ≠ .scan := by
    intro x h1 h2
    obtain ⟨ts, hc, _⟩ := compare_frame x
    rw [hc]
    exact ⟨h1, fun t => h2 ▸ mem_events_done⟩
  apply key <;> (simp only [State.start]; split <;> rfl)

/-- After the scan, if one is due. -/
theorem after_scan {s : State R Ev Ctx PKS KS} (hp : s.pc = .idle) (hw : .wake ∉ s.events) (ht : .timeout ∈ s.events)
    (hr : ∀ j ≤ 1, ∃ s1, s.run C n row rows (List.replicate j (.process true)) = .ok s1) :
    ∃ j ≤ 1, ∃ s1, s.run C n row rows (List.replicate j (.process true)) = .ok s1 ∧ CallsNext C n s1 := by
  by_cases hs : .scan ∈ s.events
  · obtain ⟨s1, e⟩ := hr 1 (by omega)
    refine ⟨1, by omega, s1, e, ?_⟩
    simp only [List.replicate, State.run, State.step] at e
    obtain ⟨s2, e1, e2⟩ := Res.bind_eq_ok.1 e
    cases e2
    unfold State.process at e1
    rw [if_neg (by rw [hp]; simp), if_neg hw, if_pos hs] at e1
    obtain ⟨h1, h2⟩ := onScan_events e1
    exact calls_next (h1.trans hp) (fun h => hw ((h2 _).1 h).1) (fun h => ((h2 _).1 h).2 rfl) ((h2 _).2 ⟨ht, by simp⟩)
  · exact ⟨0, by omega, s, rfl, calls_next hp hw hs ht⟩

/-- One event is processed first. -/
theorem after_one {s s1 : State R Ev Ctx PKS KS} {m : Nat} (e : s.process C n true = .ok s1)
    (hr : ∀ j ≤ m + 1, ∃ s1, s.run C n row rows (List.replicate j (.process true)) = .ok s1) :
    ∀ j ≤ m, ∃ s2, s1.run C n row rows (List.replicate j (.process true)) = .ok s2 := by
  intro j hj
  obtain ⟨s2, h⟩ := hr (j + 1) (by omega)
  simp only [List.replicate, State.run, State.step, e] at h
  exact ⟨s2, h⟩

/-- The same, after waking up, if that is due. -/
theorem after_wake {s : State R Ev Ctx PKS KS} (hp : s.pc = .idle) (ht : .timeout ∈ s.events)
    (hr : ∀ j ≤ 2, ∃ s1, s.run C n row rows (List.replicate j (.process true)) = .ok s1) :
    ∃ j ≤ 2, ∃ s1, s.run C n row rows (List.replicate j (.process true)) = .ok s1 ∧ CallsNext C n s1 := by
  by_cases hw : .wake ∈ s.events
  · have e : s.process C n true = .ok s.onWake := by
      unfold State.process
      rw [if_neg (by rw [hp]; simp), if_pos hw]
    obtain ⟨j, hj, s1, h1, h2⟩ := after_scan (C := C) (n := n) (row := row) (rows := rows) (s := s.onWake) hp (fun h => (mem_events_done.1 h).2 rfl)
      (mem_events_done.2 ⟨ht, by simp⟩) (after_one e hr)
    refine ⟨j + 1, by omega, s1, ?_, h2⟩
    simp only [List.replicate, State.run, State.step, e]
    exact h1
  · obtain ⟨j, hj, h⟩ := after_scan hp hw ht fun j hj => hr j (by omega)
    exact ⟨j, by omega, h⟩

theorem armed_events (s : State R Ev Ctx PKS KS) : s.armed.pc = .idle ∧ ∀ t, t ∈ s.armed.events ↔ t ∈ s.events ∧ t ≠ .tick := by
  unfold State.armed
  obtain ⟨ts, hc, _⟩ := compare_frame { s with pc := .idle, irq := true }
  rw [hc]
  exact ⟨rfl, fun t => mem_events_done⟩

theorem due_called {s : State R Ev Ctx PKS KS} (ht : .timeout ∈ s.events)
    (hr : ∀ j ≤ 3, ∃ s1, s.run C n row rows (List.replicate j (.process true)) = .ok s1) :
    ∃ j ≤ 3, ∃ s1, s.run C n row rows (List.replicate j (.process true)) = .ok s1 ∧ CallsNext C n s1 := by
  cases hp : s.pc with
  | idle =>
    obtain ⟨j, hj, h⟩ := after_wake hp ht fun j hj => hr j (by omega)
    exact ⟨j, by omega, h⟩
  | arming =>
    have e : s.process C n true = .ok s.armed := by
      unfold State.process
      rw [if_pos hp]
    obtain ⟨a1, a2⟩ := armed_events s
    obtain ⟨j, hj, s1, h1, h2⟩ := after_wake (C := C) (n := n) (row := row) (rows := rows) a1 ((a2 _).2 ⟨ht, by simp⟩) (after_one e hr)
    refine ⟨j + 1, by omega, s1, ?_, h2⟩
    simp only [List.replicate, State.run, State.step, e]
    exact h1

/-- C99. Whatever has happened to the keyboard: if the task that calls the keymap runs out at the time `d`, and it is that time or later, then the task becomes due, and
unless the keyboard stops (`hr`) the keymap is called after at most three other events, with nothing else happening. -/
theorem C99_called (count : Nat) (km : KM R Ev Ctx PKS KS) (is : List Input) (s : State R Ev Ctx PKS KS) (d k : Nat)
    (h : (State.new count km).run C n row rows is = .ok s) (hd : (.timeout, d) ∈ s.timers) (hk : d ≤ s.clock + k)
    (hr : ∀ j ≤ 3, ∃ s1, s.run C n row rows (.wait k :: .expire .timeout :: List.replicate j (.process true)) = .ok s1) :
    ∃ j ≤ 3, ∃ s1, s.run C n row rows (.wait k :: .expire .timeout :: List.replicate j (.process true)) = .ok s1 ∧ CallsNext C n s1 := by
  have hu : Single s := single_run (by intro _ _ _ h; cases h) h
  have e : ∃ s2 : State R Ev Ctx PKS KS, .timeout ∈ s2.events ∧ ∀ js, s.run C n row rows (.wait k :: .expire .timeout :: js) = s2.run C n row rows js := by
    cases hf : s.timers.find? (·.1 = .timeout) with
    | none => exact absurd (List.find?_eq_none.1 hf _ hd) (by simp)
    | some x =>
      obtain ⟨t, due⟩ := x
      have ht : t = .timeout := by simpa using List.find?_some hf
      subst ht
      have : due = d := hu _ _ _ (List.mem_of_find?_eq_some hf) hd
      subst this
      refine ⟨State.set { s with clock := s.clock + k, timers := s.timers.filter (·.1 ≠ .timeout) } .timeout, ?_, fun js => ?_⟩
      · simp only [State.set]
        split
        · assumption
        · exact List.mem_cons_self
      · show ((State.step C n row rows { s with clock := s.clock + k } (.expire .timeout)).bind fun s => s.run C n row rows js) = _
        simp only [State.step, hf]
        rw [if_pos hk]
        rfl
  obtain ⟨s2, h2, e⟩ := e
  simp only [e] at hr ⊢
  exact due_called h2 hr

/-- A tap-hold key is held: the task runs out at 321, 200 ms after the scan, and the keyboard does not stop. -/
example : (fun s => (s.timers, s.clock)) <$> (State.new 16 Ex.km0).run Ex.C 9 (· / 4) 4 (tapHoldInputs ++ [.process true]) = .ok ([(.tick, 13), (.timeout, 321)], 1) ∧
    (fun s => s.events) <$> (State.new 16 Ex.km0).run Ex.C 9 (· / 4) 4 (tapHoldInputs ++ [.process true] ++ [.wait 320, .expire .timeout]) = .ok [.timeout] ∧
    (fun s => s.events) <$> (State.new 16 Ex.km0).run Ex.C 9 (· / 4) 4
      (tapHoldInputs ++ [.process true] ++ (.wait 320 :: .expire .timeout :: List.replicate 3 (.process true))) = .ok [] := by
  exact ⟨by decide +kernel, by decide +kernel, by decide +kernel⟩

end Verif.Ble
