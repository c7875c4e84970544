import Verif.Props.Ble

/-!
# C73, C74: what goes wrong on the ch58x keyboard
-/

namespace Verif.Ble

variable {R Ev Ctx PKS KS : Type} {C : Cfg R Ev Ctx PKS KS} {n : Nat} {row : Nat → Nat} {rows : Nat}

/-- C73: not every report is sent: two keys are pressed at once, and the report with one of them is made but not sent, so that the host
does not learn which of them came first. -/
theorem C73_skipped_refuted :
    ∃ (is : List Input) (s : State Comp.Ref Comp.Ev Comp.Ctx Comp.PKS Comp.KS), Accepted is ∧ (State.new 16 Ex.km0).run Ex.C 9 (· / 4) 4 is = .ok s ∧
      prompt Ex.C 9 (· / 4) 4 (State.new 16 Ex.km0) is = true ∧
      s.made.map (·.keyboard) = [[0, 0, 4, 0, 0, 0, 0, 0], [0, 0, 4, 5, 0, 0, 0, 0]] ∧
      keyboards s.sent = [[0, 0, 4, 5, 0, 0, 0, 0]] := by
  have h : (fun s => (s.made.map (·.keyboard), keyboards s.sent)) <$> (State.new 16 Ex.km0).run Ex.C 9 (· / 4) 4 (hold 16 [0, 1] [0, 1, 1]) =
      .ok ([[0, 0, 4, 0, 0, 0, 0, 0], [0, 0, 4, 5, 0, 0, 0, 0]], [[0, 0, 4, 5, 0, 0, 0, 0]]) := by decide +kernel
  obtain ⟨s, e, hs⟩ := Res.map_eq_ok.1 h
  simp only [Prod.mk.injEq] at hs
  exact ⟨_, s, accepted_hold _ _ _, e, by decide +kernel, hs⟩

/-- With nothing left to do, and no switch moving, nothing happens. -/
theorem rest_run : ∀ {is : List Input} {s s' : State R Ev Ctx PKS KS}, s.pc = .idle → s.timers = [] → s.events = [] → Still is →
    s.run C n row rows is = .ok s' → ∃ c, s' = { s with clock := c }
  | [], s, _, _, _, _, _, e => by cases e; exact ⟨s.clock, rfl⟩
  | i :: is, s, s', hp, ht, he, hs, e => by
    simp only [State.run] at e
    obtain ⟨s1, e1, e⟩ := Res.bind_eq_ok.1 e
    have h1 : ∃ c, s1 = { s with clock := c } := by
      cases i with
      | wait t => cases e1; exact ⟨_, rfl⟩
      | expire t =>
        simp only [State.step, ht, List.find?_nil] at e1
        cases e1; exact ⟨s.clock, rfl⟩
      | move c => exact absurd List.mem_cons_self (hs c)
      | process ok =>
        simp only [State.step, State.process, hp, he, List.not_mem_nil, if_false] at e1
        cases e1; exact ⟨s.clock, rfl⟩
    obtain ⟨c, rfl⟩ := h1
    obtain ⟨c', h⟩ := rest_run (s := { s with clock := c }) hp ht he (fun x hx => hs x (List.mem_cons_of_mem _ hx)) e
    exact ⟨c', h⟩

/-- C73: a report the stack refuses may never be sent: a key is tapped, and stays pressed for the host until a key is pressed again. -/
theorem C73_refused_refuted :
    ∃ (is : List Input) (s : State Comp.Ref Comp.Ev Comp.Ctx Comp.PKS Comp.KS), (State.new 16 Ex.km0).run Ex.C 9 (· / 4) 4 is = .ok s ∧
      (is.countP fun i => decide (i = .process false)) = 1 ∧
      ∀ js s', Still js → s.run Ex.C 9 (· / 4) 4 js = .ok s' →
        s'.closed = List.replicate 16 false ∧ (s'.made.map (·.keyboard)).getLast? = some [0, 0, 0, 0, 0, 0, 0, 0] ∧
        keyboards s'.sent = [[0, 0, 4, 0, 0, 0, 0, 0]] := by
  have h : (fun s => (decide (s.pc = .idle) && s.timers.isEmpty && s.events.isEmpty, s.closed, (s.made.map (·.keyboard)).getLast?, keyboards s.sent)) <$>
      (State.new 16 Ex.km0).run Ex.C 9 (· / 4) 4 (tapInputs ++ [.wait 1, .expire .keyboard, .process false]) =
      .ok (true, List.replicate 16 false, some [0, 0, 0, 0, 0, 0, 0, 0], [[0, 0, 4, 0, 0, 0, 0, 0]]) := by decide +kernel
  obtain ⟨s, e, hs⟩ := Res.map_eq_ok.1 h
  simp only [Prod.mk.injEq, Bool.and_eq_true, decide_eq_true_eq, List.isEmpty_iff] at hs
  obtain ⟨⟨⟨h1, h2⟩, h3⟩, h4, h5, h6⟩ := hs
  refine ⟨_, s, e, by decide +kernel, fun js s' hst hr => ?_⟩
  obtain ⟨c, rfl⟩ := rest_run h1 h2 h3 hst hr
  exact ⟨h4, h5, h6⟩

/-! ## C74 -/

/-- C74: a timeout that was started for a key that has been released cuts short the time of the next: a tap-hold key of 200 ms is held for
50 ms, and, 100 ms later, for 80 ms; it counts as held (left Ctrl is sent), although the keyboard does everything as soon as it is due. -/
theorem C74_early_refuted :
    ∃ (t1 t2 t3 : List Nat) (s : State Comp.Ref Comp.Ev Comp.Ctx Comp.PKS Comp.KS), t1.sum * 625 = 50000 ∧ t2.sum * 625 = 100000 ∧ t3.sum * 625 = 80000 ∧
      prompt Ex.C 9 (· / 4) 4 (State.new 16 Ex.km0) (hold 16 [2] t1 ++ hold 16 [] t2 ++ hold 16 [2] t3 ++ hold 16 [] []) = true ∧
      (State.new 16 Ex.km0).run Ex.C 9 (· / 4) 4 (hold 16 [2] t1 ++ hold 16 [] t2 ++ hold 16 [2] t3 ++ hold 16 [] []) = .ok s ∧
      keyboards s.sent = [[0, 0, 14, 0, 0, 0, 0, 0], [0, 0, 0, 0, 0, 0, 0, 0], [1, 0, 0, 0, 0, 0, 0, 0]] := by
  have h : (fun s => keyboards s.sent) <$> (State.new 16 Ex.km0).run Ex.C 9 (· / 4) 4 (hold 16 [2] [0, 1, 12, 12, 12, 12, 12, 12, 7] ++
      hold 16 [] [0, 5, 1, 11, 1, 142] ++ hold 16 [2] [0, 1, 12, 12, 12, 12, 12, 12, 8, 1, 3, 12, 12, 12, 7] ++ hold 16 [] []) =
      .ok [[0, 0, 14, 0, 0, 0, 0, 0], [0, 0, 0, 0, 0, 0, 0, 0], [1, 0, 0, 0, 0, 0, 0, 0]] := by decide +kernel
  obtain ⟨s, e, hs⟩ := Res.map_eq_ok.1 h
  exact ⟨_, _, _, s, by decide, by decide, by decide, by decide +kernel, e, hs⟩

/-- C74: the keyboard may sleep with something left to do: while key 0 is held, a tap-dance key is tapped, and both are released; for
the host key 0 stays pressed until a key is pressed again. -/
theorem C74_asleep_refuted :
    ∃ (is : List Input) (s : State Comp.Ref Comp.Ev Comp.Ctx Comp.PKS Comp.KS), Accepted is ∧ (State.new 16 Ex.km0).run Ex.C 9 (· / 4) 4 is = .ok s ∧
      prompt Ex.C 9 (· / 4) 4 (State.new 16 Ex.km0) is = true ∧
      ∀ js s', Still js → s.run Ex.C 9 (· / 4) 4 js = .ok s' →
        s'.matrix.debounced = List.replicate 16 false ∧ s'.km.hasScheduledEvents = true ∧ keyboards s'.sent = [[0, 0, 4, 0, 0, 0, 0, 0]] := by
  have h : (fun s => (decide (s.pc = .idle) && s.timers.isEmpty && s.events.isEmpty, s.matrix.debounced, s.km.hasScheduledEvents, keyboards s.sent)) <$>
      (State.new 16 Ex.km0).run Ex.C 9 (· / 4) 4 (hold 16 [0] [0, 1, 1, 11, 12, 12, 12, 12, 12, 7] ++
        hold 16 [0, 7] [0, 5, 12, 12, 12, 12, 12, 12, 3] ++ hold 16 [0] [0, 9, 12, 11] ++ hold 16 [] [0, 1]) =
      .ok (true, List.replicate 16 false, true, [[0, 0, 4, 0, 0, 0, 0, 0]]) := by decide +kernel
  obtain ⟨s, e, hs⟩ := Res.map_eq_ok.1 h
  simp only [Prod.mk.injEq, Bool.and_eq_true, decide_eq_true_eq, List.isEmpty_iff] at hs
  obtain ⟨⟨⟨h1, h2⟩, h3⟩, h4, h5, h6⟩ := hs
  refine ⟨_, s, ?_, e, by decide +kernel, fun js s' hst hr => ?_⟩
  · exact (((accepted_hold _ _ _).append (accepted_hold _ _ _)).append (accepted_hold _ _ _)).append (accepted_hold _ _ _)
  · obtain ⟨c, rfl⟩ := rest_run h1 h2 h3 hst hr
    exact ⟨h4, h5, h6⟩

/-- C74: holding a key with a macro of three instructions for a few milliseconds makes the time to the next event negative (an arithmetic
overflow), although the keyboard does everything as soon as it is due. -/
theorem C74_macro_refuted :
    prompt Ex.C 9 (· / 4) 4 (State.new 16 Ex.km0) (hold 16 [8] [0, 1, 1, 2, 3, 3, 3, 1, 2]) = true ∧
    (fun _ => ()) <$> (State.new 16 Ex.km0).run Ex.C 9 (· / 4) 4 (hold 16 [8] [0, 1, 1, 2, 3, 3, 3, 1, 2]) = .panic .arith := by
  decide +kernel

end Verif.Ble
