import Verif.Lemmas.Keymap

/-!
# A key that waits for a decision has a timer running
-/

namespace Verif.Timer

section
variable {R Ev Ctx PKS KS : Type}

/-- The event will come: it is queued, or scheduled and not cancelled. -/
def Coming (s : Sched Ev) (e : Event Ev) : Prop := some e ∈ s.pending ∨ ∃ t ∈ s.scheduled, t.event = e ∧ t.live = true

theorem coming_scheduleEvent {S : Search} {s s' : Sched Ev} {se : SchEv Ev} (h : s.scheduleEvent S se = .ok s')
    {e : Event Ev} (he : Coming s e ∨ se.event = e) : Coming s' e := by
  rcases Sched.scheduleEvent_cases h with ⟨_, _, rfl⟩ | ⟨d, _, h⟩
  · rcases he with (he | he) | rfl
    · exact Or.inl (by simp [he])
    · exact Or.inr he
    · exact Or.inl (by simp)
  · unfold Sched.scheduleAfter at h
    simp only at h
    split at h
    · split at h
      · simp only [Res.ok.injEq] at h
        subst h
        rcases he with (he | ⟨t, ht, h2⟩) | rfl
        · exact Or.inl he
        · refine Or.inr ⟨t, ?_, h2⟩
          simp only [List.mem_append, List.mem_cons]
          rw [← List.take_append_drop (S.pos (s.scheduled.map Timed.time) (s.counter + d)) s.scheduled, List.mem_append] at ht
          rcases ht with ht | ht
          · exact Or.inl ht
          · exact Or.inr (Or.inr ht)
        · exact Or.inr ⟨⟨s.counter + d, se.event, true⟩, by simp, rfl, rfl⟩
      · simp at h
    · simp at h

theorem coming_scheduleAll {S : Search} {es : KeyEvents Ev} {s s' : Sched Ev} (h : s.scheduleAll S es = .ok s')
    {e : Event Ev} (he : Coming s e ∨ ∃ se ∈ es, se.event = e) : Coming s' e := by
  induction es generalizing s with
  | nil =>
    simp only [Sched.scheduleAll, Res.ok.injEq] at h; subst h
    rcases he with he | ⟨se, hm, _⟩
    · exact he
    · cases hm
  | cons a es ih =>
    simp only [Sched.scheduleAll, Res.bind_eq_ok] at h
    obtain ⟨s1, h1, h2⟩ := h
    refine ih h2 ?_
    rcases he with he | ⟨se, hm, rfl⟩
    · exact Or.inl (coming_scheduleEvent h1 (Or.inl he))
    · rcases List.mem_cons.1 hm with rfl | hm
      · exact Or.inl (coming_scheduleEvent h1 (Or.inr rfl))
      · exact Or.inr ⟨se, hm, rfl⟩

/-- Every key that waits has a timer, and is decided when it goes off. -/
structure HasTimer (C : Cfg R Ev Ctx PKS KS) (timer : Nat → PKS → Event Ev) : Prop where
  press : ∀ idx c r pks es, C.sys.newPressedKey idx c r = .ok (.pending pks, es) → ∃ se ∈ es, se.event = timer idx pks
  due : ∀ idx c r pks pks' es, C.sys.updatePending pks idx c r (timer idx pks) ≠ .ok (pks', none, es)
  keep : ∀ idx c r pks ev pks' es, C.sys.updatePending pks idx c r ev = .ok (pks', none, es) →
    timer idx pks' = timer idx pks ∨ ∃ se ∈ es, se.event = timer idx pks'

variable {C : Cfg R Ev Ctx PKS KS} {timer : Nat → PKS → Event Ev}

/-- The timer of the undecided key is running. -/
def Ticking (timer : Nat → PKS → Event Ev) (km : KM R Ev Ctx PKS KS) : Prop :=
  ∀ p, km.pend = some p → Coming km.sched (timer p.idx p.pks)

theorem Ticking.of_none {km : KM R Ev Ctx PKS KS} (h : km.pend = none) : Ticking timer km := by
  intro p hp; rw [h] at hp; cases hp

theorem Ticking.sched {km : KM R Ev Ctx PKS KS} (h : Ticking timer km) {s : Sched Ev}
    (hs : ∀ e, Coming km.sched e → Coming s e) : Ticking timer { km with sched := s } := fun p hp => hs _ (h p hp)

/-- What is needed of the handler: the timer is running, or has just gone off. -/
def HandlerTicks (timer : Nat → PKS → Event Ev) (he : Handler R Ev Ctx PKS KS) : Prop :=
  ∀ a ev b, (∀ p, a.pend = some p → Coming a.sched (timer p.idx p.pks) ∨ ev = timer p.idx p.pks) →
    he a ev = .ok b → Ticking timer b

theorem drain_ticks {he : Handler R Ev Ctx PKS KS} (hh : HandlerTicks timer he) {n : Nat} {a b : KM R Ev Ctx PKS KS}
    (ha : Ticking timer a) (h : drain he n a = .ok b) : Ticking timer b := by
  induction n generalizing a with
  | zero => simp [drain] at h
  | succ n ih =>
    simp only [drain] at h
    have key : ∀ {e s}, a.sched.dequeue = (e, s) → ∀ x, Coming a.sched x → Coming s x ∨ e = some x := by
      intro e s hd x hx
      unfold Sched.dequeue at hd
      split at hd
      · simp only [Prod.mk.injEq] at hd; rw [← hd.2]; exact Or.inl hx
      · rename_i y q hs
        simp only [Prod.mk.injEq] at hd
        obtain ⟨rfl, rfl⟩ := hd
        rcases hx with hx | hx
        · rw [hs, List.mem_cons] at hx
          rcases hx with hx | hx
          · exact Or.inr hx.symm
          · exact Or.inl (Or.inl hx)
        · exact Or.inl (Or.inr hx)
    split at h
    · rename_i s hd
      simp only [Res.ok.injEq] at h; subst h
      exact ha.sched fun e he => (key hd e he).resolve_right (by simp)
    · rename_i ev s hd
      simp only [Res.bind_eq_ok] at h
      obtain ⟨km1, h1, h2⟩ := h
      refine ih (hh _ _ _ ?_ h1) h2
      intro p hp
      rcases key hd _ (ha p hp) with h | h
      · exact Or.inl h
      · exact Or.inr (Option.some.inj h)

theorem resolve_ticks {he : Handler R Ev Ctx PKS KS} (hh : HandlerTicks timer he) {n : Nat} {a b : KM R Ev Ctx PKS KS}
    {p : Pending R Ev PKS} {ks : KS} (h : resolve C he n a p ks = .ok b) : Ticking timer b := by
  unfold resolve at h
  simp only [Res.bind_eq_ok] at h
  obtain ⟨km1, h1, km2, h2, o, _, h3⟩ := h
  have e1 : km1.pend = none := by
    unfold resolveEnter at h1
    simp only [Res.bind_eq_ok, Res.pure_eq, Res.ok.injEq] at h1
    obtain ⟨ps, _, ⟨q1, s1⟩, _, q2, _, rfl⟩ := h1
    rfl
  have p2 := drain_ticks hh (Ticking.of_none (timer := timer) e1) h2
  cases o with
  | none => simp only [Res.pure_eq, Res.ok.injEq] at h3; subst h3; exact p2
  | some ko => exact hh _ _ _ (fun p hp => Or.inl (p2 p hp)) h3

theorem pendLoop_ticks (hT : HasTimer C timer) {he : Handler R Ev Ctx PKS KS} (hh : HandlerTicks timer he) {n m : Nat}
    {a b : KM R Ev Ctx PKS KS} {p : Pending R Ev PKS} {npk : NPK R} (h : pendLoop C he n m a p npk = .ok b) :
    Ticking timer b := by
  induction m generalizing a p npk with
  | zero => simp [pendLoop] at h
  | succ m ih =>
    cases npk with
    | noOp => exact resolve_ticks hh h
    | key r =>
      simp only [pendLoop, Res.bind_eq_ok] at h
      obtain ⟨⟨pkr, es⟩, h1, s, h2, h3⟩ := h
      cases pkr with
      | resolved ks => exact resolve_ticks hh h3
      | newPressedKey npk =>
        cases npk with
        | noOp => exact resolve_ticks hh h3
        | key r' => exact ih h3
      | pending pks =>
        simp only [Res.bind_eq_ok, Res.pure_eq, Res.ok.injEq] at h3
        obtain ⟨q, _, q', _, rfl⟩ := h3
        intro p' hp'
        simp only [Option.some.injEq] at hp'
        subst hp'
        exact coming_scheduleAll h2 (Or.inr (hT.press _ _ _ _ _ h1))

theorem updatePending_ticks (hT : HasTimer C timer) {he : Handler R Ev Ctx PKS KS} (hh : HandlerTicks timer he) {n : Nat}
    {a b : KM R Ev Ctx PKS KS} {ev : Event Ev}
    (ha : ∀ p, a.pend = some p → Coming a.sched (timer p.idx p.pks) ∨ ev = timer p.idx p.pks)
    (h : updatePending C he n a ev = .ok b) : Ticking timer b := by
  unfold updatePending at h
  split at h
  · rename_i hp
    simp only [Res.pure_eq, Res.ok.injEq] at h; subst h; exact .of_none hp
  · rename_i p hp
    simp only [Res.bind_eq_ok] at h
    obtain ⟨⟨pks, npk, es⟩, h1, s, h2, h3⟩ := h
    cases npk with
    | none =>
      simp only [Res.pure_eq, Res.ok.injEq] at h3; subst h3
      intro p' hp'
      simp only [Option.some.injEq] at hp'
      subst hp'
      refine coming_scheduleAll h2 ?_
      rcases ha p hp with hc | rfl
      · rcases hT.keep _ _ _ _ _ _ _ h1 with he | he
        · simp only [he]; exact Or.inl hc
        · exact Or.inr he
      · exact absurd h1 (hT.due _ _ _ _ _ _)
    | some npk => exact pendLoop_ticks hT hh h3

theorem pressLoop_ticks (hT : HasTimer C timer) {he : Handler R Ev Ctx PKS KS} (hh : HandlerTicks timer he) {m idx : Nat}
    {a b : KM R Ev Ctx PKS KS} {r : R} (ha : a.pend = none) (h : pressLoop C he idx m a r = .ok b) : Ticking timer b := by
  induction m generalizing a r with
  | zero => simp [pressLoop] at h
  | succ m ih =>
    simp only [pressLoop, Res.bind_eq_ok] at h
    obtain ⟨⟨pkr, es⟩, h1, s, h2, h3⟩ := h
    cases pkr with
    | resolved ks =>
      simp only [Res.bind_eq_ok] at h3
      obtain ⟨ps, h4, o, ho, h5⟩ := h3
      cases o with
      | none => simp only [Res.pure_eq, Res.ok.injEq] at h5; subst h5; exact .of_none ha
      | some ko =>
        refine hh _ _ _ ?_ h5
        intro p hp
        simp [ha] at hp
    | newPressedKey npk =>
      cases npk with
      | noOp =>
        simp only [Res.bind_eq_ok, Res.pure_eq, Res.ok.injEq] at h3
        obtain ⟨ps, h4, rfl⟩ := h3
        exact .of_none ha
      | key r' =>
        refine ih ?_ h3
        exact ha
    | pending pks =>
      simp only [Res.pure_eq, Res.ok.injEq] at h3
      subst h3
      intro p' hp'
      simp only [Option.some.injEq] at hp'
      subst hp'
      exact coming_scheduleAll h2 (Or.inr (hT.press _ _ _ _ _ h1))

theorem notifyPressed_coming {c : Ctx} {ev : Event Ev} {ps ps' : List (PressedInput R KS)} {s s' : Sched Ev}
    (h : notifyPressed C c ev ps s = .ok (ps', s')) {e : Event Ev} (he : Coming s e) : Coming s' e := by
  induction ps generalizing ps' s with
  | nil => simp only [notifyPressed, Res.ok.injEq, Prod.mk.injEq] at h; rw [← h.2]; exact he
  | cons x ps ih =>
    cases x with
    | virt ko =>
      simp only [notifyPressed, Res.bind_eq_ok, Res.pure_eq, Res.ok.injEq, Prod.mk.injEq] at h
      obtain ⟨⟨ps1, s1⟩, h1, rfl, rfl⟩ := h
      exact ih h1 he
    | key i r ks =>
      simp only [notifyPressed, Res.bind_eq_ok, Res.pure_eq, Res.ok.injEq, Prod.mk.injEq] at h
      obtain ⟨⟨ks', es⟩, h1, s1, h2, ⟨ps1, s2⟩, h3, rfl, rfl⟩ := h
      exact ih h3 (coming_scheduleAll h2 (Or.inl he))

theorem notifyAll_ticks {a b : KM R Ev Ctx PKS KS} {ev : Event Ev} (ha : Ticking timer a)
    (h : notifyAll C a ev = .ok b) : Ticking timer b := by
  unfold notifyAll at h
  simp only [Res.bind_eq_ok, Res.pure_eq, Res.ok.injEq] at h
  obtain ⟨⟨ps, s⟩, h1, ⟨ctx, es⟩, _, s', h3, rfl⟩ := h
  exact fun p hp => coming_scheduleAll h3 (Or.inl (notifyPressed_coming h1 (ha p hp)))

theorem processInput_ticks (hT : HasTimer C timer) {he : Handler R Ev Ctx PKS KS} (hh : HandlerTicks timer he) {n : Nat}
    {a b : KM R Ev Ctx PKS KS} {ie : InputEvent} (ha : Ticking timer a) (h : processInput C he n a ie = .ok b) :
    Ticking timer b := by
  unfold processInput at h
  cases hp : a.pend with
  | none =>
    simp only [hp, Res.bind_eq_ok] at h
    obtain ⟨c, h1, h2⟩ := h
    refine drain_ticks hh ?_ h2
    simp only [processDirect, Res.bind_eq_ok] at h1
    obtain ⟨d, h3, h4⟩ := h1
    have dp : d.pend = none := (notifyAll_pend h3).trans hp
    cases ie with
    | press idx =>
      simp only at h4
      split at h4
      · simp only [Res.pure_eq, Res.ok.injEq] at h4; subst h4; exact .of_none dp
      · simp only [Res.bind_eq_ok] at h4
        obtain ⟨r, _, h5⟩ := h4
        exact pressLoop_ticks hT hh dp h5
    | release idx =>
      simp only [Res.pure_eq, Res.ok.injEq] at h4; subst h4; exact .of_none dp
    | vpress ko =>
      simp only [Res.bind_eq_ok, Res.pure_eq, Res.ok.injEq] at h4
      obtain ⟨ps, _, rfl⟩ := h4
      exact .of_none dp
    | vrelease ko =>
      simp only [Res.pure_eq, Res.ok.injEq] at h4; subst h4; exact .of_none dp
  | some p =>
    simp only [hp, Res.bind_eq_ok] at h
    obtain ⟨q, h3, c, h4, h2⟩ := h
    refine drain_ticks hh (updatePending_ticks hT hh ?_ h4) h2
    intro p' hp'
    simp only [Option.some.injEq] at hp'
    subst hp'
    exact Or.inl (ha p hp)

theorem handleEvent_ticks (hT : HasTimer C timer) (n : Nat) : HandlerTicks timer (handleEvent C n) := by
  induction n with
  | zero => intro a ev b _ h; simp [handleEvent] at h
  | succ n ih =>
    intro a ev b ha h
    simp only [handleEvent, handleBody, Res.bind_eq_ok] at h
    obtain ⟨c, h1, d, h2, h3⟩ := h
    have t1 : Ticking timer c := updatePending_ticks hT ih (by simpa using ha) h1
    have t2 := notifyAll_ticks t1 h2
    cases ev with
    | input ie => exact processInput_ticks hT ih t2 h3
    | key i e => simp only [Res.pure_eq, Res.ok.injEq] at h3; subst h3; exact t2
    | keymap e => simp only [Res.pure_eq, Res.ok.injEq] at h3; subst h3; exact t2

theorem tick_coming {s s' : Sched Ev} {d : Nat} (h : s.tick d = .ok s') {e : Event Ev} (he : Coming s e) : Coming s' e := by
  unfold Sched.tick at h
  simp only at h
  split at h
  · split at h
    · rename_i t rest hs
      split at h
      · simp only [Sched.enqueue, Res.bind_eq_ok, Res.pure_eq, Res.ok.injEq] at h
        obtain ⟨q, h1, rfl⟩ := h
        obtain ⟨_, rfl⟩ := pushCap_eq_ok.1 h1
        rcases he with he | ⟨t', ht, h2, h3⟩
        · exact Or.inl (by simp [he])
        · rw [hs, List.mem_cons] at ht
          rcases ht with rfl | ht
          · exact Or.inl (by simp [h2, h3])
          · exact Or.inr ⟨t', ht, h2, h3⟩
      · simp only [Res.ok.injEq] at h; subst h; exact he
    · simp only [Res.ok.injEq] at h; subst h; exact he
  · simp at h

theorem tick_ticks (hT : HasTimer C timer) {n : Nat} {a b : KM R Ev Ctx PKS KS} (ha : Ticking timer a)
    (h : tick C n a = .ok b) : Ticking timer b := by
  obtain ⟨km1, s, km2, h1, h2, h3, _, rfl⟩ := tick_eq_ok h
  have i1 : Ticking timer km1 := by
    unfold tickInput at h1
    split at h1
    · split at h1
      · simp only [Res.bind_eq_ok, Res.pure_eq, Res.ok.injEq] at h1
        obtain ⟨c, h4, rfl⟩ := h1
        have := processInput_ticks hT (handleEvent_ticks hT n) ?_ h4
        · exact this
        · exact ha
      · simp only [Res.ok.injEq] at h1; subst h1; exact ha
    · simp only [Res.ok.injEq] at h1; subst h1; exact ha
  have := drain_ticks (handleEvent_ticks hT n) ?_ h3
  · exact this
  · exact fun p hp => tick_coming h2 (i1 p hp)

theorem handleInput_ticks (hT : HasTimer C timer) {n : Nat} {a b : KM R Ev Ctx PKS KS} {ev : InputEvent} (ha : Ticking timer a)
    (h : handleInput C n a ev = .ok b) : Ticking timer b := by
  unfold handleInput at h
  simp only at h
  split at h
  · simp only [Res.ok.injEq] at h; subst h; exact ha
  · split at h
    · split at h
      · simp at h
      · simp only [Res.bind_eq_ok, Res.pure_eq, Res.ok.injEq] at h
        obtain ⟨c, h4, rfl⟩ := h
        have := processInput_ticks hT (handleEvent_ticks hT n) ?_ h4
        · exact this
        · exact ha
    · simp only [Res.ok.injEq] at h; subst h; exact ha

theorem ticks_ticks (hT : HasTimer C timer) {n k : Nat} {a b : KM R Ev Ctx PKS KS} (ha : Ticking timer a)
    (h : ticks C n k a = .ok b) : Ticking timer b := by
  induction k generalizing a with
  | zero => simp only [ticks, Res.ok.injEq] at h; subst h; exact ha
  | succ k ih =>
    simp only [ticks, Res.bind_eq_ok] at h
    obtain ⟨c, h1, h2⟩ := h
    exact ih (tick_ticks hT ha h1) h2

theorem tickBy_ticks (hT : HasTimer C timer) {n d : Nat} {a b : KM R Ev Ctx PKS KS} (ha : Ticking timer a)
    (h : tickBy C n a d = .ok b) : Ticking timer b := by
  unfold tickBy at h
  split at h
  · exact tick_ticks hT ha h
  · split at h
    · simp at h
    · exact ticks_ticks hT ha h

theorem step_ticks (hT : HasTimer C timer) {n : Nat} {a b : KM R Ev Ctx PKS KS} {op : Op} (ha : Ticking timer a)
    (h : step C n a op = .ok b) : Ticking timer b := by
  cases op with
  | input ev => exact handleInput_ticks hT ha h
  | tick => exact tick_ticks hT ha h
  | report =>
    simp only [Verif.step, reportOutput, map_eq_pure_bind, Res.bind_eq_ok, Res.pure_eq, Res.ok.injEq, bind_assoc] at h
    obtain ⟨os, h1, x, rfl, rfl⟩ := h
    exact ha
  | init => simp only [Verif.step, Res.ok.injEq] at h; subst h; exact .of_none rfl
  | setCallback c f =>
    simp only [Verif.step, KM.setCallback] at h
    split at h
    · simp only [Res.ok.injEq] at h; subst h; exact ha
    · simp at h
  | setMsPerTick ms => simp only [Verif.step, Res.ok.injEq] at h; subst h; exact ha
  | inputAfter d ev =>
    simp only [Verif.step, handleInputAfterTime, map_eq_pure_bind, Res.bind_eq_ok, Res.pure_eq, Res.ok.injEq] at h
    obtain ⟨x, ⟨km1, h1, km2, h2, r, h3, h4⟩, h5⟩ := h
    split at h4
    · simp at h4
    · simp only [Res.ok.injEq] at h4
      subst h4; subst h5
      exact handleInput_ticks hT (tickBy_ticks hT ha h1) h2
  | tickToNext =>
    simp only [Verif.step, tickToNext, map_eq_pure_bind, Res.bind_eq_ok, Res.pure_eq, Res.ok.injEq] at h
    obtain ⟨x, ⟨o, h1, h2⟩, h5⟩ := h
    cases o with
    | none => simp only [Res.ok.injEq] at h2; subst h2; subst h5; exact ha
    | some d =>
      simp only [Res.bind_eq_ok, Res.ok.injEq] at h2
      obtain ⟨km1, h3, r, h4, rfl⟩ := h2
      subst h5
      exact tickBy_ticks hT ha h3

theorem run_ticks (hT : HasTimer C timer) {n : Nat} {a b : KM R Ev Ctx PKS KS} {ops : List Op} (ha : Ticking timer a)
    (h : run C n a ops = .ok b) : Ticking timer b := by
  induction ops generalizing a with
  | nil => simp only [run, Res.ok.injEq] at h; subst h; exact ha
  | cons op ops ih =>
    simp only [run, Res.bind_eq_ok] at h
    obtain ⟨c, h1, h2⟩ := h
    exact ih (step_ticks hT ha h1) h2

end

end Verif.Timer
