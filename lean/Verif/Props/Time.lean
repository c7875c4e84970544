import Verif.Lemmas.Ticks
import Verif.Lemmas.Composite
import Verif.Example

/-!
# C44, C46, C47, C52: reset, idle ticks, idle time, clock
-/

namespace Verif

section
variable {R Ev Ctx PKS KS : Type} {C : Cfg R Ev Ctx PKS KS} {ctx : Ctx}

/-! ## C44 -/

/-- C44, full statement: after a reset the keymap reports what a new keymap reports, whatever follows. -/
def C44_full (C : Cfg R Ev Ctx PKS KS) (ctx : Ctx) : Prop :=
  ∀ n km ops, Reachable C ctx km →
    (run C n km.init ops >>= fun km => km.pressedKeys C) = (run C n (KM.new ctx) ops >>= fun km => km.pressedKeys C)

/-- C44, proved part: a reset clears everything but the key system's context (and the registered
callbacks): no pressed keys, no undecided key, no queued or scheduled event, clocks at zero. What is
missing: the context (layers, sticky keys, caps word, macros) is kept, see `C44_refuted`. -/
theorem C44_init_partial {km : KM R Ev Ctx PKS KS} (hr : Reachable C ctx km) :
    km.init = { (KM.new km.ctx : KM R Ev Ctx PKS KS) with
      callbacks := km.callbacks, fired := km.fired, log := km.log } := by
  have h := hr.quiet.1
  simp [KM.init, KM.new, Sched.init, Sched.new, h, Sched.initDrain]

end

/-- C44 is false of the code: the layer activated by a held layer key is still active after `init`. -/
theorem C44_refuted : ¬ C44_full Ex.C Ex.ctx := by
  intro h
  have hok : (run Ex.C 9 Ex.km0 [.input (.press 3)]).isOk = true := by decide +kernel
  cases hk : run Ex.C 9 Ex.km0 [.input (.press 3)] with
  | panic p => simp [hk, Res.isOk] at hok
  | fuel => simp [hk, Res.isOk] at hok
  | ok km =>
    have h1 := h 9 km [.input (.press 4)] ⟨9, _, hk⟩
    have h2 : (run Ex.C 9 Ex.km0 [.input (.press 3)] >>= fun km => run Ex.C 9 km.init [.input (.press 4)] >>=
        fun km => km.pressedKeys Ex.C) = .ok [KeyOutput.fromKeyCode 7] := by decide +kernel
    have h3 : (run Ex.C 9 Ex.km0 [.input (.press 4)] >>= fun km => km.pressedKeys Ex.C) =
        .ok [KeyOutput.fromKeyCode 6] := by decide +kernel
    rw [hk, Res.ok_bind, h1] at h2
    have h4 := h2.symm.trans h3
    revert h4; decide

/-- A state with pressed keys, an undecided key, a queued and a scheduled event, which `init` clears. -/
example : ((fun km => (km.pressed.length, km.pend.isSome, km.inq.length, km.sched.scheduled.length)) <$>
    run Ex.C 9 Ex.km0 [.input (.press 0), .tick, .input (.press 2), .input (.press 1)]) = .ok (1, true, 1, 1) := by
  decide +kernel

/-! ## C46 -/

section
variable {R Ev Ctx PKS KS : Type} {C : Cfg R Ev Ctx PKS KS} {ctx : Ctx}

/-- C46: `k` ticks during which nothing is due change the clocks only: the exact result. -/
theorem C46_idle_ticks (hset : ∀ c t i t' i', C.sys.setCtx (C.sys.setCtx c t i) t' i' = C.sys.setCtx c t' i')
    {km : KM R Ev Ctx PKS KS} {n k : Nat} (hr : Reachable C ctx km) (hi : km.inq = [])
    (hs : ∀ t ∈ km.sched.scheduled, km.sched.counter + (k + 1) * km.msPerTick < t.time)
    (hc : km.sched.counter + (k + 1) * km.msPerTick < u32Size) (hd : km.idle + (k + 1) * km.msPerTick < u32Size) :
    ticks C (n + 1) (k + 1) km = .ok { km with
      ctx := C.sys.setCtx km.ctx (km.sched.counter + k * km.msPerTick) (km.idle + k * km.msPerTick)
      delay := km.delay - (k + 1)
      sched := { km.sched with counter := km.sched.counter + (k + 1) * km.msPerTick }
      idle := km.idle + (k + 1) * km.msPerTick } := by
  have hp := hr.quiet.1
  clear hr
  induction k generalizing km with
  | zero =>
    simp only [Nat.zero_add, Nat.one_mul] at hs hc hd
    simp only [ticks, tick_nothing hp hi hs hc hd, Res.ok_bind, Nat.zero_add, Nat.one_mul, Nat.zero_mul, Nat.add_zero]
  | succ k ih =>
    have e : (k + 1 + 1) * km.msPerTick = km.msPerTick + (k + 1) * km.msPerTick := by rw [Nat.add_mul]; omega
    have e' : (k + 1) * km.msPerTick = km.msPerTick + k * km.msPerTick := by rw [Nat.add_mul]; omega
    rw [e] at hs hc hd
    rw [ticks, tick_nothing hp hi (fun t ht => by have := hs t ht; omega) (by omega) (by omega), Res.ok_bind]
    rw [ih (km := { km with
      ctx := C.sys.setCtx km.ctx km.sched.counter km.idle
      delay := km.delay - 1
      sched := { km.sched with counter := km.sched.counter + km.msPerTick }
      idle := km.idle + km.msPerTick }) hi
      (fun t ht => by have := hs t ht; simp only; omega) (by simp only; omega) (by simp only; omega) hp]
    simp only [hset, Res.ok.injEq, KM.mk.injEq, true_and, e, e', Nat.add_assoc, and_true]
    omega

/-- C46 restated: pressed keys, undecided key, callbacks, reporter and the scheduled events are as
before. -/
theorem C46_nothing_changes (hset : ∀ c t i t' i', C.sys.setCtx (C.sys.setCtx c t i) t' i' = C.sys.setCtx c t' i')
    {km : KM R Ev Ctx PKS KS} {n k : Nat} (hr : Reachable C ctx km) (hi : km.inq = [])
    (hs : ∀ t ∈ km.sched.scheduled, km.sched.counter + k * km.msPerTick < t.time)
    (hc : km.sched.counter + k * km.msPerTick < u32Size) (hd : km.idle + k * km.msPerTick < u32Size) :
    ∃ km', ticks C (n + 1) k km = .ok km' ∧ km'.pressed = km.pressed ∧ km'.pend = km.pend ∧ km'.inq = [] ∧
      km'.rep = km.rep ∧ km'.callbacks = km.callbacks ∧ km'.fired = km.fired ∧
      km'.sched.pending = [] ∧ km'.sched.scheduled = km.sched.scheduled ∧
      km'.pressedKeys C = km.pressedKeys C ∧ (km'.ctx = km.ctx ∨ ∃ t i, km'.ctx = C.sys.setCtx km.ctx t i) := by
  cases k with
  | zero => exact ⟨km, rfl, rfl, rfl, hi, rfl, rfl, rfl, hr.quiet.1, rfl, rfl, Or.inl rfl⟩
  | succ k =>
    exact ⟨_, C46_idle_ticks hset hr hi hs hc hd, rfl, rfl, hi, rfl, rfl, rfl, hr.quiet.1, rfl, rfl, Or.inr ⟨_, _, rfl⟩⟩

/-- C56: when `has_scheduled_events` says no, then until the next call other than a tick nothing that can be
observed changes, and it goes on saying no. -/
theorem C56_quiet (hset : ∀ c t i t' i', C.sys.setCtx (C.sys.setCtx c t i) t' i' = C.sys.setCtx c t' i')
    {km : KM R Ev Ctx PKS KS} {n k : Nat} (hr : Reachable C ctx km) (hs : km.hasScheduledEvents = false)
    (hc : km.sched.counter + k * km.msPerTick < u32Size) (hd : km.idle + k * km.msPerTick < u32Size) :
    ∃ km', ticks C (n + 1) k km = .ok km' ∧ km'.pressedKeys C = km.pressedKeys C ∧ km'.pressed = km.pressed ∧
      km'.pend = km.pend ∧ km'.rep = km.rep ∧ km'.fired = km.fired ∧ km'.hasScheduledEvents = false := by
  simp only [KM.hasScheduledEvents, Bool.or_eq_false_iff, Bool.not_eq_false', List.isEmpty_iff] at hs
  obtain ⟨⟨h1, h2⟩, h3⟩ := hs
  obtain ⟨km', a, b1, b2, b3, b4, _, b6, b7, b8, b9, _⟩ :=
    C46_nothing_changes (n := n) (k := k) hset hr h3 (by rw [h2]; simp) hc hd
  exact ⟨km', a, b9, b1, b2, b4, b6, by simp [KM.hasScheduledEvents, b7, b8, h2, b3]⟩

/-- C56: in a reachable state `has_scheduled_events` says yes exactly when an input event is waiting to be
processed or a timer is running. -/
theorem C56_when {km : KM R Ev Ctx PKS KS} (hr : Reachable C ctx km) :
    km.hasScheduledEvents = true ↔ (∃ e, e ∈ km.inq) ∨ ∃ t, t ∈ km.sched.scheduled := by
  have hp := hr.quiet.1
  cases hq : km.inq <;> cases hs : km.sched.scheduled <;> simp [KM.hasScheduledEvents, hp, hq, hs]

end

namespace Comp

/-- C46 for the aggregate key system: of the context only the two idle clocks change. -/
theorem C46_nothing_changes (K : Keys) (refs : List Ref) (S : Search) {ctx : Ctx} {km : KM Ref Ev Ctx PKS KS}
    {n k : Nat} (hr : Reachable (cfg K refs S) ctx km) (hi : km.inq = [])
    (hs : ∀ t ∈ km.sched.scheduled, km.sched.counter + k * km.msPerTick < t.time)
    (hc : km.sched.counter + k * km.msPerTick < u32Size) (hd : km.idle + k * km.msPerTick < u32Size) :
    ∃ km', ticks (cfg K refs S) (n + 1) k km = .ok km' ∧ km'.pressed = km.pressed ∧ km'.pend = km.pend ∧
      km'.pressedKeys (cfg K refs S) = km.pressedKeys (cfg K refs S) ∧ km'.sched.scheduled = km.sched.scheduled ∧
      km'.ctx.layered = km.ctx.layered ∧ km'.ctx.sticky = km.ctx.sticky ∧ km'.ctx.capsWord = km.ctx.capsWord ∧
      km'.ctx.automation = km.ctx.automation ∧ km'.ctx.chorded.setIdle 0 = km.ctx.chorded.setIdle 0 := by
  obtain ⟨km', h, h1, h2, _, _, _, _, _, h3, h4, h5⟩ :=
    Verif.C46_nothing_changes (C := cfg K refs S) (fun _ _ _ _ _ => rfl) (n := n) hr hi hs hc hd
  refine ⟨km', h, h1, h2, h4, h3, ?_⟩
  rcases h5 with h5 | ⟨t, i, h5⟩ <;> rw [h5]
  · simp
  · exact ⟨rfl, rfl, rfl, rfl, rfl⟩

/-- A state with a held key and a timeout 199 ms away: 150 idle ticks. -/
example : ((fun km => (km.inq, km.sched.counter + 150 * km.msPerTick,
    km.sched.scheduled.all (fun t => decide (km.sched.counter + 150 * km.msPerTick < t.time)), km.sched.scheduled.length)) <$>
      run Ex.C 9 Ex.km0 [.input (.press 0), .tick, .input (.press 2), .tick]) = .ok ([], 152, true, 1) := by
  decide +kernel

end Comp

/-! ## C47 -/

section
variable {R Ev Ctx PKS KS : Type} {C : Cfg R Ev Ctx PKS KS} {ctx : Ctx}

/-- A view `f` of the context that shows the idle time it was told last. -/
structure ShowsIdle (C : Cfg R Ev Ctx PKS KS) (f : Ctx → Nat) : Prop where
  set : ∀ c t i, f (C.sys.setCtx c t i) = i
  event : ∀ c ev c' es, C.sys.ctxEvent c ev = .ok (c', es) → f c' = f c

theorem ShowsIdle.steps {f : Ctx → Nat} (hf : ShowsIdle C f) {Q : Event Ev → Prop} {a b : KM R Ev Ctx PKS KS}
    (hq : QInv (fun _ => True) a) (h : Steps C Q a b) : f b.ctx = f a.ctx := by
  refine (h.inv (I := fun km => QInv (fun _ => True) km ∧ f km.ctx = f a.ctx) ?_ ⟨hq, rfl⟩).2
  intro x y hx m
  refine ⟨hx.1.micro (Emits.trivial C) m, ?_⟩
  cases m with
  | ctxEv ev ctx es s hu hs => exact (hf.event _ _ _ _ hu).trans hx.2
  | take ev s hd => simpa using hx.2
  | resolve p ks km' hp hf he =>
    obtain ⟨_, _, rfl⟩ := resolveEnter_spec (hx.1.queued p hp) he
    exact hx.2
  | _ => exact hx.2

theorem ShowsIdle.tick {f : Ctx → Nat} (hf : ShowsIdle C f) {n : Nat} {a b : KM R Ev Ctx PKS KS}
    (hq : QInv (fun _ => True) a) (h : tick C n a = .ok b) : f b.ctx = a.idle := by
  obtain ⟨km1, s, km2, h1, h2, h3, _, rfl⟩ := tick_eq_ok h
  have q0 : QInv (fun _ => True) { a with ctx := C.sys.setCtx a.ctx a.sched.counter a.idle } :=
    ⟨hq.pending, hq.scheduled, hq.queued⟩
  have q1 := ((qinv_api (fun _ => True) (Emits.trivial C)).tickInput ⟨q0, q0⟩ h1).1
  have q2 : QInv (fun _ => True) ({ km1 with delay := km1.delay - 1, sched := s }) :=
    ⟨fun _ _ => True.intro, fun _ _ => True.intro, q1.queued⟩
  have e2 := hf.steps q2 (drainN_steps (Emits.trivial C) q2 h3)
  have e1 : f km1.ctx = a.idle := by
    unfold tickInput at h1
    split at h1
    · rename_i ie q _
      split at h1
      · simp only [Res.bind_eq_ok, Res.pure_eq, Res.ok.injEq] at h1
        obtain ⟨km3, h4, rfl⟩ := h1
        have q3 : QInv (fun _ => True)
            { a with ctx := C.sys.setCtx a.ctx a.sched.counter a.idle, inq := q, log := a.log ++ [ie] } :=
          ⟨q0.pending, q0.scheduled, q0.queued⟩
        exact (hf.steps q3 (processInputN_steps (Emits.trivial C) q3 True.intro h4)).trans (hf.set _ _ _)
      · simp only [Res.ok.injEq] at h1; subst h1; exact hf.set _ _ _
    · simp only [Res.ok.injEq] at h1; subst h1; exact hf.set _ _ _
  exact e2.trans e1

/-- C47, proved part: `k + 1` ticks after the last `handle_input`, the keymap has counted exactly the
milliseconds ticked; the idle time a key is shown by the next `handle_input` is one tick less. What is
missing is that last tick, see `C47_refuted`. -/
theorem C47_idle_time_partial {f : Ctx → Nat} (hf : ShowsIdle C f) {a b c : KM R Ev Ctx PKS KS} {n k : Nat}
    {ev : InputEvent} (hr : Reachable C ctx a) (h1 : handleInput C n a ev = .ok b)
    (h2 : ticks C n (k + 1) b = .ok c) :
    c.idle = (k + 1) * a.msPerTick ∧ f c.ctx = k * a.msPerTick := by
  have qa := hr.quiet.2
  have qb := ((qinv_api (fun _ => True) (Emits.trivial C)).handleInput ⟨qa, qa⟩ h1).1
  have cb := handleInput_clock qa h1
  have cc := ticks_clock qb h2
  refine ⟨by rw [cc.1, cb.1, cb.2.1]; omega, ?_⟩
  obtain ⟨d, h3, h4⟩ := ticks_append.1 h2
  simp only [ticks, Res.bind_eq_ok, Res.ok.injEq] at h4
  obtain ⟨c', h4, rfl⟩ := h4
  have qd := ((qinv_api (fun _ => True) (Emits.trivial C)).ticks ⟨qb, qb⟩ h3).1
  rw [hf.tick qd h4, (ticks_clock qb h3).1, cb.1, cb.2.1]
  omega

end

namespace Comp

theorem showsIdle (K : Keys) (refs : List Ref) (S : Search) : ShowsIdle (cfg K refs S) (fun c => c.tapHold.idle) where
  set := fun _ _ _ => rfl
  event := by
    intro c ev c' es h
    simp only [cfg, system, Ctx.handleEvent, Res.bind_eq_ok, Res.pure_eq, Res.ok.injEq, Prod.mk.injEq] at h
    obtain ⟨_, _, _, _, _, _, _, _, _, _, rfl, _⟩ := h
    rfl

/-- C47, full statement for tap-hold keys: the idle time shown is the time ticked since the last
`handle_input`. -/
def C47_full (C : Cfg Ref Ev Ctx PKS KS) (ctx : Ctx) : Prop :=
  ∀ a b c n k ev, Reachable C ctx a → handleInput C n a ev = .ok b → ticks C n k b = .ok c →
    c.ctx.tapHold.idle = k * a.msPerTick

/-- C47 is false of the code: after 5 ticks a key processed by `handle_input` is shown 4 ms. -/
theorem C47_refuted : ¬ C47_full Ex.C Ex.ctx := by
  intro h
  have e : ((fun km => km.ctx.tapHold.idle) <$> (handleInput Ex.C 9 Ex.km0 (.press 0) >>= fun b => ticks Ex.C 9 5 b)) =
      .ok 4 := by decide +kernel
  cases hb : handleInput Ex.C 9 Ex.km0 (.press 0) with
  | panic p => simp [hb] at e
  | fuel => simp [hb] at e
  | ok b =>
    cases hc : ticks Ex.C 9 5 b with
    | panic p => simp [hb, hc] at e
    | fuel => simp [hb, hc] at e
    | ok c =>
      have := h Ex.km0 b c 9 5 (.press 0) ⟨9, [], rfl⟩ hb hc
      simp only [hb, hc, Res.ok_bind, Res.map_ok, Res.ok.injEq] at e
      rw [e] at this
      revert this; decide

/-- The hypotheses of `C47_idle_time_partial` are met, for the aggregate system. -/
example : ((fun km => (km.idle, km.ctx.tapHold.idle)) <$>
    run Ex.C 9 Ex.km0 [.input (.press 0), .tick, .tick, .tick]) = .ok (3, 2) := by decide +kernel

end Comp

/-! ## C52 -/

section
variable {R Ev Ctx PKS KS : Type} {C : Cfg R Ev Ctx PKS KS} {ctx : Ctx}

/-- C52, full statement: `tick_by(d)` advances the clock by `d`. -/
def C52_full (C : Cfg R Ev Ctx PKS KS) (ctx : Ctx) : Prop :=
  ∀ km km' n d, Reachable C ctx km → tickBy C n km d = .ok km' → km'.sched.counter = km.sched.counter + d

/-- What `tick_by` does to the clock. -/
theorem tickBy_counter {km km' : KM R Ev Ctx PKS KS} {n d : Nat} (hq : QInv (fun _ => True) km)
    (h : tickBy C n km d = .ok km') : km'.sched.counter =
      km.sched.counter + (if d = 0 then km.msPerTick else d / km.msPerTick * km.msPerTick) := by
  unfold tickBy at h
  split at h
  · rename_i hd; rw [if_pos hd]; exact (tick_clock hq h).2.2.1
  · rename_i hd
    rw [if_neg hd]
    split at h
    · simp at h
    · exact (ticks_clock hq h).2.2

/-- C52, proved part: the clock advances by exactly `d` when `d` is a positive multiple of the tick
length; in particular for every `d > 0` with 1 ms ticks. What is missing: `d = 0` advances one tick, and
a remainder of `d` is dropped, see `C52_refuted`. -/
theorem C52_tick_by_partial {km km' : KM R Ev Ctx PKS KS} {n d : Nat} (hr : Reachable C ctx km) (hd : 0 < d)
    (hm : km.msPerTick ∣ d) (h : tickBy C n km d = .ok km') : km'.sched.counter = km.sched.counter + d := by
  rw [tickBy_counter hr.quiet.2 h, if_neg (by omega), Nat.div_mul_cancel hm]

/-- C52 for `handle_input_after_time`: the same clock. -/
theorem C52_handle_input_after_time_partial {km km' : KM R Ev Ctx PKS KS} {n d : Nat} {ev : InputEvent} {o : Option Nat}
    (hr : Reachable C ctx km) (hd : 0 < d) (hm : km.msPerTick ∣ d)
    (h : handleInputAfterTime C n km d ev = .ok (km', o)) : km'.sched.counter = km.sched.counter + d := by
  unfold handleInputAfterTime at h
  simp only [Res.bind_eq_ok] at h
  obtain ⟨km1, h1, km2, h2, r, h3, h4⟩ := h
  split at h4
  · simp at h4
  · simp only [Res.pure_eq, Res.ok.injEq, Prod.mk.injEq] at h4
    have q := hr.quiet.2
    have q1 := ((qinv_api (fun _ => True) (Emits.trivial C)).tickBy ⟨q, q⟩ h1).1
    rw [← h4.1, (handleInput_clock q1 h2).2.2.1]
    exact C52_tick_by_partial hr hd hm h1

end

/-- C52 is false of the code: `tick_by(0)` advances the clock. -/
theorem C52_refuted_zero : ¬ C52_full Ex.C Ex.ctx := by
  intro h
  have e : ((fun km => km.sched.counter) <$> tickBy Ex.C 9 Ex.km0 0) = .ok 1 := by decide +kernel
  cases hb : tickBy Ex.C 9 Ex.km0 0 with
  | panic p => simp [hb] at e
  | fuel => simp [hb] at e
  | ok b =>
    have := h Ex.km0 b 9 0 ⟨9, [], rfl⟩ hb
    simp only [hb, Res.map_ok, Res.ok.injEq] at e
    rw [e] at this
    revert this; decide

/-- And with 2 ms ticks `tick_by(3)` advances it by 2 ms. -/
theorem C52_refuted_remainder : ((fun km => km.sched.counter) <$>
    (run Ex.C 9 Ex.km0 [.setMsPerTick 2] >>= fun km => tickBy Ex.C 9 km 3)) = .ok 2 := by decide +kernel

/-- The hypotheses are met: 2 ms ticks, 6 ms. -/
example : ((fun km => km.sched.counter) <$>
    (run Ex.C 9 Ex.km0 [.setMsPerTick 2] >>= fun km => tickBy Ex.C 9 km 6)) = .ok 6 := by decide +kernel

end Verif
