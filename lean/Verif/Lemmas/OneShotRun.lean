import Verif.Lemmas.OneShotPress
import Verif.Props.Board

/-!
# Whole histories on the keymap and on the keyboard with sticky layers
-/

namespace Verif.Comp

open OneShot

/-- The firmware between two calls, `t` ticks after the start. -/
structure OSimQ (K : Keys) (count : Nat) (t : Nat) (km : CKM) (m : Queued) : Prop where
  rel : ORel K count km.ctx km.pressed m.board (m.board.held.map Prod.fst)
  pend : km.pend = none
  pending : km.sched.pending = []
  inq : km.inq = m.queue
  delay : km.delay = m.delay
  scheduled : km.sched.scheduled = []
  counter : km.sched.counter = t
  idle : km.idle ≤ t
  ms : km.msPerTick = 1
  phys : ∀ e ∈ m.queue, isPhysical e = true

variable {K : Keys} {refs : List Ref} {S : Search} {layout : List Pos} {count n : Nat}

theorem OSimQ.take (hlay : onceLayoutOf K refs = some layout) (hfit : ∀ e ∈ layout, e.Fits count) (hlen : layout.length ≤ 65535) {t : Nat}
    {km : CKM} {s : State} {d : Nat} {e : InputEvent} {q : List InputEvent} (h : OSimQ K count t km ⟨s, q, d⟩) (he : isPhysical e = true)
    {m : Queued} (hm : Queued.take layout s (e :: q) = some m) :
    ∃ km', processInputN ⟨system K, refs, S⟩ (n + 18) km e = .ok km' ∧ OSimQ K count t { km' with delay := 1 } m := by
  simp only [Queued.take, Option.map_eq_some_iff] at hm
  obtain ⟨s', hs', rfl⟩ := hm
  have key : OTakes K count km s' (processInputN ⟨system K, refs, S⟩ (n + 18) km e) := by
    cases e with
    | press i => exact oprocess_press hlay hfit hlen h.rel h.pend h.pending hs'
    | release j =>
      cases hs'
      exact oprocess_release (n := n + 16) h.rel h.pend h.pending j
    | vpress ko => simp [isPhysical] at he
    | vrelease ko => simp [isPhysical] at he
  obtain ⟨km', h1, ⟨ctx, ps, f, q', rfl, _, _⟩, h3, h4⟩ := key
  exact ⟨_, h1, h4, h.pend, h3, h.inq, rfl, h.scheduled, h.counter, h.idle, h.ms, h.phys⟩

theorem OSimQ.input (hlay : onceLayoutOf K refs = some layout) (hfit : ∀ e ∈ layout, e.Fits count) (hlen : layout.length ≤ 65535) {t : Nat}
    {km : CKM} {m m' : Queued} {e : InputEvent} (h : OSimQ K count t km m) (he : isPhysical e = true) (hm : m.input layout e = some m') :
    ∃ km', handleInput ⟨system K, refs, S⟩ (n + 18) km e = .ok km' ∧ OSimQ K count t km' m' := by
  obtain ⟨s, q, d⟩ := m
  obtain ⟨hrel, hpend, hpending, hinq, hdel, hsch, hcnt, hidle, hms, hphys⟩ := h
  simp only at hrel hinq hdel hphys
  subst hinq hdel
  unfold Queued.input at hm
  unfold handleInput
  simp only [inputCap]
  by_cases hq : km.inq.length ≥ 31
  · simp only [hq, if_true] at hm ⊢
    cases hm
    exact ⟨_, rfl, hrel, hpend, hpending, rfl, rfl, hsch, hcnt, Nat.zero_le _, hms, hphys⟩
  · simp only [hq, if_false] at hm ⊢
    have hphys' : ∀ x ∈ km.inq ++ [e], isPhysical x = true := by
      intro x hx
      simp only [List.mem_append, List.mem_cons, List.not_mem_nil, or_false] at hx
      rcases hx with hx | rfl
      · exact hphys x hx
      · exact he
    by_cases hd : km.delay = 0
    · simp only [hd, if_true] at hm ⊢
      obtain ⟨e', q', hcons⟩ : ∃ e' q', km.inq ++ [e] = e' :: q' := by cases km.inq <;> exact ⟨_, _, rfl⟩
      rw [hcons] at hphys' hm ⊢
      have hs2 : OSimQ K count t { km with idle := 0, delay := 0, inq := q', log := km.log ++ [e'] } ⟨s, q', 0⟩ :=
        ⟨hrel, hpend, hpending, rfl, rfl, hsch, hcnt, Nat.zero_le _, hms, fun x hx => hphys' x (List.mem_cons_of_mem _ hx)⟩
      obtain ⟨km', hk, hs'⟩ := hs2.take (S := S) (n := n) hlay hfit hlen (hphys' e' List.mem_cons_self) hm
      refine ⟨{ km' with delay := inputDelay }, ?_, hs'⟩
      simp only
      rw [hk]
      rfl
    · simp only [hd, if_false] at hm ⊢
      cases hm
      exact ⟨_, rfl, hrel, hpend, hpending, rfl, rfl, hsch, hcnt, Nat.zero_le _, hms, hphys'⟩

theorem OSimQ.tick (hlay : onceLayoutOf K refs = some layout) (hfit : ∀ e ∈ layout, e.Fits count) (hlen : layout.length ≤ 65535) {t : Nat}
    {km : CKM} {m m' : Queued} (h : OSimQ K count t km m) (ht : t + 1 < u32Size) (hm : m.tick layout = some m') :
    ∃ km', Verif.tick ⟨system K, refs, S⟩ (n + 18) km = .ok km' ∧ OSimQ K count (t + 1) km' m' := by
  obtain ⟨km1, hkm1⟩ : ∃ km1 : CKM, km1 = { km with ctx := km.ctx.setKeymapContext km.sched.counter km.idle } := ⟨_, rfl⟩
  have h1 : OSimQ K count t km1 m := by
    subst hkm1
    exact ⟨⟨h.rel.held, h.rel.nodup, h.rel.len, h.rel.active, h.rel.modified, h.rel.caps, h.rel.layers,
      h.rel.layerCount, h.rel.dfltOk, h.rel.fits, h.rel.idle.setIdle _⟩,
      h.pend, h.pending, h.inq, h.delay, h.scheduled, h.counter, h.idle, h.ms, h.phys⟩
  -- the clock, after the input of the tick
  have clock : ∀ (km2 : CKM) (m2 : Queued), OSimQ K count t km2 m2 →
      ∃ km', (do
        let s ← km2.sched.tick km2.msPerTick
        let km ← drainN ⟨system K, refs, S⟩ (n + 18) { km2 with delay := km2.delay - 1, sched := s }
        if km.idle + km.msPerTick < u32Size then pure { km with idle := km.idle + km.msPerTick } else .panic .arith) = Res.ok km' ∧
      OSimQ K count (t + 1) km' { m2 with delay := m2.delay - 1 } := by
    intro km2 m2 h2
    have hc := h2.counter
    have hms := h2.ms
    have hidle := h2.idle
    have hst : km2.sched.tick km2.msPerTick = .ok { km2.sched with counter := km2.sched.counter + 1 } := by
      simp only [Sched.tick, h2.scheduled, hms]
      rw [if_pos (by omega)]
    have hdr : drainN ⟨system K, refs, S⟩ (n + 18) { km2 with delay := km2.delay - 1, sched := { km2.sched with counter := km2.sched.counter + 1 } } =
        .ok { km2 with delay := km2.delay - 1, sched := { km2.sched with counter := km2.sched.counter + 1 } } := drain_empty h2.pending
    refine ⟨{ km2 with delay := km2.delay - 1, sched := { km2.sched with counter := km2.sched.counter + 1 }, idle := km2.idle + km2.msPerTick }, ?_, ?_⟩
    · simp only [hst, Res.ok_bind, hdr]
      rw [if_pos (by omega)]
      rfl
    · refine ⟨h2.rel, h2.pend, h2.pending,
        h2.inq, by show km2.delay - 1 = m2.delay - 1; rw [h2.delay], h2.scheduled, by show km2.sched.counter + 1 = t + 1; omega,
        by show km2.idle + km2.msPerTick ≤ t + 1; omega, h2.ms, h2.phys⟩
  have htick : Verif.tick ⟨system K, refs, S⟩ (n + 18) km = (tickInput ⟨system K, refs, S⟩ (n + 18) km1 >>= fun km2 => do
        let s ← km2.sched.tick km2.msPerTick
        let km ← drainN ⟨system K, refs, S⟩ (n + 18) { km2 with delay := km2.delay - 1, sched := s }
        if km.idle + km.msPerTick < u32Size then pure { km with idle := km.idle + km.msPerTick } else .panic .arith) := by
    subst hkm1; rfl
  rw [htick]
  unfold Queued.tick at hm
  by_cases hc : m.delay = 0 ∧ m.queue ≠ []
  · rw [if_pos hc] at hm
    cases hq : m.queue with
    | nil => exact absurd hq hc.2
    | cons e q =>
      rw [hq] at hm
      have hphys : ∀ x ∈ e :: q, isPhysical x = true := by rw [← hq]; exact h.phys
      have hs2 : OSimQ K count t { km1 with inq := q, log := km1.log ++ [e] } ⟨m.board, q, 0⟩ :=
        ⟨h1.rel, h1.pend, h1.pending, rfl, by rw [← hc.1]; exact h1.delay, h1.scheduled, h1.counter, h1.idle, h1.ms, fun x hx => hphys x (by simp [hx])⟩
      have hti : tickInput ⟨system K, refs, S⟩ (n + 18) km1 =
          (processInputN ⟨system K, refs, S⟩ (n + 18) { km1 with inq := q, log := km1.log ++ [e] } e >>= fun km => .ok { km with delay := inputDelay }) := by
        unfold tickInput
        rw [h1.inq, hq]
        simp only
        rw [if_pos (by rw [h1.delay]; exact hc.1)]
        rfl
      rw [hti]
      simp only [Option.map_eq_some_iff] at hm
      obtain ⟨m2, hm2, rfl⟩ := hm
      obtain ⟨km', hk, hs'⟩ := hs2.take (S := S) (n := n) hlay hfit hlen (hphys e (by simp)) hm2
      obtain ⟨km'', hk2, hs''⟩ := clock _ _ hs'
      refine ⟨km'', ?_, ?_⟩
      · rw [hk]; simp only [Res.ok_bind]; exact hk2
      · have : m2.delay = 1 := by
          simp only [Queued.take, Option.map_eq_some_iff] at hm2
          obtain ⟨_, _, rfl⟩ := hm2
          rfl
        rw [this] at hs''
        exact hs''
  · rw [if_neg hc] at hm
    cases hm
    have hti : tickInput ⟨system K, refs, S⟩ (n + 18) km1 = .ok km1 := by
      unfold tickInput
      rw [h1.inq]
      cases hq : m.queue with
      | nil => rfl
      | cons e q =>
        simp only
        rw [if_neg]
        rw [h1.delay]
        intro hd
        exact hc ⟨hd, by rw [hq]; simp⟩
    rw [hti]
    exact clock km1 m h1

theorem OSimQ.run (hlay : onceLayoutOf K refs = some layout) (hfit : ∀ e ∈ layout, e.Fits count) (hlen : layout.length ≤ 65535)
    (calls : List Board.Call) {t : Nat} {km : CKM} {m m' : Queued} (h : OSimQ K count t km m) (hp : ∀ e ∈ eventsIn calls, isPhysical e = true)
    (ht : t + ticksIn calls < u32Size) (hm : m.run layout calls = some m') :
    ∃ km', Verif.run ⟨system K, refs, S⟩ (n + 18) km (calls.map toOp) = .ok km' ∧ OSimQ K count (t + ticksIn calls) km' m' := by
  induction calls generalizing t km m with
  | nil => cases hm; exact ⟨km, rfl, h⟩
  | cons c cs ih =>
    cases c with
    | input e =>
      simp only [eventsIn, List.mem_cons, forall_eq_or_imp] at hp
      simp only [Queued.run, Option.bind_eq_some_iff] at hm
      obtain ⟨m1, h1, h2⟩ := hm
      obtain ⟨km1, k1, k2⟩ := h.input (S := S) (n := n) hlay hfit hlen hp.1 h1
      obtain ⟨km', i1, i2⟩ := ih k2 hp.2 ht h2
      refine ⟨km', ?_, i2⟩
      simp only [List.map_cons, toOp, Verif.run, step, k1, Res.ok_bind]
      exact i1
    | tick =>
      simp only [ticksIn] at ht ⊢
      simp only [Queued.run, Option.bind_eq_some_iff] at hm
      obtain ⟨m1, h1, h2⟩ := hm
      obtain ⟨km1, k1, k2⟩ := h.tick (S := S) (n := n) hlay hfit hlen (by omega) h1
      obtain ⟨km', i1, i2⟩ := ih k2 hp (by omega) h2
      refine ⟨km', ?_, by rw [show t + (ticksIn cs + 1) = (t + 1) + ticksIn cs by omega]; exact i2⟩
      simp only [List.map_cons, toOp, Verif.run, step, k1, Res.ok_bind]
      exact i1
    | report =>
      have hk : km.pressedKeys ⟨system K, refs, S⟩ = .ok m.board.outputs := h.rel.held.outputs
      have h' : OSimQ K count t { km with rep := (km.rep.report m.board.outputs).1 } m :=
        ⟨h.rel, h.pend, h.pending, h.inq, h.delay, h.scheduled, h.counter, h.idle, h.ms, h.phys⟩
      obtain ⟨km', i1, i2⟩ := ih h' hp ht hm
      refine ⟨km', ?_, i2⟩
      simp only [List.map_cons, toOp, Verif.run, step, reportOutput, hk, Res.ok_bind, Res.pure_eq]
      exact i1

theorem OSimQ.start {c : Config} (h : c.chorded.maxPressed = 0 ∨ 16 ≤ c.chorded.maxPressed) :
    OSimQ K c.layerCount 0 (KM.new (Comp.Ctx.fromConfig c)) (Queued.new c.layerCount) := by
  refine ⟨⟨.nil, by simp [Queued.new, State.new], by simp [Queued.new, State.new], rfl, rfl, rfl, ⟨?_, rfl, rfl⟩,
    by simp [Queued.new, State.new], by simp [Queued.new, State.new], by simp [Queued.new, State.new], ⟨?_, rfl, Chorded.IdxOk.new h⟩⟩,
    rfl, rfl, rfl, rfl, rfl, rfl, Nat.le_refl _, rfl, by simp [Queued.new]⟩
  · simp [Queued.new, State.new, KM.new, Comp.Ctx.fromConfig, Layered.Ctx.new, Layered.light]
  · intro b hb
    simp only [KM.new, Comp.Ctx.fromConfig, Chorded.Ctx.fromConfig] at hb
    exact (List.mem_replicate.1 hb).2

end Verif.Comp
