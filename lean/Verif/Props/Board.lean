import Verif.Lemmas.BoardStep
import Verif.Lemmas.Ticks
import Verif.StdSearch

/-!
# C16, C20: keymaps of plain keys and layer keys

The firmware, with all of its queues, contexts and key states, does what the board of `Spec/Board.lean`
does, for every layout and every history of key events, ticks and reports.
-/

namespace Verif.Comp

open Board

/-- The call of the firmware. -/
def toOp : Board.Call → Op
  | .input e => .input e
  | .tick => .tick
  | .report => .report

/-- A physical key event. -/
def isPhysical : InputEvent → Bool
  | .press _ | .release _ => true
  | _ => false

/-- The key events among the calls. -/
def eventsIn : List Board.Call → List InputEvent
  | [] => []
  | .input e :: cs => e :: eventsIn cs
  | _ :: cs => eventsIn cs

/-- The number of ticks among the calls. -/
def ticksIn : List Board.Call → Nat
  | [] => 0
  | .tick :: cs => ticksIn cs + 1
  | _ :: cs => ticksIn cs

/-- The firmware between two calls, `t` ms after the start, when a tick is `per` ms. -/
structure SimP (K : Keys) (count per t : Nat) (km : CKM) (m : Queued) : Prop where
  sim : Sim K count km m.board
  inq : km.inq = m.queue
  delay : km.delay = m.delay
  scheduled : km.sched.scheduled = []
  counter : km.sched.counter = t
  idle : km.idle ≤ t
  ms : km.msPerTick = per
  phys : ∀ e ∈ m.queue, isPhysical e = true

/-- When a tick is one ms. -/
abbrev SimQ (K : Keys) (count t : Nat) (km : CKM) (m : Queued) : Prop := SimP K count 1 t km m

section

variable {K : Keys} {refs : List Ref} {S : Search} {layout : List Entry} {count n per : Nat}

theorem SimP.take (hlay : layoutOf K refs = some layout) (hfit : ∀ e ∈ layout, e.Fits count) (hlen : layout.length ≤ 65535) {t : Nat}
    {km : CKM} {s : State} {d : Nat} {e : InputEvent} {q : List InputEvent} (h : SimP K count per t km ⟨s, q, d⟩) (he : isPhysical e = true) :
    (∀ m, Queued.take layout s (e :: q) = some m → ∃ km', processInputN ⟨system K, refs, S⟩ (n + 2) km e = .ok km' ∧
      SimP K count per t { km' with delay := 1 } m) ∧
    (Queued.take layout s (e :: q) = none → ∃ p, processInputN ⟨system K, refs, S⟩ (n + 2) km e = .panic p) := by
  have key : (s.takes layout e = true → Takes K count km (s.input layout e) (processInputN ⟨system K, refs, S⟩ (n + 2) km e)) ∧
      (s.takes layout e = false → ∃ p, processInputN ⟨system K, refs, S⟩ (n + 2) km e = .panic p) := by
    cases e with
    | press i => exact process_press hlay hfit hlen h.sim i
    | release j => exact ⟨fun _ => process_release h.sim j, fun ht => by simp [State.takes] at ht⟩
    | vpress ko => simp [isPhysical] at he
    | vrelease ko => simp [isPhysical] at he
  constructor
  · intro m hm
    simp only [Queued.take] at hm
    split at hm
    · rename_i ht
      cases hm
      obtain ⟨ctx, ps, f, h1, h2, _⟩ := key.1 ht
      refine ⟨_, h1, ⟨h2.pend, h2.pending, h2.held, h2.nodup, h2.len, h2.active, h2.pressedIdx, h2.caps, h2.layers, h2.dflt, h2.layerCount,
        h2.dfltOk, h2.fits, h2.idle⟩, h.inq, rfl, h.scheduled, h.counter, h.idle, h.ms, h.phys⟩
    · cases hm
  · intro hm
    simp only [Queued.take] at hm
    split at hm
    · cases hm
    · rename_i ht
      exact key.2 (by simpa using ht)

theorem SimP.input (hlay : layoutOf K refs = some layout) (hfit : ∀ e ∈ layout, e.Fits count) (hlen : layout.length ≤ 65535) {t : Nat}
    {km : CKM} {m : Queued} {e : InputEvent} (h : SimP K count per t km m) (he : isPhysical e = true) :
    (∀ m', m.input layout e = some m' → ∃ km', handleInput ⟨system K, refs, S⟩ (n + 2) km e = .ok km' ∧ SimP K count per t km' m') ∧
    (m.input layout e = none → ∃ p, handleInput ⟨system K, refs, S⟩ (n + 2) km e = .panic p) := by
  obtain ⟨s, q, d⟩ := m
  obtain ⟨hsim, hinq, hdel, hsch, hcnt, hidle, hms, hphys⟩ := h
  simp only at hsim hinq hdel hphys
  subst hinq hdel
  unfold Queued.input handleInput
  simp only [inputCap]
  by_cases hq : km.inq.length ≥ 31
  · simp only [hq, if_true]
    refine ⟨?_, by simp⟩
    intro m' hm'
    cases hm'
    exact ⟨_, rfl, ⟨hsim.pend, hsim.pending, hsim.held, hsim.nodup, hsim.len, hsim.active,
      hsim.pressedIdx, hsim.caps, hsim.layers, hsim.dflt, hsim.layerCount, hsim.dfltOk, hsim.fits, hsim.idle⟩, rfl, rfl, hsch, hcnt,
      Nat.zero_le _, hms, hphys⟩
  · simp only [hq, if_false]
    have hphys' : ∀ x ∈ km.inq ++ [e], isPhysical x = true := by
      intro x hx
      simp only [List.mem_append, List.mem_cons, List.not_mem_nil, or_false] at hx
      rcases hx with hx | rfl
      · exact hphys x hx
      · exact he
    by_cases hd : km.delay = 0
    · simp only [hd, if_true]
      obtain ⟨e', q', hcons⟩ : ∃ e' q', km.inq ++ [e] = e' :: q' := by cases km.inq <;> exact ⟨_, _, rfl⟩
      rw [hcons] at hphys' ⊢
      have hs2 : SimP K count per t { km with idle := 0, delay := 0, inq := q', log := km.log ++ [e'] } ⟨s, q', 0⟩ :=
        ⟨⟨hsim.pend, hsim.pending, hsim.held, hsim.nodup, hsim.len, hsim.active,
          hsim.pressedIdx, hsim.caps, hsim.layers, hsim.dflt, hsim.layerCount, hsim.dfltOk, hsim.fits, hsim.idle⟩,
          rfl, rfl, hsch, hcnt, Nat.zero_le _, hms, fun x hx => hphys' x (List.mem_cons_of_mem _ hx)⟩
      obtain ⟨t1, t2⟩ := hs2.take (S := S) (n := n) hlay hfit hlen (hphys' e' List.mem_cons_self)
      constructor
      · intro m' hm'
        obtain ⟨km', hk, hs'⟩ := t1 m' hm'
        refine ⟨{ km' with delay := inputDelay }, ?_, hs'⟩
        simp only
        rw [hk]
        rfl
      · intro hm'
        obtain ⟨p, hp⟩ := t2 hm'
        refine ⟨p, ?_⟩
        simp only
        rw [hp]
        rfl
    · simp only [hd, if_false]
      refine ⟨?_, by simp⟩
      intro m' hm'
      cases hm'
      exact ⟨_, rfl, ⟨hsim.pend, hsim.pending, hsim.held, hsim.nodup, hsim.len, hsim.active,
        hsim.pressedIdx, hsim.caps, hsim.layers, hsim.dflt, hsim.layerCount, hsim.dfltOk, hsim.fits, hsim.idle⟩, rfl, rfl, hsch, hcnt,
        Nat.zero_le _, hms, hphys'⟩

theorem SimP.tick (hlay : layoutOf K refs = some layout) (hfit : ∀ e ∈ layout, e.Fits count) (hlen : layout.length ≤ 65535) {t : Nat}
    {km : CKM} {m : Queued} (h : SimP K count per t km m) (ht : t + per < u32Size) :
    (∀ m', m.tick layout = some m' → ∃ km', Verif.tick ⟨system K, refs, S⟩ (n + 2) km = .ok km' ∧ SimP K count per (t + per) km' m') ∧
    (m.tick layout = none → ∃ p, Verif.tick ⟨system K, refs, S⟩ (n + 2) km = .panic p) := by
  obtain ⟨km1, hkm1⟩ : ∃ km1 : CKM, km1 = { km with ctx := km.ctx.setKeymapContext km.sched.counter km.idle } := ⟨_, rfl⟩
  have h1 : SimP K count per t km1 m := by
    subst hkm1
    exact ⟨⟨h.sim.pend, h.sim.pending, h.sim.held, h.sim.nodup, h.sim.len, h.sim.active,
      h.sim.pressedIdx, h.sim.caps, h.sim.layers, h.sim.dflt, h.sim.layerCount, h.sim.dfltOk, h.sim.fits, h.sim.idle.setIdle _⟩,
      h.inq, h.delay, h.scheduled, h.counter, h.idle, h.ms, h.phys⟩
  -- the clock, after the input of the tick
  have clock : ∀ (km2 : CKM) (m2 : Queued), SimP K count per t km2 m2 →
      ∃ km', (do
        let s ← km2.sched.tick km2.msPerTick
        let km ← drainN ⟨system K, refs, S⟩ (n + 2) { km2 with delay := km2.delay - 1, sched := s }
        if km.idle + km.msPerTick < u32Size then pure { km with idle := km.idle + km.msPerTick } else .panic .arith) = Res.ok km' ∧
      SimP K count per (t + per) km' { m2 with delay := m2.delay - 1 } := by
    intro km2 m2 h2
    have hc := h2.counter
    have hms := h2.ms
    have hidle := h2.idle
    have hst : km2.sched.tick km2.msPerTick = .ok { km2.sched with counter := km2.sched.counter + per } := by
      simp only [Sched.tick, h2.scheduled, hms]
      rw [if_pos (by omega)]
    have hdr : drainN ⟨system K, refs, S⟩ (n + 2) { km2 with delay := km2.delay - 1, sched := { km2.sched with counter := km2.sched.counter + per } } =
        .ok { km2 with delay := km2.delay - 1, sched := { km2.sched with counter := km2.sched.counter + per } } := drain_empty h2.sim.pending
    refine ⟨{ km2 with delay := km2.delay - 1, sched := { km2.sched with counter := km2.sched.counter + per }, idle := km2.idle + km2.msPerTick }, ?_, ?_⟩
    · simp only [hst, Res.ok_bind, hdr]
      rw [if_pos (by omega)]
      rfl
    · refine ⟨⟨h2.sim.pend, h2.sim.pending, h2.sim.held, h2.sim.nodup, h2.sim.len, h2.sim.active,
        h2.sim.pressedIdx, h2.sim.caps, h2.sim.layers, h2.sim.dflt, h2.sim.layerCount, h2.sim.dfltOk, h2.sim.fits, h2.sim.idle⟩,
        h2.inq, by show km2.delay - 1 = m2.delay - 1; rw [h2.delay], h2.scheduled, by show km2.sched.counter + per = t + per; omega,
        by show km2.idle + km2.msPerTick ≤ t + per; omega, h2.ms, h2.phys⟩
  have htick : Verif.tick ⟨system K, refs, S⟩ (n + 2) km = (tickInput ⟨system K, refs, S⟩ (n + 2) km1 >>= fun km2 => do
        let s ← km2.sched.tick km2.msPerTick
        let km ← drainN ⟨system K, refs, S⟩ (n + 2) { km2 with delay := km2.delay - 1, sched := s }
        if km.idle + km.msPerTick < u32Size then pure { km with idle := km.idle + km.msPerTick } else .panic .arith) := by
    subst hkm1; rfl
  rw [htick]
  unfold Queued.tick
  by_cases hc : m.delay = 0 ∧ m.queue ≠ []
  · rw [if_pos hc]
    cases hq : m.queue with
    | nil => exact absurd hq hc.2
    | cons e q =>
      have hphys : ∀ x ∈ e :: q, isPhysical x = true := by rw [← hq]; exact h.phys
      have hs2 : SimP K count per t { km1 with inq := q, log := km1.log ++ [e] } ⟨m.board, q, 0⟩ := by
        refine ⟨⟨h1.sim.pend, h1.sim.pending, h1.sim.held, h1.sim.nodup, h1.sim.len, h1.sim.active,
          h1.sim.pressedIdx, h1.sim.caps, h1.sim.layers, h1.sim.dflt, h1.sim.layerCount, h1.sim.dfltOk, h1.sim.fits, h1.sim.idle⟩,
          rfl, by rw [← hc.1]; exact h1.delay, h1.scheduled, h1.counter, h1.idle, h1.ms, fun x hx => hphys x (by simp [hx])⟩
      obtain ⟨t1, t2⟩ := hs2.take (S := S) (n := n) hlay hfit hlen (hphys e (by simp))
      have hti : tickInput ⟨system K, refs, S⟩ (n + 2) km1 =
          (processInputN ⟨system K, refs, S⟩ (n + 2) { km1 with inq := q, log := km1.log ++ [e] } e >>= fun km => .ok { km with delay := inputDelay }) := by
        unfold tickInput
        rw [h1.inq, hq]
        simp only
        rw [if_pos (by rw [h1.delay]; exact hc.1)]
        rfl
      rw [hti]
      constructor
      · intro m' hm'
        simp only [Option.map_eq_some_iff] at hm'
        obtain ⟨m2, hm2, rfl⟩ := hm'
        obtain ⟨km', hk, hs'⟩ := t1 m2 hm2
        obtain ⟨km'', hk2, hs''⟩ := clock _ _ hs'
        refine ⟨km'', ?_, ?_⟩
        · rw [hk]; simp only [Res.ok_bind]; exact hk2
        · have : m2.delay = 1 := by
            simp only [Queued.take] at hm2
            split at hm2
            · cases hm2; rfl
            · cases hm2
          rw [this] at hs''
          exact hs''
      · intro hm'
        simp only [Option.map_eq_none_iff] at hm'
        obtain ⟨p, hp⟩ := t2 hm'
        refine ⟨p, ?_⟩
        rw [hp]; rfl
  · rw [if_neg hc]
    refine ⟨?_, by simp⟩
    intro m' hm'
    cases hm'
    have hti : tickInput ⟨system K, refs, S⟩ (n + 2) km1 = .ok km1 := by
      unfold tickInput
      rw [h1.inq]
      cases hq : m.queue with
      | nil => rfl
      | cons e q =>
        simp only
        rw [if_neg]
        rw [h1.delay]
        intro hd
        exact hc ⟨hd, by rw [hq]; simp⟩
    rw [hti]
    exact clock km1 m h1

theorem SimQ.run (hlay : layoutOf K refs = some layout) (hfit : ∀ e ∈ layout, e.Fits count) (hlen : layout.length ≤ 65535)
    (calls : List Board.Call) {t : Nat} {km : CKM} {m : Queued} (h : SimQ K count t km m) (hp : ∀ e ∈ eventsIn calls, isPhysical e = true)
    (ht : t + ticksIn calls < u32Size) :
    (∀ m', m.run layout calls = some m' → ∃ km', Verif.run ⟨system K, refs, S⟩ (n + 2) km (calls.map toOp) = .ok km' ∧
      SimQ K count (t + ticksIn calls) km' m') ∧
    (m.run layout calls = none → ∃ p, Verif.run ⟨system K, refs, S⟩ (n + 2) km (calls.map toOp) = .panic p) := by
  induction calls generalizing t km m with
  | nil => exact ⟨fun m' hm' => by cases hm'; exact ⟨km, rfl, h⟩, by simp [Queued.run]⟩
  | cons c cs ih =>
    -- the rest of the calls, given the step
    have next : ∀ (op : Op) (t' : Nat) (x : Option Queued), t' + ticksIn cs < u32Size →
        ((∀ m', x = some m' → ∃ km', step ⟨system K, refs, S⟩ (n + 2) km op = .ok km' ∧ SimQ K count t' km' m') ∧
          (x = none → ∃ p, step ⟨system K, refs, S⟩ (n + 2) km op = .panic p)) → (∀ e ∈ eventsIn cs, isPhysical e = true) →
        (∀ m', (x.bind fun m => m.run layout cs) = some m' → ∃ km', Verif.run ⟨system K, refs, S⟩ (n + 2) km (op :: cs.map toOp) = .ok km' ∧
          SimQ K count (t' + ticksIn cs) km' m') ∧
        ((x.bind fun m => m.run layout cs) = none → ∃ p, Verif.run ⟨system K, refs, S⟩ (n + 2) km (op :: cs.map toOp) = .panic p) := by
      intro op t' x ht' hx hcs
      cases x with
      | none =>
        obtain ⟨p, hp⟩ := hx.2 rfl
        exact ⟨by simp, fun _ => ⟨p, by simp only [Verif.run, hp]; rfl⟩⟩
      | some m1 =>
        obtain ⟨km1, h1, h2⟩ := hx.1 m1 rfl
        obtain ⟨i1, i2⟩ := ih h2 hcs ht'
        simp only [Verif.run, h1, Res.ok_bind, Option.bind_some]
        exact ⟨i1, i2⟩
    cases c with
    | input e =>
      simp only [eventsIn, List.mem_cons, forall_eq_or_imp] at hp
      exact next (.input e) t (m.input layout e) ht (h.input hlay hfit hlen hp.1) hp.2
    | tick =>
      simp only [ticksIn] at ht ⊢
      rw [show t + (ticksIn cs + 1) = (t + 1) + ticksIn cs by omega]
      exact next .tick (t + 1) (m.tick layout) (by omega) (h.tick hlay hfit hlen (by omega)) hp
    | report =>
      refine next .report t (some m) ht ⟨?_, by simp⟩ hp
      intro m' hm'
      cases hm'
      have hk : km.pressedKeys ⟨system K, refs, S⟩ = .ok m.board.outputs := pressedOutputs_held h.sim.held
      refine ⟨{ km with rep := (km.rep.report m.board.outputs).1 }, ?_, ?_⟩
      · simp only [step, reportOutput, hk, Res.ok_bind]
        rfl
      · exact ⟨⟨h.sim.pend, h.sim.pending, h.sim.held, h.sim.nodup, h.sim.len, h.sim.active,
          h.sim.pressedIdx, h.sim.caps, h.sim.layers, h.sim.dflt, h.sim.layerCount, h.sim.dfltOk, h.sim.fits, h.sim.idle⟩,
          h.inq, h.delay, h.scheduled, h.counter, h.idle, h.ms, h.phys⟩

/-- The keymap data: a layout of plain keys and layer keys, whose layers exist, at most 65535 positions
(the index 65535 stands for "none" in the chord bookkeeping), and an array of pressed indices that is
absent or as large as the number of keys that can be held. -/
structure Plain (K : Keys) (refs : List Ref) (c : Config) (layout : List Entry) : Prop where
  layoutEq : layoutOf K refs = some layout
  fits : ∀ e ∈ layout, e.Fits c.layerCount
  size : layout.length ≤ 65535
  chords : c.chorded.maxPressed = 0 ∨ 16 ≤ c.chorded.maxPressed

theorem SimQ.start {c : Config} (h : c.chorded.maxPressed = 0 ∨ 16 ≤ c.chorded.maxPressed) :
    SimQ K c.layerCount 0 (KM.new (Ctx.fromConfig c)) (Queued.new c.layerCount) := by
  refine ⟨⟨rfl, rfl, rfl, by simp [Queued.new], by simp [Queued.new], rfl, rfl, rfl, ?_, rfl, by simp [Queued.new], by simp [Queued.new],
    by simp [Queued.new], ⟨?_, rfl, Chorded.IdxOk.new h⟩⟩, rfl, rfl, rfl, rfl, Nat.le_refl _, rfl, by simp [Queued.new]⟩
  · simp [Queued.new, KM.new, Ctx.fromConfig, Layered.Ctx.new, Layered.act]
  · intro b hb
    simp only [KM.new, Ctx.fromConfig, Chorded.Ctx.fromConfig] at hb
    exact (List.mem_replicate.1 hb).2

/-- C16: for every keymap of plain keys and layer keys and every history of key events, ticks and reports
(of less than 2^32 ticks), the firmware does what the board does: as long as the board takes the events,
no call panics, the pressed outputs are the outputs of the held keys in press order, and the same events
wait. -/
theorem C16_refines {c : Config} (hp : Plain K refs c layout) (calls : List Board.Call) (hev : ∀ e ∈ eventsIn calls, isPhysical e = true)
    (ht : ticksIn calls < u32Size) {m : Queued} (hm : (Queued.new c.layerCount).run layout calls = some m) :
    ∃ km, run ⟨system K, refs, S⟩ (n + 2) (KM.new (Ctx.fromConfig c)) (calls.map toOp) = .ok km ∧
      km.pressedKeys ⟨system K, refs, S⟩ = .ok m.board.outputs ∧ km.inq = m.queue := by
  have h := (SimQ.start (K := K) hp.chords).run (S := S) (n := n) hp.layoutEq hp.fits hp.size calls hev (by omega)
  obtain ⟨km, h1, h2⟩ := h.1 m hm
  exact ⟨km, h1, pressedOutputs_held h2.sim.held, h2.inq⟩

/-- C20: the converse: when the board cannot take an event (a 17th key is pressed, or a key outside the
keymap), the firmware panics. -/
theorem C20_overload {c : Config} (hp : Plain K refs c layout) (calls : List Board.Call) (hev : ∀ e ∈ eventsIn calls, isPhysical e = true)
    (ht : ticksIn calls < u32Size) (hm : (Queued.new c.layerCount).run layout calls = none) :
    ∃ p, run ⟨system K, refs, S⟩ (n + 2) (KM.new (Ctx.fromConfig c)) (calls.map toOp) = .panic p :=
  ((SimQ.start (K := K) hp.chords).run (S := S) (n := n) hp.layoutEq hp.fits hp.size calls hev (by omega)).2 hm

/-! ## Histories without waiting -/

/-- Key events that are each followed by at least one tick. -/
def paced : List (InputEvent × Nat) → List Board.Call
  | [] => []
  | (e, k) :: es => .input e :: .tick :: (List.replicate k .tick ++ paced es)

/-- The board takes all of these events, one after the other. -/
def TakesAll (layout : List Entry) (s : State) : List InputEvent → Prop
  | [] => True
  | e :: es => s.takes layout e = true ∧ TakesAll layout (s.input layout e) es

instance TakesAll.dec (layout : List Entry) (s : State) (es : List InputEvent) : Decidable (TakesAll layout s es) :=
  match es with
  | [] => isTrue trivial
  | e :: es =>
    have := TakesAll.dec layout (s.input layout e) es
    inferInstanceAs (Decidable (s.takes layout e = true ∧ TakesAll layout (s.input layout e) es))

theorem run_idle (layout : List Entry) (s : State) (k : Nat) (cs : List Board.Call) :
    Queued.run layout ⟨s, [], 0⟩ (List.replicate k .tick ++ cs) = Queued.run layout ⟨s, [], 0⟩ cs := by
  induction k with
  | zero => rfl
  | succ k ih => simpa [List.replicate_succ, Queued.run, Queued.tick] using ih

theorem run_paced (layout : List Entry) (s : State) (es : List (InputEvent × Nat)) (h : TakesAll layout s (es.map Prod.fst)) :
    Queued.run layout ⟨s, [], 0⟩ (paced es) = some ⟨(es.map Prod.fst).foldl (State.input layout) s, [], 0⟩ := by
  induction es generalizing s with
  | nil => rfl
  | cons x es ih =>
    obtain ⟨e, k⟩ := x
    obtain ⟨h1, h2⟩ := h
    have hi : Queued.input layout ⟨s, [], 0⟩ e = some ⟨s.input layout e, [], 1⟩ := by
      simp only at h1
      simp [Queued.input, Queued.take, h1]
    have ht : Queued.tick layout ⟨s.input layout e, [], 1⟩ = some ⟨s.input layout e, [], 0⟩ := rfl
    simp only [paced, Queued.run, hi, ht, Option.bind_some]
    rw [run_idle, ih _ h2]
    rfl

theorem eventsIn_paced (es : List (InputEvent × Nat)) : eventsIn (paced es) = es.map Prod.fst := by
  have hr : ∀ k cs, eventsIn (List.replicate k .tick ++ cs) = eventsIn cs := by
    intro k cs
    induction k with
    | zero => rfl
    | succ k ih => simpa [List.replicate_succ, eventsIn] using ih
  induction es with
  | nil => rfl
  | cons x es ih => simp [paced, eventsIn, hr, ih]

/-- C16, for a host that polls: if every key event is followed by at least one tick, nothing waits, and
the outputs are those of the keys held according to the history of events. -/
theorem C16_polled {c : Config} (hp : Plain K refs c layout) (es : List (InputEvent × Nat)) (hev : ∀ e ∈ es, isPhysical e.1 = true)
    (ht : ticksIn (paced es) < u32Size) (htk : TakesAll layout (Queued.new c.layerCount).board (es.map Prod.fst)) :
    ∃ km, run ⟨system K, refs, S⟩ (n + 2) (KM.new (Ctx.fromConfig c)) ((paced es).map toOp) = .ok km ∧
      km.pressedKeys ⟨system K, refs, S⟩ =
        .ok ((es.map Prod.fst).foldl (State.input layout) (Queued.new c.layerCount).board).outputs ∧ km.inq = [] := by
  refine C16_refines hp (paced es) ?_ ht (run_paced layout _ es htk)
  rw [eventsIn_paced]
  intro e he
  obtain ⟨x, hx, rfl⟩ := List.mem_map.1 he
  exact hev x hx

theorem take_taken {layout : List Entry} {s : State} {q : List InputEvent} {m : Queued} (h : Queued.take layout s q = some m) :
    ∃ e, q = e :: m.queue ∧ m.board = s.input layout e := by
  cases q with
  | nil => simp [Queued.take] at h
  | cons e q =>
    simp only [Queued.take] at h
    split at h
    · cases h; exact ⟨e, rfl, rfl⟩
    · cases h

theorem run_taken {layout : List Entry} {m m' : Queued} {calls : List Board.Call} (h : m.run layout calls = some m') :
    ∃ taken, m'.board = taken.foldl (State.input layout) m.board ∧ (taken ++ m'.queue).Sublist (m.queue ++ eventsIn calls) ∧
      (m.queue.length + (eventsIn calls).length ≤ 31 → taken ++ m'.queue = m.queue ++ eventsIn calls) := by
  induction calls generalizing m with
  | nil => cases h; exact ⟨[], rfl, by simp [eventsIn], by simp [eventsIn]⟩
  | cons c cs ih =>
    cases c with
    | input e =>
      simp only [Queued.run, Option.bind_eq_some_iff] at h
      obtain ⟨m1, h1, h2⟩ := h
      obtain ⟨tk, i1, i2, i3⟩ := ih h2
      simp only [Queued.input] at h1
      simp only [eventsIn, List.length_cons]
      split at h1
      · rename_i hfull
        cases h1
        refine ⟨tk, i1, i2.trans ((List.Sublist.refl _).append (List.sublist_cons_self _ _)), fun hl => ?_⟩
        omega
      · split at h1
        · obtain ⟨e', hq, hb⟩ := take_taken h1
          have hq' : m.queue ++ e :: eventsIn cs = e' :: (m1.queue ++ eventsIn cs) := by
            rw [show m.queue ++ e :: eventsIn cs = (m.queue ++ [e]) ++ eventsIn cs by simp, hq]; rfl
          refine ⟨e' :: tk, by rw [i1, hb]; rfl, ?_, fun hl => ?_⟩
          · rw [hq']; exact i2.cons_cons _
          · rw [hq', List.cons_append, i3]
            have := congrArg List.length hq
            simp only [List.length_append, List.length_cons, List.length_nil] at this
            omega
        · cases h1
          refine ⟨tk, i1, by simpa using i2, fun hl => ?_⟩
          have := i3 (by simp only [List.length_append, List.length_cons, List.length_nil]; omega)
          simpa using this
    | tick =>
      simp only [Queued.run, Option.bind_eq_some_iff] at h
      obtain ⟨m1, h1, h2⟩ := h
      obtain ⟨tk, i1, i2, i3⟩ := ih h2
      simp only [Queued.tick] at h1
      split at h1
      · simp only [Option.map_eq_some_iff] at h1
        obtain ⟨m2, h1, rfl⟩ := h1
        obtain ⟨e', hq, hb⟩ := take_taken h1
        simp only at i1 i2 i3
        rw [hq]
        refine ⟨e' :: tk, by rw [i1, hb]; rfl, by simpa [eventsIn] using i2, fun hl => ?_⟩
        simp only [eventsIn, List.length_cons] at hl
        rw [List.cons_append, i3 (by omega)]; rfl
      · cases h1
        exact ⟨tk, i1, i2, i3⟩
    | report =>
      obtain ⟨tk, i1, i2, i3⟩ := ih h
      exact ⟨tk, i1, i2, i3⟩

/-- C16, for any host: the outputs are those of the keys held according to the events taken so far. The
events taken, and then those that wait, are the events of the history in their order; none of them is lost
when there are at most 31. -/
theorem C16_history {c : Config} (hp : Plain K refs c layout) (calls : List Board.Call) (hev : ∀ e ∈ eventsIn calls, isPhysical e = true)
    (ht : ticksIn calls < u32Size) {km : CKM} (h : run ⟨system K, refs, S⟩ (n + 2) (KM.new (Ctx.fromConfig c)) (calls.map toOp) = .ok km) :
    ∃ taken : List InputEvent,
      km.pressedKeys ⟨system K, refs, S⟩ = .ok (taken.foldl (State.input layout) (Queued.new c.layerCount).board).outputs ∧
      (taken ++ km.inq).Sublist (eventsIn calls) ∧ ((eventsIn calls).length ≤ 31 → taken ++ km.inq = eventsIn calls) := by
  cases hm : (Queued.new c.layerCount).run layout calls with
  | none =>
    obtain ⟨p, hpn⟩ := C20_overload (S := S) (n := n) hp calls hev ht hm
    rw [h] at hpn; cases hpn
  | some m =>
    obtain ⟨km', h1, h2, h3⟩ := C16_refines (S := S) (n := n) hp calls hev ht hm
    rw [h] at h1; cases h1
    obtain ⟨tk, i1, i2, i3⟩ := run_taken hm
    refine ⟨tk, by rw [h2, i1], ?_, ?_⟩
    · rw [h3]; simpa [Queued.new] using i2
    · rw [h3]; simpa [Queued.new] using i3

/-- The keys held after some key events: pressed and not released since, in press order. -/
def stillDown : List Nat → List InputEvent → List Nat
  | ks, [] => ks
  | ks, .press i :: es => stillDown (if ks.contains i then ks else ks ++ [i]) es
  | ks, .release i :: es => stillDown (ks.filter (fun k => k != i)) es
  | ks, _ :: es => stillDown ks es

/-- At every moment at most 16 keys are held, and all of them are keys of the keymap. -/
def Modest (size : Nat) (ks : List Nat) (es : List InputEvent) : Prop :=
  ∀ pre, pre <+: es → (stillDown ks pre).length ≤ 16 ∧ ∀ k ∈ stillDown ks pre, k < size

theorem input_held (layout : List Entry) (s : State) (e : InputEvent) (h : s.takes layout e = true) :
    (s.input layout e).held.map Prod.fst = stillDown (s.held.map Prod.fst) [e] := by
  cases e with
  | press i =>
    have hc : (s.held.map Prod.fst).contains i = s.holds i := by
      rw [Bool.eq_iff_iff]
      simp [State.holds]
    simp only [State.input, stillDown, hc]
    cases hh : s.holds i with
    | true => rfl
    | false =>
      simp only [State.takes, hh, Bool.false_or, Bool.and_eq_true, decide_eq_true_eq] at h
      simp only [Bool.false_eq_true, if_false]
      rw [List.getElem?_eq_getElem h.1]
      simp [press_held_eq]
  | release j =>
    simp only [State.input, stillDown]
    cases hf : s.held.find? (fun p => p.1 == j) with
    | some p => simp only [release_held_eq, List.filter_map]; rfl
    | none =>
      simp only
      symm
      rw [List.filter_eq_self]
      intro i hi
      obtain ⟨p, hp, rfl⟩ := List.mem_map.1 hi
      have := List.find?_eq_none.1 hf p hp
      simpa using this
  | vpress ko => rfl
  | vrelease ko => rfl

theorem stillDown_append (ks : List Nat) (es fs : List InputEvent) : stillDown ks (es ++ fs) = stillDown (stillDown ks es) fs := by
  induction es generalizing ks with
  | nil => rfl
  | cons e es ih => cases e <;> simp only [List.cons_append, stillDown, ih]

theorem Modest.takesAll {es : List InputEvent} {s : State} (h : Modest layout.length (s.held.map Prod.fst) es) : TakesAll layout s es := by
  induction es generalizing s with
  | nil => trivial
  | cons e es ih =>
    have h1 := h [e] (by simp)
    have htk : s.takes layout e = true := by
      cases e with
      | press i =>
        have hc : (s.held.map Prod.fst).contains i = s.holds i := by
          rw [Bool.eq_iff_iff]
          simp [State.holds]
        simp only [stillDown, hc] at h1
        cases hh : s.holds i with
        | true => simp [State.takes, hh]
        | false =>
          rw [hh] at h1
          simp only [Bool.false_eq_true, if_false, List.length_append, List.length_map, List.length_cons, List.length_nil] at h1
          have := h1.2 i (by simp)
          simp only [State.takes, Bool.or_eq_true, Bool.and_eq_true, decide_eq_true_eq]
          exact .inr ⟨this, by omega⟩
      | _ => rfl
    refine ⟨htk, ih ?_⟩
    intro pre hpre
    rw [input_held layout s e htk, ← stillDown_append]
    exact h ([e] ++ pre) (by simpa using hpre)

/-- C20: a polling host that never has more than 16 keys of the keymap held at a time never makes the
firmware panic, however long it runs (less than 2^32 ticks). -/
theorem C20_sixteen {c : Config} (hp : Plain K refs c layout) (es : List (InputEvent × Nat)) (hev : ∀ e ∈ es, isPhysical e.1 = true)
    (ht : ticksIn (paced es) < u32Size) (hm : Modest layout.length [] (es.map Prod.fst)) :
    ∃ km, run ⟨system K, refs, S⟩ (n + 2) (KM.new (Ctx.fromConfig c)) ((paced es).map toOp) = .ok km := by
  obtain ⟨km, h1, _⟩ := C16_polled (S := S) (n := n) hp es hev ht (Modest.takesAll (s := (Queued.new c.layerCount).board) hm)
  exact ⟨km, h1⟩

theorem stillDown_presses (is : List Nat) (ks : List Nat) (h : (ks ++ is).Nodup) : stillDown ks (is.map .press) = ks ++ is := by
  induction is generalizing ks with
  | nil => simp [stillDown]
  | cons i is ih =>
    have hn : ks.contains i = false := by
      rw [Bool.eq_false_iff]
      intro hc
      simp only [List.contains_eq_mem, decide_eq_true_eq] at hc
      exact (List.nodup_append.1 h).2.2 i hc i (by simp) rfl
    simp only [List.map_cons, stillDown, hn, Bool.false_eq_true, if_false]
    rw [ih _ (by simpa using h)]
    simp

theorem paced_append (es fs : List (InputEvent × Nat)) : paced (es ++ fs) = paced es ++ paced fs := by
  induction es with
  | nil => rfl
  | cons x es ih => simp [paced, ih]

theorem run_append_calls (layout : List Entry) (m : Queued) (cs ds : List Board.Call) :
    m.run layout (cs ++ ds) = (m.run layout cs).bind fun m => m.run layout ds := by
  induction cs generalizing m with
  | nil => rfl
  | cons c cs ih =>
    cases c with
    | input e => simp only [List.cons_append, Queued.run]; cases m.input layout e <;> simp [ih]
    | tick => simp only [List.cons_append, Queued.run]; cases m.tick layout <;> simp [ih]
    | report => simp only [List.cons_append, Queued.run, ih]

theorem foldl_held (layout : List Entry) (s : State) (es : List InputEvent) (h : TakesAll layout s es) :
    (es.foldl (State.input layout) s).held.map Prod.fst = stillDown (s.held.map Prod.fst) es := by
  induction es generalizing s with
  | nil => rfl
  | cons e es ih =>
    simp only [List.foldl_cons]
    rw [ih _ h.2, input_held layout s e h.1, ← stillDown_append]
    rfl

/-- C20: pressing 17 keys, one after the other with ticks between, panics, whatever the keys are. -/
theorem C20_seventeen {c : Config} (hp : Plain K refs c layout) (is : List Nat) (hn : is.Nodup) (h17 : is.length = 17)
    (hl : ∀ i ∈ is, i < layout.length) :
    ∃ p, run ⟨system K, refs, S⟩ (n + 2) (KM.new (Ctx.fromConfig c)) ((paced (is.map fun i => (.press i, 0))).map toOp) = .panic p := by
  have hpaced : ∀ js : List Nat, eventsIn (paced (js.map fun i => (InputEvent.press i, 0))) = js.map .press := by
    intro js; rw [eventsIn_paced, List.map_map]; rfl
  apply C20_overload hp
  · rw [hpaced]
    intro e he
    obtain ⟨i, _, rfl⟩ := List.mem_map.1 he
    rfl
  · have : ∀ js : List Nat, ticksIn (paced (js.map fun i => (InputEvent.press i, 0))) = js.length := by
      intro js
      induction js with
      | nil => rfl
      | cons j js ih => simp [paced, ticksIn, ih]
    rw [this, h17]
    decide
  · obtain ⟨is', i, rfl⟩ : ∃ is' i, is = is' ++ [i] := by
      refine ⟨is.dropLast, is.getLast (by intro h; simp [h] at h17), ?_⟩
      rw [List.dropLast_concat_getLast]
    have h16 : is'.length = 16 := by simpa using h17
    rw [List.map_append, paced_append, run_append_calls]
    have hn' : is'.Nodup := (List.nodup_append.1 hn).1
    have hmod : Modest layout.length [] (is'.map .press) := by
      intro pre hpre
      obtain ⟨post, hpost⟩ := hpre
      have hlen : pre = (is'.take pre.length).map .press := by
        rw [List.map_take, ← hpost]; simp
      have hnd : ([] ++ is'.take pre.length).Nodup := by
        rw [List.nil_append]; exact hn'.sublist (List.take_sublist _ _)
      rw [hlen, stillDown_presses _ _ hnd]
      constructor
      · simp only [List.nil_append, List.length_take]; omega
      · intro k hk
        exact hl k (by simp [List.mem_of_mem_take (by simpa using hk)])
    have htk : TakesAll layout (Queued.new c.layerCount).board ((is'.map fun i => (InputEvent.press i, 0)).map Prod.fst) := by
      rw [List.map_map]
      exact Modest.takesAll (s := (Queued.new c.layerCount).board) hmod
    have hrun := run_paced layout (Queued.new c.layerCount).board (is'.map fun i => (InputEvent.press i, 0)) htk
    have hheld := foldl_held layout (Queued.new c.layerCount).board _ htk
    rw [show Queued.new c.layerCount = ⟨(Queued.new c.layerCount).board, [], 0⟩ from rfl, hrun]
    rw [show ((is'.map fun i => (InputEvent.press i, 0)).map Prod.fst) = is'.map .press by rw [List.map_map]; rfl] at hheld ⊢
    rw [show (Queued.new c.layerCount).board.held.map Prod.fst = [] from rfl, stillDown_presses _ _ (by simpa using hn'), List.nil_append] at hheld
    generalize (is'.map InputEvent.press).foldl (State.input layout) (Queued.new c.layerCount).board = s at hheld ⊢
    have hfull : s.held.length = 16 := by rw [← h16, ← hheld, List.length_map]
    have hnot : s.holds i = false := by
      rw [Bool.eq_false_iff]
      intro hh
      have : i ∈ s.held.map Prod.fst := by simpa [State.holds] using hh
      rw [hheld] at this
      exact (List.nodup_append.1 hn).2.2 i this i (by simp) rfl
    simp only [Option.bind_some, List.map_cons, List.map_nil, paced, Queued.run, Queued.input, List.length_nil, List.nil_append]
    simp [Queued.take, State.takes, hnot, hfull]

end

/-! ## Example -/

namespace Demo

/-- A keymap with a layered key, a layer key of each kind, and plain keys. -/
def K : Keys where
  keyboard := [⟨13, 0x02⟩]
  callback := [.reset]
  layerMods := [.hold 1, .toggle 2, .setActiveLayers 6, .default 1]
  layered := [⟨.keyboard (.keyCode 6), [some (.keyboard (.keyCode 7)), some (.layered (.modifier 1))]⟩]

def refs : List Ref :=
  [.keyboard (.keyCode 4), .layered (.modifier 0), .layered (.layered 0), .layered (.modifier 3), .keyboard (.keyCodeAndModifier 0),
   .consumer 15, .mouse .cursorLeft, .custom 16, .callback 0, .layered (.modifier 1), .layered (.modifier 2)]

def config : Config where
  automation := ⟨[], 0⟩
  chorded := ⟨200, [], none, 0, 0⟩
  sticky := .onModifiedKeyRelease
  tapDance := ⟨200⟩
  tapHold := ⟨200, .ignore, none⟩
  layerCount := 2
  maxChords := 0

def layout : List Entry :=
  [.cell (.out (KeyOutput.fromKeyCode 4)), .cell (.hold 1),
   .layered (.out (KeyOutput.fromKeyCode 6)) [some (.out (KeyOutput.fromKeyCode 7)), some (.toggle 2)],
   .cell (.default 1), .cell (.out (KeyOutput.fromKeyCodeWithModifiers 13 0x02)), .cell (.out (KeyOutput.fromConsumerCode 15)),
   .cell (.out (KeyOutput.fromMouseOutput { MouseOutput.none with x := -5 })), .cell (.out (KeyOutput.fromCustomCode 16)),
   .cell .nothing, .cell (.toggle 2), .cell (.setLayers 6)]

theorem plain : Plain K refs config layout where
  layoutEq := by decide +kernel
  fits := by
    intro e he
    simp only [layout, List.mem_cons, List.not_mem_nil, or_false] at he
    rcases he with rfl | rfl | rfl | rfl | rfl | rfl | rfl | rfl | rfl | rfl | rfl <;>
      simp [Entry.Fits, Cell.Fits, config]
  size := by decide
  chords := .inl rfl

/-- The layer key, then the layered key, then a plain key; the layer key is released first: the layered
key keeps the output of the layer. -/
example : ∃ km, run ⟨system K, refs, Search.std⟩ 2 (KM.new (Ctx.fromConfig config))
      ((paced [(.press 1, 0), (.press 2, 5), (.press 4, 0), (.release 1, 3)]).map toOp) = .ok km ∧
    km.pressedKeys ⟨system K, refs, Search.std⟩ = .ok [KeyOutput.fromKeyCode 7, KeyOutput.fromKeyCodeWithModifiers 13 0x02] := by
  obtain ⟨km, h1, h2, _⟩ := C16_polled (S := Search.std) (n := 0) plain [(.press 1, 0), (.press 2, 5), (.press 4, 0), (.release 1, 3)]
    (by decide) (by decide) (by decide +kernel)
  exact ⟨km, h1, h2.trans (by decide +kernel)⟩

/-- A burst of events without ticks is queued, and nothing is lost. -/
example : ((Queued.new 2).run layout [.input (.press 0), .input (.press 1), .input (.release 0), .tick, .tick]).map (fun m => (m.board.held, m.queue)) =
    some ([(0, .out (KeyOutput.fromKeyCode 4)), (1, .hold 1)], [.release 0]) := by decide +kernel

end Demo

end Verif.Comp
