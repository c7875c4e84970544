import Verif.Props.BleCalls
import Verif.Props.Keyboard

/-!
# The keymap of a ch58x keyboard, if it is one of plain keys and layer keys
-/

namespace Verif.Ble

open Verif.Keyboard (Taken start keymapTick_ok report_same HeldOk heldOk_foldl heldOk_start input_holds)
open Verif.Board (Queued Entry)

/-- The keymap and the board, after the events `evs`, with ticks of 8 ms. -/
structure Keeps (K : Comp.Keys) (layout : List Entry) (count : Nat) (b : Board.State) (km : Comp.CKM) (t : Nat) (m : Queued) (evs : List InputEvent) : Prop where
  sim : Comp.SimP K count 8 t km m
  taken : Taken layout b m evs
  room : m.queue.length ≤ 31
  delay : m.delay ≤ 1
  rep : 1 ≤ km.rep.num

variable {K : Comp.Keys} {refs : List Comp.Ref} {S : Search} {layout : List Entry} {n : Nat}

theorem simP_qinv {count t per : Nat} {km : Comp.CKM} {m : Queued} (h : Comp.SimP K count per t km m) : QInv (fun _ => True) km :=
  ⟨fun _ _ => trivial, fun _ _ => trivial, fun p hp => by rw [h.sim.pend] at hp; cases hp⟩

theorem simP_rep {count t per : Nat} {km : Comp.CKM} {m : Queued} (h : Comp.SimP K count per t km m) (r : Reporter) :
    Comp.SimP K count per t { km with rep := r } m :=
  ⟨⟨h.sim.pend, h.sim.pending, h.sim.held, h.sim.nodup, h.sim.len, h.sim.active,
    h.sim.pressedIdx, h.sim.caps, h.sim.layers, h.sim.dflt, h.sim.layerCount, h.sim.dfltOk, h.sim.fits, h.sim.idle⟩,
    h.inq, h.delay, h.scheduled, h.counter, h.idle, h.ms, h.phys⟩

section

variable {c : Comp.Config} {b : Board.State} {km km' : Comp.CKM} {t : Nat} {m : Queued} {evs : List InputEvent}

/-- A tick. -/
theorem Keeps.tick (hp : Comp.Plain K refs c layout) (h : Keeps K layout c.layerCount b km t m evs)
    (e : Verif.tick ⟨Comp.system K, refs, S⟩ (n + 2) km = .ok km') :
    ∃ m', Keeps K layout c.layerCount b km' (t + 8) m' evs ∧ m.tick layout = some m' ∧ km'.rep = km.rep := by
  have ht : t + 8 < u32Size := by
    obtain ⟨km1, s, km2, h1, h2, _⟩ := tick_eq_ok e
    have c1 := tickInput_clock (C := ⟨Comp.system K, refs, S⟩) (a := { km with ctx := (Comp.system K).setCtx km.ctx km.sched.counter km.idle })
      ⟨(simP_qinv h.sim).pending, (simP_qinv h.sim).scheduled, (simP_qinv h.sim).queued⟩ h1
    have := (Sched.tick_eq_ok h2).1
    rw [c1.2.1, c1.2.2.1] at this
    have e1 : km.sched.counter = t := h.sim.counter
    have e2 : km.msPerTick = 8 := h.sim.ms
    simp only at this
    omega
  have key := h.sim.tick (S := S) (n := n) hp.layoutEq hp.fits hp.size ht
  cases hm : m.tick layout with
  | none =>
    obtain ⟨p, hp'⟩ := key.2 hm
    rw [e] at hp'; cases hp'
  | some m' =>
    obtain ⟨km2, k1, k2⟩ := key.1 m' hm
    rw [e] at k1; cases k1
    have hrep := (tick_clock (simP_qinv h.sim) e).2.2.2.1
    obtain ⟨t1, t2, t3, t4, t5⟩ := h.taken.tick h.delay hm
    exact ⟨m', ⟨k2, t1, Nat.le_trans t3 h.room, by omega, by rw [hrep]; exact h.rep⟩, rfl, hrep⟩

theorem Keeps.ticks (hp : Comp.Plain K refs c layout) {k : Nat} : ∀ {km : Comp.CKM} {t : Nat} {m : Queued}, Keeps K layout c.layerCount b km t m evs →
    Verif.ticks ⟨Comp.system K, refs, S⟩ (n + 2) k km = .ok km' →
    ∃ t' m', Keeps K layout c.layerCount b km' t' m' evs ∧ m'.queue.length ≤ m.queue.length ∧ km'.rep = km.rep := by
  induction k with
  | zero => intro km t m h e; cases e; exact ⟨t, m, h, Nat.le_refl _, rfl⟩
  | succ k ih =>
    intro km t m h e
    obtain ⟨km1, e1, e2⟩ := Res.bind_eq_ok.1 e
    obtain ⟨m1, f1, f2, f3⟩ := h.tick hp e1
    obtain ⟨t', m', g1, g2, g3⟩ := ih f1 e2
    exact ⟨t', m', g1, Nat.le_trans g2 (h.taken.tick h.delay f2).2.2.1, g3.trans f3⟩

theorem Keeps.tickBy (hp : Comp.Plain K refs c layout) (h : Keeps K layout c.layerCount b km t m evs) {ms : Nat}
    (e : Verif.tickBy ⟨Comp.system K, refs, S⟩ (n + 2) km ms = .ok km') :
    ∃ t' m', Keeps K layout c.layerCount b km' t' m' evs ∧ m'.queue.length ≤ m.queue.length ∧ km'.rep = km.rep := by
  simp only [Verif.tickBy] at e
  split at e
  · obtain ⟨m1, f1, f2, f3⟩ := h.tick hp e
    exact ⟨_, m1, f1, (h.taken.tick h.delay f2).2.2.1, f3⟩
  · split at e
    · cases e
    · exact h.ticks hp e

/-- A key event. -/
theorem Keeps.input (hp : Comp.Plain K refs c layout) (h : Keeps K layout c.layerCount b km t m evs) {ev : InputEvent} (hev : Comp.isPhysical ev = true)
    (hl : m.queue.length + 1 ≤ 31) (e : handleInput ⟨Comp.system K, refs, S⟩ (n + 2) km ev = .ok km') :
    ∃ m', Keeps K layout c.layerCount b km' t m' (evs ++ [ev]) ∧ m'.queue.length ≤ m.queue.length + 1 ∧ km'.rep = km.rep := by
  have key := h.sim.input (S := S) (n := n) hp.layoutEq hp.fits hp.size hev
  cases hm : m.input layout ev with
  | none =>
    obtain ⟨p, hp'⟩ := key.2 hm
    rw [e] at hp'; cases hp'
  | some m1 =>
    obtain ⟨km2, k1, k2⟩ := key.1 m1 hm
    rw [e] at k1; cases k1
    obtain ⟨t1, t2, t3⟩ := h.taken.input (by omega) h.delay hm
    have hrep := (handleInput_clock (simP_qinv h.sim) e).2.2.2.1
    exact ⟨m1, ⟨k2, t1, by omega, t3, by rw [hrep]; exact h.rep⟩, t2, hrep⟩

/-- A report. -/
theorem Keeps.report (h : Keeps K layout c.layerCount b km t m evs) {out : KeymapOutput} (e : reportOutput ⟨Comp.system K, refs, S⟩ km = .ok (km', out)) :
    Keeps K layout c.layerCount b km' t m evs ∧ km'.rep = (km.rep.report m.board.outputs).1 ∧ out = (km.rep.report m.board.outputs).2 := by
  unfold reportOutput at e
  obtain ⟨os, h4, h2⟩ := Res.bind_eq_ok.1 e
  have hos : km.pressedKeys ⟨Comp.system K, refs, S⟩ = .ok m.board.outputs := Comp.pressedOutputs_held h.sim.sim.held
  rw [h4] at hos; cases hos
  cases h2
  exact ⟨⟨simP_rep h.sim _, h.taken, h.room, h.delay, (report_same km.rep h.rep _).2.1⟩, rfl, rfl⟩

/-- Nothing is scheduled. -/
theorem Keeps.next (h : Keeps K layout c.layerCount b km t m evs) : km.sched.nextEventTime = .ok none := by
  simp only [Sched.nextEventTime, h.sim.sim.pending, h.sim.scheduled]

end

/-! ## Which keys are held -/

theorem holds_pressedAfter {evs : List CApi.CEvent} : ∀ {keys keys' : List Bool} {b : Board.State}, keys.length ≤ layout.length →
    (∀ e ∈ evs, e.type = .press ∨ e.type = .release) → (∀ i, b.holds i = true ↔ keys[i]? = some true) → pressedAfter keys evs = some keys' →
    ∀ i, ((evs.map CApi.CEvent.toInput).foldl (Board.State.input layout) b).holds i = true ↔ keys'[i]? = some true := by
  induction evs with
  | nil => intro keys keys' b _ _ h e; cases e; exact h
  | cons ev evs ih =>
    intro keys keys' b hl hk h e
    simp only [pressedAfter] at e
    split at e
    · next hc =>
      have hi : ev.value < keys.length := by
        by_cases hlt : ev.value < keys.length
        · exact hlt
        · rw [List.getElem?_eq_none (by omega)] at hc; cases hc
      refine ih (b := b.input layout ev.toInput) (by simpa using hl) (fun e he => hk e (by simp [he])) ?_ e
      intro i
      have hin : ev.toInput = Firmware.stateChanged ev.value (decide (ev.type = .press)) := by
        rcases hk ev (by simp) with ht | ht <;> simp [CApi.CEvent.toInput, ht, Firmware.stateChanged]
      rw [hin, input_holds b (by omega)]
      by_cases he : i = ev.value
      · subst he
        simp [hi]
      · rw [if_neg he, List.getElem?_set_ne (Ne.symm he)]
        exact h i
    · cases e

/-! ## Scans -/

abbrev CState := State Comp.Ref Comp.Ev Comp.Ctx Comp.PKS Comp.KS

theorem changes_kinds {i : Nat} {es : List (Option Bool)} : ∀ e ∈ changes i es, e.type = .press ∨ e.type = .release := by
  induction es generalizing i with
  | nil => intro e he; cases he
  | cons x es ih =>
    cases x with
    | none => exact ih
    | some b =>
      intro e he
      simp only [changes, List.mem_cons] at he
      rcases he with rfl | he
      · cases b <;> simp [cEvent]
      · exact ih e he

theorem cEvent_physical (i : Nat) (b : Bool) : Comp.isPhysical (cEvent i b).toInput = true := by cases b <;> rfl

section

variable {c : Comp.Config} {b : Board.State}

theorem Keeps.register (hp : Comp.Plain K refs c layout) {es : List (Option Bool)} : ∀ {i : Nat} {km km' : Comp.CKM} {t : Nat} {m : Queued} {evs : List CApi.CEvent},
    Keeps K layout c.layerCount b km t m (evs.map CApi.CEvent.toInput) → m.queue.length + (changes i es).length ≤ 31 →
    register ⟨Comp.system K, refs, S⟩ (n + 2) i km es = .ok km' →
    ∃ m', Keeps K layout c.layerCount b km' t m' ((evs ++ changes i es).map CApi.CEvent.toInput) ∧ km'.rep = km.rep ∧ (changes i es = [] → m' = m) := by
  induction es with
  | nil => intro i km km' t m evs h _ e; cases e; exact ⟨m, by simpa [changes] using h, rfl, fun _ => rfl⟩
  | cons x es ih =>
    intro i km km' t m evs h hl e
    cases x with
    | none => exact ih h hl e
    | some v =>
      obtain ⟨km1, e1, e2⟩ := Res.bind_eq_ok.1 e
      simp only [changes, List.length_cons] at hl
      obtain ⟨m1, f1, f2, f3⟩ := h.input hp (cEvent_physical i v) (by omega) e1
      obtain ⟨m2, g1, g2, _⟩ := ih (evs := evs ++ [cEvent i v]) (by simpa using f1) (by omega) e2
      exact ⟨m2, by simpa [changes] using g1, g2.trans f3, by simp [changes]⟩

theorem Keeps.registerAfter (hp : Comp.Plain K refs c layout) {es : List (Option Bool)} : ∀ {i next next' : Nat} {s s' : CState} {t : Nat} {m : Queued} {evs : List CApi.CEvent},
    Keeps K layout c.layerCount b s.km t m (evs.map CApi.CEvent.toInput) → Device.Sizes s.report → m.queue.length + (changes i es).length ≤ 31 →
    registerAfter ⟨Comp.system K, refs, S⟩ (n + 2) i s next es = .ok (s', next') →
    ∃ t' m', Keeps K layout c.layerCount b s'.km t' m' ((evs ++ changes i es).map CApi.CEvent.toInput) ∧ Device.Sizes s'.report ∧
      (changes i es = [] → m' = m ∧ s' = s) := by
  induction es with
  | nil => intro i next next' s s' t m evs h hs _ e; cases e; exact ⟨t, m, by simpa [changes] using h, hs, fun _ => ⟨rfl, rfl⟩⟩
  | cons x es ih =>
    intro i next next' s s' t m evs h hs hl e
    cases x with
    | none => exact ih h hs hl e
    | some v =>
      simp only [Ble.registerAfter] at e
      obtain ⟨⟨km1, r, nx⟩, e1, e2⟩ := Res.bind_eq_ok.1 e
      simp only [changes, List.length_cons] at hl
      simp only [CApi.registerInputAfterMs] at e1
      obtain ⟨⟨km2, nx2⟩, a1, e1⟩ := Res.bind_eq_ok.1 e1
      obtain ⟨⟨km3, out⟩, a2, e1⟩ := Res.bind_eq_ok.1 e1
      obtain ⟨r1, a3, e1⟩ := Res.bind_eq_ok.1 e1
      obtain ⟨tt, a4, e1⟩ := Res.bind_eq_ok.1 e1
      cases e1
      simp only [handleInputAfterTime] at a1
      obtain ⟨km4, b1, a1⟩ := Res.bind_eq_ok.1 a1
      obtain ⟨km5, b2, a1⟩ := Res.bind_eq_ok.1 a1
      obtain ⟨nx3, b3, a1⟩ := Res.bind_eq_ok.1 a1
      have hkm : km5 = km2 := by
        split at a1
        · cases a1
        · cases a1; rfl
      subst hkm
      obtain ⟨t1, m1, f1, f2, f3⟩ := h.tickBy hp b1
      obtain ⟨m2, g1, g2, g3⟩ := f1.input hp (cEvent_physical i v) (by omega) b2
      obtain ⟨k1, k2, k3⟩ := g1.report a2
      obtain ⟨t', m', j1, j2, _⟩ := ih (i := i + 1) (s := { s.make km3 r with updated := s.clock }) (evs := evs ++ [cEvent i v]) (t := t1) (m := m2)
        (show Keeps K layout c.layerCount b km3 t1 m2 _ by simpa using k1) (Keyboard.update_size hs a3) (by omega) e2
      exact ⟨t', m', by simpa [changes] using j1, j2, by simp [changes]⟩

end

/-! ## What is known of the state -/

/-- How far the keymap has got, `j` ticks after the last key event. -/
structure Progress (j : Nat) (s : CState) (m : Queued) : Prop where
  delay : 1 ≤ j → m.delay = 0
  queue : 1 ≤ j → m.queue.length ≤ 32 - j
  rep : 33 ≤ j → s.km.rep.outputs = m.board.outputs ∧ min m.board.outputs.length (j - 32) ≤ s.km.rep.num ∧
    ∃ old, Device.Sizes old ∧ old.update s.km.rep.reportable = .ok s.report

theorem Progress.mono {i j : Nat} {s : CState} {m : Queued} (h : Progress j s m) (hij : i ≤ j) : Progress i s m := by
  refine ⟨fun hi => h.delay (by omega), fun hi => Nat.le_trans (h.queue (by omega)) (by omega), fun hi => ?_⟩
  obtain ⟨h1, h2, h3⟩ := h.rep (by omega)
  exact ⟨h1, by omega, h3⟩

theorem Progress.congr {j : Nat} {s s' : CState} {m : Queued} (h : Progress j s m) (hk : s'.km = s.km) (hr : s'.report = s.report) : Progress j s' m := by
  refine ⟨h.delay, h.queue, fun hi => ?_⟩
  rw [hk, hr]
  exact h.rep hi

/-- A report does not undo it. -/
theorem Progress.report {j : Nat} {s s' : CState} {m : Queued} (h : Progress j s m) (hn : 1 ≤ s.km.rep.num) (hs : Device.Sizes s.report)
    (hk : s'.km.rep = (s.km.rep.report m.board.outputs).1) (hr : s.report.update (s.km.rep.report m.board.outputs).2 = .ok s'.report) : Progress j s' m := by
  obtain ⟨p1, p2, p3, p4⟩ := report_same s.km.rep hn m.board.outputs
  refine ⟨h.delay, h.queue, fun hi => ?_⟩
  obtain ⟨q1, q2, _⟩ := h.rep hi
  rw [hk]
  exact ⟨p1, by have := p4 q1; omega, _, hs, by rw [← p3]; exact hr⟩

/-- A tick with the report after it gets further. -/
theorem Progress.tick {j : Nat} {s s' : CState} {m m' : Queued} (h : Progress j s m) (hn : 1 ≤ s.km.rep.num) (hs : Device.Sizes s.report) (hroom : m.queue.length ≤ 31)
    (hd : m.delay ≤ 1) (hm : m.tick layout = some m')
    (hk : s'.km.rep = (s.km.rep.report m'.board.outputs).1) (hr : s.report.update (s.km.rep.report m'.board.outputs).2 = .ok s'.report) : Progress (j + 1) s' m' := by
  obtain ⟨p1, p2, p3, p4⟩ := report_same s.km.rep hn m'.board.outputs
  obtain ⟨_, t2, t3, t4, t5⟩ := Taken.tick (b := m.board) (evs := m.queue) ⟨[], rfl, rfl⟩ hd hm
  refine ⟨fun _ => t2, fun _ => ?_, fun hi => ?_⟩
  · by_cases hj : j = 0
    · omega
    · have h1 := h.queue (by omega)
      have h2 := t4 (h.delay (by omega))
      omega
  · rw [hk]
    refine ⟨p1, ?_, _, hs, by rw [← p3]; exact hr⟩
    by_cases hj : 33 ≤ j
    · obtain ⟨q1, q2, _⟩ := h.rep hj
      have hq : m.queue = [] := List.length_eq_zero_iff.1 (by have := h.queue (by omega); omega)
      obtain ⟨_, hb⟩ := t5 hq
      have := p4 (by rw [q1, hb])
      rw [← hb] at q2
      omega
    · omega

/-- The switches that are read, and their number. -/
structure Sized (count : Nat) (s : CState) : Prop where
  closed : s.closed.length = count
  debounced : s.matrix.debounced.length = count
  pressed : s.matrix.pressed = BitVec.ofNat 8 (Firmware.countPressed s.matrix.debounced)

theorem Track.sized {count : Nat} {s : CState} (h : Track count s) : Sized count s := ⟨h.closed, h.debounced, h.pressed⟩

theorem sized_step {C : Cfg Comp.Ref Comp.Ev Comp.Ctx Comp.PKS Comp.KS} {n : Nat} {row : Nat → Nat} {rows count : Nat} {s s' : CState} {i : Input} (h : Sized count s)
    (hi : ∀ closed, i = .move closed → closed.length = count) (e : s.step C n row rows i = .ok s') : Sized count s' := by
  by_cases hm : ∃ cl, i = .move cl
  · obtain ⟨cl, rfl⟩ := hm
    simp only [State.step] at e
    split at e <;> cases e <;> exact ⟨hi cl rfl, h.debounced, h.pressed⟩
  · obtain ⟨e1, e2⟩ := step_matrix (fun c hc => hm ⟨c, hc⟩) e
    rcases e2 with e2 | e2
    · exact ⟨by rw [e1]; exact h.closed, by rw [e2]; exact h.debounced, by rw [e2]; exact h.pressed⟩
    · rw [scan_matrix s.matrix s.closed (h.closed.trans h.debounced.symm) h.pressed] at e2
      exact ⟨by rw [e1]; exact h.closed, by rw [e2]; exact h.closed, by rw [e2]⟩

/-- The keymap has been told `evs`. -/
structure Core (K : Comp.Keys) (layout : List Entry) (c : Comp.Config) (count : Nat) (s : CState) (t : Nat) (m : Queued) (evs : List CApi.CEvent) : Prop where
  keeps : Keeps K layout c.layerCount (start c) s.km t m (evs.map CApi.CEvent.toInput)
  kinds : ∀ e ∈ evs, e.type = .press ∨ e.type = .release
  told : pressedAfter (List.replicate count false) evs = some s.matrix.debounced
  sizes : Device.Sizes s.report
  asleep : s.irq = true ∨ s.pc = .arming → Progress 49 s m

/-- The next thing to do is a tick. -/
def TickNow (s : CState) : Prop :=
  s.pc ≠ .arming ∧ .wake ∉ s.events ∧ .scan ∉ s.events ∧ .timeout ∉ s.events ∧ .keyboard ∉ s.events ∧ .mouse ∉ s.events ∧ .consumer ∉ s.events ∧ .tick ∈ s.events

section

variable {c : Comp.Config} {count : Nat} {s s' : CState} {t : Nat} {m : Queued} {evs : List CApi.CEvent}

theorem Core.frame (h : Core K layout c count s t m evs) (h1 : s'.km = s.km) (h2 : s'.matrix = s.matrix) (h3 : s'.report = s.report)
    (h4 : s'.irq = true ∨ s'.pc = .arming → s.irq = true ∨ s.pc = .arming) : Core K layout c count s' t m evs :=
  ⟨by rw [h1]; exact h.keeps, h.kinds, by rw [h2]; exact h.told, by rw [h3]; exact h.sizes, fun ha => (h.asleep (h4 ha)).congr h1 h3⟩

/-- The keys that are held, when every event has been taken. -/
theorem Core.holds (h : Core K layout c count s t m evs) (hc : count ≤ layout.length) (hq : m.queue = []) (i : Nat) :
    m.board = (evs.map CApi.CEvent.toInput).foldl (Board.State.input layout) (start c) ∧ (m.board.holds i = true ↔ s.matrix.debounced[i]? = some true) := by
  obtain ⟨tk, h1, h2⟩ := h.keeps.taken
  rw [hq, List.append_nil] at h2
  subst h2
  refine ⟨h1, ?_⟩
  rw [h1]
  refine holds_pressedAfter (keys := List.replicate count false) (by simpa using hc) h.kinds ?_ h.told i
  intro j
  rw [List.getElem?_replicate]
  constructor
  · intro hh; cases hh
  · intro hh
    split at hh <;> cases hh

/-- What a call of the program makes of it: `k` is 1 if it ticks. -/
def Goes (K : Comp.Keys) (layout : List Entry) (c : Comp.Config) (count k : Nat) (s s' : CState) (m : Queued) (evs : List CApi.CEvent) : Prop :=
  ∃ t' m' evs', Core K layout c count s' t' m' evs' ∧ (evs' = evs ∨ evs' = evs ++ changes 0 (s.matrix.scan s.closed).2) ∧
    (s.matrix.debounced = s.closed → evs' = evs ∧ ∀ j, Progress j s m → Progress (j + k) s' m')

/-- The events that a scan reports. -/
theorem scan_told (h : Core K layout c count s t m evs) (ht : Sized count s) :
    pressedAfter (List.replicate count false) (evs ++ changes 0 (s.matrix.scan s.closed).2) = some (s.matrix.scan s.closed).1.debounced ∧
    (s.matrix.debounced = s.closed → changes 0 (s.matrix.scan s.closed).2 = []) := by
  have hl := ht.closed.trans ht.debounced.symm
  rw [Firmware.C54_changes _ _ hl]
  constructor
  · rw [pressedAfter_append h.told]
    have e1 := pressedAfter_changes (pre := []) hl
    have e2 := (Firmware.scanLoop58_spec s.matrix.debounced s.closed s.matrix.pressed hl).1
    simp only [List.nil_append, List.length_nil] at e1
    rw [e1]
    exact congrArg Option.some e2.symm
  · intro he
    rw [he]
    suffices H : ∀ (l : List Bool) (i : Nat), changes i (List.zipWith (fun d r => if r = d then none else some r) l l) = [] from H _ _
    intro l
    induction l with
    | nil => intro i; rfl
    | cons x l ih => intro i; simpa [changes] using ih (i + 1)

theorem kinds_append (h : Core K layout c count s t m evs) {es : List (Option Bool)} {i : Nat} : ∀ e ∈ evs ++ changes i es, e.type = .press ∨ e.type = .release := by
  intro e he
  rcases List.mem_append.1 he with he | he
  · exact h.kinds e he
  · exact changes_kinds e he

/-- How many switches have moved since they were last read. -/
def moved (s : CState) : Nat := (changes 0 (s.matrix.scan s.closed).2).length

theorem onTick_core (hp : Comp.Plain K refs c layout) (hc : count ≤ layout.length) (hcount : count ≤ 255)
    (h : Core K layout c count s t m evs) (ht : Sized count s) (hat : At .tick s) (he : .tick ∈ s.events) (hroom : s.km.inq.length + moved s ≤ 31)
    (e : s.onTick ⟨Comp.system K, refs, S⟩ (n + 2) = .ok s') : Goes K layout c count 1 s s' m evs := by
  obtain ⟨f1, f2, f3, f4⟩ := onTick_frame e
  have hat' := at_onTick hat he e
  obtain ⟨g1, g2⟩ := scan_told h ht
  simp only [State.onTick] at e
  obtain ⟨km1, e1, e⟩ := Res.bind_eq_ok.1 e
  obtain ⟨⟨km', r⟩, e2, e⟩ := Res.bind_eq_ok.1 e
  simp only at e
  have hs' : s'.km = km' ∧ s'.report = r ∧ (s'.pc = .arming → km'.requiresPolling = false ∧ ¬ s'.matrix.pressed.toNat > 0) := by
    split at e
    · rw [← Res.ok.inj e]
      generalize hx : (State.start _ Task.tick 12) = x
      obtain ⟨ts, hc, _⟩ := compare_frame x
      rw [hc]
      subst hx
      exact ⟨rfl, rfl, fun ha => by have : s.pc = .arming := ha; rw [hat.2.2.1] at this; cases this⟩
    · next hn =>
      simp only [Bool.or_eq_true, not_or, decide_eq_true_eq, Bool.not_eq_true] at hn
      rw [← Res.ok.inj e]
      exact ⟨rfl, rfl, fun _ => hn⟩
  obtain ⟨z1, z2, z3⟩ := hs'
  rw [h.keeps.sim.inq] at hroom
  obtain ⟨m1, r1, r2, r3⟩ := h.keeps.register hp hroom e1
  simp only [CApi.keymapTick] at e2
  obtain ⟨km2, a1, e2⟩ := Res.bind_eq_ok.1 e2
  obtain ⟨⟨km3, out⟩, a2, e2⟩ := Res.bind_eq_ok.1 e2
  obtain ⟨r', a3, e2⟩ := Res.bind_eq_ok.1 e2
  cases e2
  obtain ⟨m2, b1, b2, b3⟩ := r1.tick hp a1
  obtain ⟨d1, d2, d3⟩ := b1.report a2
  rw [b3, r2] at d2 d3
  rw [d3] at a3
  have hsize := Keyboard.update_size h.sizes a3
  have hd : s'.matrix.debounced = s.closed := by
    rw [f1, scan_matrix s.matrix s.closed (ht.closed.trans ht.debounced.symm) ht.pressed]
  have core : (s'.irq = true ∨ s'.pc = .arming → Progress 49 s' m2) → Core K layout c count s' (t + 8) m2 (evs ++ changes 0 (s.matrix.scan s.closed).2) := fun ha =>
    ⟨by rw [z1]; exact d1, kinds_append h, by rw [f1]; exact g1, by rw [z2]; exact hsize, ha⟩
  have hirq : s'.irq = false := by rcases hat' with ha | ha <;> exact ha.1
  refine ⟨t + 8, m2, _, core fun ha => ?_, .inr rfl, fun hq => ?_⟩
  · have harm : s'.pc = .arming := by
      rcases ha with ha | ha
      · rw [hirq] at ha; cases ha
      · exact ha
    obtain ⟨q1, q2⟩ := z3 harm
    have hsc := scan_matrix s.matrix s.closed (ht.closed.trans ht.debounced.symm) ht.pressed
    rw [f1, hsc] at q2
    have hz := none_pressed ht.closed hcount q2
    simp only [KM.requiresPolling, Bool.or_eq_false_iff, Bool.not_eq_false'] at q1
    have hq : m2.queue = [] := by
      rw [← d1.sim.inq]; exact List.isEmpty_iff.1 q1.2
    -- nothing is held
    have hb : m2.board.outputs = [] := by
      rw [Board.State.outputs, Keyboard.held_nil]; rfl
      intro i
      -- `Core` without its last field is enough
      obtain ⟨tk, h1, h2⟩ := d1.taken
      rw [hq, List.append_nil] at h2
      subst h2
      have := holds_pressedAfter (keys := List.replicate count false) (b := start c) (by simpa using hc) (kinds_append h (es := (s.matrix.scan s.closed).2) (i := 0)) (by
        intro j
        rw [List.getElem?_replicate]
        constructor
        · intro hh; cases hh
        · intro hh; split at hh <;> cases hh) g1 i
      rw [← h1, ← f1, hd, hz, List.getElem?_replicate] at this
      cases hh : m2.board.holds i with
      | false => rfl
      | true => have := this.1 hh; split at this <;> cases this
    obtain ⟨p1, p2, p3, p4⟩ := report_same s.km.rep h.keeps.rep m2.board.outputs
    obtain ⟨_, u2, _⟩ := Taken.tick (b := m1.board) (evs := m1.queue) ⟨[], rfl, rfl⟩ r1.delay b2
    refine ⟨fun _ => u2, fun _ => by rw [hq]; simp, fun _ => ?_⟩
    rw [z1, z2, d2]
    exact ⟨p1, by rw [hb]; simp, _, h.sizes, by rw [← p3]; exact a3⟩
  · have hch := g2 hq
    refine ⟨by rw [hch, List.append_nil], fun j hj => ?_⟩
    have hm : m1 = m := r3 hch
    subst hm
    exact hj.tick h.keeps.rep h.sizes r1.room r1.delay b2 (by rw [z1]; exact d2) (by rw [z2]; exact a3)

theorem onTimeout_core (h : Core K layout c count s t m evs) (e : s.onTimeout ⟨Comp.system K, refs, S⟩ (n + 2) = .ok s') :
    Goes K layout c count 0 s s' m evs := by
  obtain ⟨f1, f2, f3, f4⟩ := onTimeout_frame e
  have hsame := same_onTimeout e
  simp only [State.onTimeout] at e
  obtain ⟨⟨km', r, next⟩, e1, e⟩ := Res.bind_eq_ok.1 e
  have hs' : s'.km = km' ∧ s'.report = r := by
    rw [← Res.ok.inj e]
    simp only
    have key : ∀ x : CState, x.km = km' → x.report = r → (x.compare.done .timeout).km = km' ∧ (x.compare.done .timeout).report = r := by
      intro x h1 h3
      obtain ⟨ts, hc, _⟩ := compare_frame x
      rw [hc]
      exact ⟨h1, h3⟩
    apply key <;> split <;> rfl
  obtain ⟨z1, z2⟩ := hs'
  simp only [CApi.nextEventTimeout] at e1
  obtain ⟨⟨km2, nx⟩, a1, e1⟩ := Res.bind_eq_ok.1 e1
  obtain ⟨⟨km3, out⟩, a2, e1⟩ := Res.bind_eq_ok.1 e1
  obtain ⟨r', a3, e1⟩ := Res.bind_eq_ok.1 e1
  obtain ⟨tt, a4, e1⟩ := Res.bind_eq_ok.1 e1
  cases e1
  have hk : km2 = s.km := by
    simp only [tickToNext, h.keeps.next, Res.ok_bind] at a1
    cases a1; rfl
  subst hk
  obtain ⟨d1, d2, d3⟩ := h.keeps.report a2
  rw [d3] at a3
  have pr : ∀ j, Progress j s m → Progress j s' m := fun j hj => hj.report h.keeps.rep h.sizes (by rw [z1]; exact d2) (by rw [z2]; exact a3)
  refine ⟨t, m, evs, ⟨by rw [z1]; exact d1, h.kinds, by rw [f1]; exact h.told, by rw [z2]; exact Keyboard.update_size h.sizes a3, fun ha => pr 49 (h.asleep ?_)⟩,
    .inl rfl, fun _ => ⟨rfl, pr⟩⟩
  rw [← hsame.irq, ← hsame.pc]; exact ha

theorem onScan_core (hp : Comp.Plain K refs c layout)
    (h : Core K layout c count s t m evs) (ht : Sized count s) (hat : At .scan s) (he : .scan ∈ s.events) (hroom : s.km.inq.length + moved s ≤ 31)
    (e : s.onScan ⟨Comp.system K, refs, S⟩ (n + 2) = .ok s') : Goes K layout c count 0 s s' m evs := by
  obtain ⟨f1, f2, f3, _⟩ := onScan_frame e
  have hat' := at_onScan hat he e
  obtain ⟨g1, g2⟩ := scan_told h ht
  simp only [State.onScan] at e
  obtain ⟨⟨s1, next⟩, e1, e⟩ := Res.bind_eq_ok.1 e
  have hs' : s'.km = s1.km ∧ s'.report = s1.report := by
    rw [← Res.ok.inj e]
    simp only
    split
    all_goals
      generalize hx : (State.start _ Task.tick 12) = x
      obtain ⟨ts, hc, _⟩ := compare_frame x
      rw [hc]
      subst hx
      exact ⟨rfl, rfl⟩
  obtain ⟨z1, z2⟩ := hs'
  rw [h.keeps.sim.inq] at hroom
  obtain ⟨t', m', r1, r2, r3⟩ := Keeps.registerAfter hp (s := { s with matrix := (s.matrix.scan s.closed).1 }) h.keeps h.sizes hroom e1
  refine ⟨t', m', _, ⟨by rw [z1]; exact r1, kinds_append h, by rw [f1]; exact g1, by rw [z2]; exact r2, fun ha => ?_⟩, .inr rfl, fun hq => ?_⟩
  · rcases ha with ha | ha
    · rw [hat'.1] at ha; cases ha
    · rw [hat'.2.2.1] at ha; cases ha
  · have hch := g2 hq
    obtain ⟨y1, y2⟩ := r3 hch
    refine ⟨by rw [hch, List.append_nil], fun j hj => ?_⟩
    rw [y1]
    exact hj.congr (by rw [z1, y2]) (by rw [z2, y2])

theorem Core.same_goes (h : Core K layout c count s t m evs) (h1 : s'.km = s.km) (h2 : s'.matrix = s.matrix) (h3 : s'.report = s.report)
    (h4 : s'.irq = true ∨ s'.pc = .arming → s.irq = true ∨ s.pc = .arming) : Goes K layout c count 0 s s' m evs :=
  ⟨t, m, evs, h.frame h1 h2 h3 h4, .inl rfl, fun _ => ⟨rfl, fun _ hj => hj.congr h1 h3⟩⟩

theorem process_core (hp : Comp.Plain K refs c layout) (hc : count ≤ layout.length) (hcount : count ≤ 255) {p : Phase} {ok : Bool}
    (h : Core K layout c count s t m evs) (ht : Sized count s) (hat : At p s) (hroom : s.km.inq.length + moved s ≤ 31)
    (e : s.process ⟨Comp.system K, refs, S⟩ (n + 2) ok = .ok s') : ∃ k, Goes K layout c count k s s' m evs ∧ (TickNow s → k = 1) := by
  unfold State.process at e
  split at e
  · next hpc =>
    cases e
    refine ⟨0, ?_, fun hn => absurd hpc hn.1⟩
    obtain ⟨ts, hcm, _⟩ := compare_frame ({ s with pc := .idle, irq := true } : CState)
    unfold State.armed
    rw [hcm]
    exact h.same_goes rfl rfl rfl fun _ => Or.inr hpc
  · next hpc =>
    split at e
    · next hw =>
      cases e
      refine ⟨0, h.same_goes rfl rfl rfl ?_, fun hn => absurd hw hn.2.1⟩
      rintro (ha | ha)
      · cases ha
      · exact absurd ha hpc
    · next hw =>
      split at e
      · next hs =>
        have hscan : At .scan s := by
          cases p with
          | scan => exact hat
          | waking => exact absurd hat.2.2.2.1 hw
          | asleep => exact absurd (Or.inl hs) hat.2.2.2.2.1
          | tick => exact absurd (Or.inl hs) hat.2.2.2.2.1
          | arming => exact absurd (Or.inl hs) hat.2.2.2.2.1
        exact ⟨0, onScan_core hp h ht hscan hs hroom e, fun hn => absurd hs hn.2.2.1⟩
      · next hs =>
        split at e
        · next hx => exact ⟨0, onTimeout_core h e, fun hn => absurd hx hn.2.2.2.1⟩
        · split at e
          · next hx =>
            cases e
            refine ⟨0, h.same_goes ?_ ?_ ?_ ?_, fun hn => absurd hx hn.2.2.2.2.1⟩ <;> cases ok <;> first | rfl | exact id
          · split at e
            · next hx =>
              cases e
              refine ⟨0, h.same_goes ?_ ?_ ?_ ?_, fun hn => absurd hx hn.2.2.2.2.2.1⟩ <;> cases ok <;> first | rfl | exact id
            · split at e
              · next hx =>
                cases e
                refine ⟨0, h.same_goes ?_ ?_ ?_ ?_, fun hn => absurd hx hn.2.2.2.2.2.2.1⟩ <;> cases ok <;> first | rfl | exact id
              · split at e
                · next htk =>
                  have htick : At .tick s := by
                    cases p with
                    | scan => exact absurd (Or.inl htk) hat.2.2.2.2.2.2
                    | waking => exact absurd (Or.inl htk) hat.2.2.2.2.2.2
                    | asleep => exact absurd (Or.inl htk) hat.2.2.2.2.2
                    | tick => exact hat
                    | arming => exact absurd hat.2.2.1 hpc
                  exact ⟨1, onTick_core hp hc hcount h ht htick htk hroom e, fun _ => rfl⟩
                · next htk =>
                  cases e
                  exact ⟨0, h.same_goes rfl rfl rfl id, fun hn => absurd hn.2.2.2.2.2.2.2 htk⟩

theorem step_core (hp : Comp.Plain K refs c layout) (hc : count ≤ layout.length) (hcount : count ≤ 255) {p : Phase} {i : Input}
    {row : Nat → Nat} {rows : Nat}
    (h : Core K layout c count s t m evs) (ht : Sized count s) (hat : At p s) (hroom : ∀ ok, i = .process ok → s.km.inq.length + moved s ≤ 31)
    (e : s.step ⟨Comp.system K, refs, S⟩ (n + 2) row rows i = .ok s') :
    ∃ k, Goes K layout c count k s s' m evs ∧ (TickNow s → ∀ ok, i = .process ok → k = 1) := by
  cases i with
  | wait d => cases e; exact ⟨0, h.same_goes rfl rfl rfl id, fun _ _ hi => by cases hi⟩
  | expire u =>
    refine ⟨0, ?_, fun _ _ hi => by cases hi⟩
    simp only [State.step] at e
    split at e
    · split at e
      · cases e; exact h.same_goes rfl rfl rfl id
      · cases e; exact h.same_goes rfl rfl rfl id
    · cases e; exact h.same_goes rfl rfl rfl id
  | move cl =>
    refine ⟨0, ?_, fun _ _ hi => by cases hi⟩
    simp only [State.step] at e
    split at e
    · cases e
      refine h.same_goes rfl rfl rfl ?_
      rintro (ha | ha)
      · cases ha
      · exact Or.inr ha
    · cases e; exact h.same_goes rfl rfl rfl id
  | process ok =>
    obtain ⟨k, h1, h2⟩ := process_core hp hc hcount h ht hat (hroom ok rfl) e
    exact ⟨k, h1, fun a _ _ => h2 a⟩

end

end Verif.Ble
