import Verif.Spec.Keyboard
import Verif.Props.Device
import Verif.Props.Board
import Verif.Props.Hid
import Verif.Props.Firmware
import Verif.Props.Reporter
import Verif.Lemmas.Ticks

/-!
# From the switches to what the computer takes for pressed
-/

namespace Verif.Keyboard

open Device (Along levels Sizes packets)
open Board (Queued Entry)

section Frames

variable {R Ev Ctx PKS KS : Type} {C : Cfg R Ev Ctx PKS KS} {n : Nat}

theorem run_append {d d1 d2 : Device R Ev Ctx PKS KS} {es fs : List Device.Event} (h1 : Device.run C n d es = .ok d1) (h2 : Device.run C n d1 fs = .ok d2) :
    Device.run C n d (es ++ fs) = .ok d2 := by
  induction es generalizing d with
  | nil => cases h1; exact h2
  | cons e es ih =>
    obtain ⟨d', g1, g2⟩ := Res.bind_eq_ok.1 h1
    exact Res.bind_eq_ok.2 ⟨d', g1, ih g2⟩

theorem along_append {d d1 : Device R Ev Ctx PKS KS} {es fs : List Device.Event} (h1 : Device.run C n d es = .ok d1) (h : Along C n d (es ++ fs)) :
    Along C n d es ∧ Along C n d1 fs := by
  induction es generalizing d with
  | nil => cases h1; exact ⟨trivial, h⟩
  | cons e es ih =>
    obtain ⟨d', g1, g2⟩ := Res.bind_eq_ok.1 h1
    refine ⟨⟨h.1, fun d'' hd => ?_⟩, (ih g2 (h.2 d' g1)).2⟩
    rw [g1] at hd; cases hd
    exact (ih g2 (h.2 d' g1)).1

theorem roomy_append {d d1 : Device R Ev Ctx PKS KS} {es fs : List Device.Event} (h1 : Device.run C n d es = .ok d1) (h : Roomy C n d (es ++ fs)) :
    Roomy C n d es ∧ Roomy C n d1 fs := by
  induction es generalizing d with
  | nil => cases h1; exact ⟨trivial, h⟩
  | cons e es ih =>
    obtain ⟨d', g1, g2⟩ := Res.bind_eq_ok.1 h1
    refine ⟨⟨h.1, fun d'' hd => ?_⟩, (ih g2 (h.2 d' g1)).2⟩
    rw [g1] at hd; cases hd
    exact (ih g2 (h.2 d' g1)).1

/-- All but scans leave the keymap alone. -/
def Quiet (es : List Device.Event) : Prop := ∀ e ∈ es, ∀ raw, e ≠ .timer raw

theorem quiet_rest (n1 n2 : Nat) : Quiet (List.replicate n1 .main ++ Device.round ++ List.replicate n2 .main) := by
  intro e he raw h
  subst h
  simp [Device.round, List.mem_replicate] at he

/-- The parts of a device the USB side does not touch. -/
def same (d d' : Device R Ev Ctx PKS KS) : Prop := d'.km = d.km ∧ d'.keys = d.keys ∧ d'.report = d.report ∧ d'.usb.made = d.usb.made

theorem quiet_step {d d' : Device R Ev Ctx PKS KS} {e : Device.Event} (he : ∀ raw, e ≠ .timer raw) (h : Device.step C n d e = .ok d') : same d d' := by
  cases e with
  | main => cases h; exact ⟨rfl, rfl, rfl, Device.other_made _ _ (fun r h => by cases h)⟩
  | timer raw => exact absurd rfl (he raw)
  | poll => cases h; exact ⟨rfl, rfl, rfl, Device.other_made _ _ (fun r h => by cases h)⟩
  | configure => cases h; exact ⟨rfl, rfl, rfl, rfl⟩
  | reset => cases h; exact ⟨rfl, rfl, rfl, rfl⟩

theorem quiet_run {d d' : Device R Ev Ctx PKS KS} {es : List Device.Event} (he : Quiet es) (h : Device.run C n d es = .ok d') : same d d' := by
  induction es generalizing d with
  | nil => cases h; exact ⟨rfl, rfl, rfl, rfl⟩
  | cons e es ih =>
    obtain ⟨d1, g1, g2⟩ := Res.bind_eq_ok.1 h
    obtain ⟨a1, a2, a3, a4⟩ := quiet_step (he e (by simp)) g1
    obtain ⟨b1, b2, b3, b4⟩ := ih (fun e h => he e (by simp [h])) g2
    exact ⟨b1.trans a1, b2.trans a2, b3.trans a3, b4.trans a4⟩

/-- What was made last. -/
def LastMade (d : Device R Ev Ctx PKS KS) : Prop :=
  Sizes d.report ∧ (d.usb.made.map (·.keyboard)).getLastD (List.replicate 8 0) = d.report.keyboard ∧
    (d.usb.made.map (·.consumer)).getLastD (List.replicate 4 0) = d.report.consumer

theorem LastMade.step {d d' : Device R Ev Ctx PKS KS} {e : Device.Event} (hl : LastMade d) (h : Device.step C n d e = .ok d') : LastMade d' := by
  obtain ⟨hs, hk, hc⟩ := hl
  have hs' := Device.step_sizes h hs
  refine ⟨hs', ?_⟩
  by_cases he : ∃ raw, e = .timer raw
  · obtain ⟨raw, rfl⟩ := he
    obtain ⟨km, _, _, h1 | h1⟩ := Device.timer_ok h
    · have := Device.packets_keyboard hs'
      rw [h1.2.2]
      simp only [Usb.State.timer, h1.1, if_true, List.map_append, List.map_cons, List.map_nil]
      simp [List.getLastD_eq_getLast?, this.1, this.2]
    · rw [h1.2.2.1, h1.2.2.2]; exact ⟨hk, hc⟩
  · obtain ⟨_, _, h3, h4⟩ := quiet_step (fun raw h => he ⟨raw, h⟩) h
    rw [h3, h4]; exact ⟨hk, hc⟩

theorem LastMade.run {d d' : Device R Ev Ctx PKS KS} {es : List Device.Event} (hl : LastMade d) (h : Device.run C n d es = .ok d') : LastMade d' := by
  induction es generalizing d with
  | nil => cases h; exact hl
  | cons e es ih =>
    obtain ⟨d1, g1, g2⟩ := Res.bind_eq_ok.1 h
    exact ih (hl.step g1) g2

theorem LastMade.new (count : Nat) (km : KM R Ev Ctx PKS KS) : LastMade (Device.new count km) := ⟨⟨rfl, rfl⟩, rfl, rfl⟩

theorem configured_step {d d' : Device R Ev Ctx PKS KS} {e : Device.Event} (hc : d.usb.configured = true) (hp : Device.Prompt d.usb e)
    (h : Device.step C n d e = .ok d') : d'.usb.configured = true := by
  cases e with
  | main => cases h; exact (Usb.main_frame _).1.trans hc
  | timer raw =>
    obtain ⟨km, _, _, h1 | h1⟩ := Device.timer_ok h
    · rw [h1.2.2]; unfold Usb.State.timer; rw [h1.1]; exact hc
    · rw [h1.2.2.2]; exact hc
  | poll ep => cases h; cases ep <;> exact hc
  | configure => cases h; rfl
  | reset => exact absurd hc (by rw [hp]; decide)

theorem configured_run {d d' : Device R Ev Ctx PKS KS} {es : List Device.Event} (hc : d.usb.configured = true ∨ .configure ∈ es) (ha : Along C n d es)
    (h : Device.run C n d es = .ok d') : d'.usb.configured = true := by
  induction es generalizing d with
  | nil =>
    cases h
    rcases hc with hc | hc
    · exact hc
    · cases hc
  | cons e es ih =>
    obtain ⟨d1, g1, g2⟩ := Res.bind_eq_ok.1 h
    refine ih ?_ (ha.2 d1 g1) g2
    rcases hc with hc | hc
    · exact .inl (configured_step hc ha.1 g1)
    · rcases List.mem_cons.1 hc with rfl | hc
      · cases g1; exact .inl rfl
      · exact .inr hc

theorem getLastD_changes (z : List Byte) (rs : List (List Byte)) : (Usb.changes z rs).getLastD z = rs.getLastD z := by
  induction rs generalizing z with
  | nil => rfl
  | cons r rs ih =>
    have hl : ∀ (x : List Byte) xs z, (x :: xs).getLastD z = xs.getLastD x := fun x xs z => by cases xs <;> simp [List.getLastD]
    rw [Usb.changes, hl]
    split
    · next h => rw [ih, h]
    · rw [hl, ih]

/-- The host has got everything. -/
theorem delivered {count : Nat} {km0 : KM R Ev Ctx PKS KS} {es : List Device.Event} {n1 n2 : Nat} (h1 : 121 ≤ n1) (h2 : 121 ≤ n2) {d0 d : Device R Ev Ctx PKS KS}
    (h0 : Device.run C n (Device.new count km0) es = .ok d0) (hcf : d0.usb.configured = true)
    (hrun : Device.run C n d0 (List.replicate n1 .main ++ Device.round ++ List.replicate n2 .main) = .ok d)
    (ha : Along C n (Device.new count km0) (es ++ (List.replicate n1 .main ++ Device.round ++ List.replicate n2 .main))) :
    d.usb.sent = true ∧ d.usb.keyboard.host.getLastD (List.replicate 8 0) = d0.report.keyboard ∧
      d.usb.consumer.host.getLastD (List.replicate 4 0) = d0.report.consumer := by
  have hall := run_append h0 hrun
  have hu := Device.along_usb hall ha ⟨rfl, rfl⟩
  have hpe : Device.projs C n (Device.new count km0) (es ++ (List.replicate n1 .main ++ Device.round ++ List.replicate n2 .main)) =
      Device.projs C n (Device.new count km0) es ++ List.replicate n1 .main ++ Usb.round ++ List.replicate n2 .main := by
    obtain ⟨da, ga, gb⟩ := Device.run_app hrun
    obtain ⟨db, gc, gd⟩ := Device.run_app ga
    rw [Device.projs_app h0, Device.projs_app ga, Device.projs_app gc, Device.projs_mains, Device.projs_round, Device.projs_mains]
    simp only [List.append_assoc]
  rw [hpe] at hu
  have hus := Device.run_usb hall
  rw [hpe] at hus
  have hcf' : (Usb.State.new.run (Device.projs C n (Device.new count km0) es)).configured = true := by
    rw [← hcf, Device.run_usb h0]; rfl
  obtain ⟨q1, q2, q3, q4⟩ := Usb.C66_delivered_partial _ n1 n2 h1 h2 hu hcf'
  have hus' : d.usb = Usb.State.new.run (Device.projs C n (Device.new count km0) es ++ List.replicate n1 .main ++ Usb.round ++ List.replicate n2 .main) := hus
  rw [← hus'] at q1 q2 q3 q4
  have hl := (LastMade.new count km0).run h0
  have hs := quiet_run (quiet_rest n1 n2) hrun
  refine ⟨q1, ?_, ?_⟩
  · rw [q3, getLastD_changes, hs.2.2.2]; exact hl.2.1
  · rw [q4, getLastD_changes, hs.2.2.2]; exact hl.2.2

end Frames

/-! ## The keymap -/

theorem scanFrom_physical (i : Nat) (ks : List Firmware.Key) (raw : List Bool) : ∀ e ∈ (Firmware.scanFrom i ks raw).2, Comp.isPhysical e = true := by
  induction ks generalizing i raw with
  | nil => intro e he; cases raw <;> cases he
  | cons k ks ih =>
    cases raw with
    | nil => intro e he; cases he
    | cons r rs =>
      intro e he
      simp only [Firmware.scanFrom, List.mem_append] at he
      rcases he with he | he
      · cases h : (k.scan r).2 with
        | none => rw [h] at he; cases he
        | some b =>
          rw [h] at he
          simp only [Option.map_some, Option.toList_some, List.mem_singleton] at he
          subst he
          cases b <;> rfl
      · exact ih _ _ e he

/-- The events are taken in their order. -/
def Taken (layout : List Entry) (b : Board.State) (m : Queued) (evs : List InputEvent) : Prop :=
  ∃ taken, m.board = taken.foldl (Board.State.input layout) b ∧ taken ++ m.queue = evs

theorem Taken.input {layout : List Entry} {b : Board.State} {m m' : Queued} {evs : List InputEvent} {e : InputEvent} (h : Taken layout b m evs)
    (hq : m.queue.length < 31) (hd : m.delay ≤ 1) (hi : m.input layout e = some m') :
    Taken layout b m' (evs ++ [e]) ∧ m'.queue.length ≤ m.queue.length + 1 ∧ m'.delay ≤ 1 := by
  obtain ⟨tk, h1, h2⟩ := h
  simp only [Queued.input] at hi
  rw [if_neg (by omega)] at hi
  split at hi
  · obtain ⟨e', g1, g2⟩ := Comp.take_taken hi
    have hd' : m'.delay = 1 := by
      generalize hg : m.queue ++ [e] = q at hi
      cases q with
      | nil => cases hi
      | cons x xs =>
        simp only [Queued.take] at hi
        split at hi
        · cases hi; rfl
        · cases hi
    refine ⟨⟨tk ++ [e'], ?_, ?_⟩, ?_, by omega⟩
    · rw [g2, h1, List.foldl_append]; rfl
    · rw [← h2, List.append_assoc, List.append_assoc, g1]; rfl
    · have := congrArg List.length g1
      simp only [List.length_append, List.length_cons, List.length_nil] at this
      omega
  · cases hi
    exact ⟨⟨tk, h1, by rw [← h2]; simp⟩, by simp, hd⟩

theorem Taken.tick {layout : List Entry} {b : Board.State} {m m' : Queued} {evs : List InputEvent} (h : Taken layout b m evs)
    (hd : m.delay ≤ 1) (hi : m.tick layout = some m') :
    Taken layout b m' evs ∧ m'.delay = 0 ∧ m'.queue.length ≤ m.queue.length ∧ (m.delay = 0 → m'.queue.length = m.queue.length - 1) ∧
      (m.queue = [] → m'.queue = [] ∧ m'.board = m.board) := by
  obtain ⟨tk, h1, h2⟩ := h
  simp only [Queued.tick] at hi
  split at hi
  · next hc =>
    obtain ⟨m2, hj, rfl⟩ := Option.map_eq_some_iff.1 hi
    obtain ⟨e', g1, g2⟩ := Comp.take_taken hj
    have := congrArg List.length g1
    simp only [List.length_cons] at this
    refine ⟨⟨tk ++ [e'], ?_, ?_⟩, rfl, by simp only; omega, fun _ => by simp only; omega, fun hq => absurd hq hc.2⟩
    · simp only; rw [g2, h1, List.foldl_append]; rfl
    · simp only; rw [← h2, g1, List.append_assoc]; rfl
  · next hc =>
    cases hi
    refine ⟨⟨tk, h1, h2⟩, by simp only; omega, Nat.le_refl _, fun hz => ?_, fun hq => ⟨hq, rfl⟩⟩
    have : m.queue = [] := Classical.byContradiction fun hq => hc ⟨hz, hq⟩
    simp [this]

section Keymap

variable {K : Comp.Keys} {refs : List Comp.Ref} {S : Search} {layout : List Entry} {count n : Nat}

abbrev CDev := Device Comp.Ref Comp.Ev Comp.Ctx Comp.PKS Comp.KS

/-- The keymap and the board, after the events `evs`. -/
structure Follows (K : Comp.Keys) (layout : List Entry) (count : Nat) (b : Board.State) (km : Comp.CKM) (t : Nat) (m : Queued) (evs : List InputEvent) : Prop where
  sim : Comp.SimQ K count t km m
  taken : Taken layout b m evs
  room : m.queue.length ≤ 31
  delay : m.delay ≤ 1
  rep : 1 ≤ km.rep.num

theorem qinv {t : Nat} {km : Comp.CKM} {m : Queued} (h : Comp.SimQ K count t km m) : QInv (fun _ => True) km :=
  ⟨fun _ _ => trivial, fun _ _ => trivial, fun p hp => by rw [h.sim.pend] at hp; cases hp⟩

/-- The events of a scan. -/
theorem Follows.register {c : Comp.Config} (hp : Comp.Plain K refs c layout) {b : Board.State} {km km' : Comp.CKM} {t : Nat} {es : List InputEvent}
    (hes : ∀ e ∈ es, Comp.isPhysical e = true) {m : Queued} {evs : List InputEvent} (h : Follows K layout c.layerCount b km t m evs)
    (hl : m.queue.length + es.length ≤ 31) (hr : Device.register ⟨Comp.system K, refs, S⟩ (n + 2) km es = .ok km') :
    ∃ m', Follows K layout c.layerCount b km' t m' (evs ++ es) ∧ km'.rep = km.rep ∧ (es = [] → m' = m) := by
  induction es generalizing km m evs with
  | nil => cases hr; exact ⟨m, by simpa using h, rfl, fun _ => rfl⟩
  | cons e es ih =>
    obtain ⟨km1, g1, g2⟩ := Res.bind_eq_ok.1 hr
    simp only [List.length_cons] at hl
    have key := h.sim.input (S := S) (n := n) hp.layoutEq hp.fits hp.size (hes e (by simp))
    cases hm : m.input layout e with
    | none =>
      obtain ⟨p, hp'⟩ := key.2 hm
      rw [g1] at hp'; cases hp'
    | some m1 =>
      obtain ⟨km2, k1, k2⟩ := key.1 m1 hm
      rw [g1] at k1; cases k1
      obtain ⟨t1, t2, t3⟩ := h.taken.input (by omega) h.delay hm
      have hrep := (handleInput_clock (qinv h.sim) g1).2.2.2.1
      obtain ⟨m', f1, f2, _⟩ := ih (fun e he => hes e (by simp [he])) ⟨k2, t1, by omega, t3, by rw [hrep]; exact h.rep⟩ (by omega) g2
      exact ⟨m', by simpa using f1, f2.trans hrep, by simp⟩

theorem keymapTick_ok {R Ev Ctx PKS KS : Type} {C : Cfg R Ev Ctx PKS KS} {n : Nat} {km km' : KM R Ev Ctx PKS KS} {r r' : CApi.HidReport}
    (h : CApi.keymapTick C n km r = .ok (km', r')) :
    ∃ km1 os, tick C n km = .ok km1 ∧ km1.pressedKeys C = .ok os ∧ km' = { km1 with rep := (km1.rep.report os).1 } ∧
      r.update (km1.rep.report os).2 = .ok r' := by
  unfold CApi.keymapTick at h
  obtain ⟨km1, h1, h⟩ := Res.bind_eq_ok.1 h
  obtain ⟨⟨km2, out⟩, h2, h⟩ := Res.bind_eq_ok.1 h
  obtain ⟨r1, h3, h⟩ := Res.bind_eq_ok.1 h
  cases h
  unfold reportOutput at h2
  obtain ⟨os, h4, h2⟩ := Res.bind_eq_ok.1 h2
  cases h2
  exact ⟨km1, os, h1, h4, rfl, h3⟩

theorem simq_rep {t : Nat} {km : Comp.CKM} {m : Queued} (h : Comp.SimQ K count t km m) (r : Reporter) : Comp.SimQ K count t { km with rep := r } m :=
  ⟨⟨h.sim.pend, h.sim.pending, h.sim.held, h.sim.nodup, h.sim.len, h.sim.active,
    h.sim.pressedIdx, h.sim.caps, h.sim.layers, h.sim.dflt, h.sim.layerCount, h.sim.dfltOk, h.sim.fits, h.sim.idle⟩,
    h.inq, h.delay, h.scheduled, h.counter, h.idle, h.ms, h.phys⟩

/-- One scan. -/
theorem Follows.timer {c : Comp.Config} (hp : Comp.Plain K refs c layout) {b : Board.State} {d d' : CDev} {t : Nat} {m : Queued} {evs : List InputEvent}
    {raw : List Bool} (h : Follows K layout c.layerCount b d.km t m evs) (ht : t + 1 < u32Size)
    (hl : d.km.inq.length + (Firmware.scan d.keys raw).2.length ≤ 31)
    (hr : Device.timer ⟨Comp.system K, refs, S⟩ (n + 2) d raw = .ok d') :
    ∃ t' m1 m', t' ≤ t + 1 ∧ Follows K layout c.layerCount b d'.km t' m' (evs ++ (Firmware.scan d.keys raw).2) ∧
      m1.queue.length ≤ 31 ∧ m1.delay ≤ 1 ∧ ((Firmware.scan d.keys raw).2 = [] → m1 = m) ∧ d'.keys = (Firmware.scan d.keys raw).1 ∧
      ((d.usb.sent = true ∧ m1.tick layout = some m' ∧ d'.km.rep = (d.km.rep.report m'.board.outputs).1 ∧
          d.report.update (d.km.rep.report m'.board.outputs).2 = .ok d'.report) ∨
        (d.usb.sent = false ∧ m' = m1)) := by
  obtain ⟨km, g1, g2, g3⟩ := Device.timer_ok hr
  obtain ⟨m1, f1, f2, f3⟩ := h.register (es := (Firmware.scan d.keys raw).2) hp (scanFrom_physical 0 _ _) (by rw [← h.sim.inq]; exact hl) g1
  rcases g3 with ⟨a1, a2, a3⟩ | ⟨a1, a2, a3, a4⟩
  · obtain ⟨km1, os, b1, b2, b3, b4⟩ := keymapTick_ok a2
    have key := f1.sim.tick (S := S) (n := n) hp.layoutEq hp.fits hp.size ht
    cases hm : m1.tick layout with
    | none =>
      obtain ⟨p, hp'⟩ := key.2 hm
      rw [b1] at hp'; cases hp'
    | some m' =>
      obtain ⟨km2, k1, k2⟩ := key.1 m' hm
      rw [b1] at k1; cases k1
      have hos : km1.pressedKeys ⟨Comp.system K, refs, S⟩ = .ok m'.board.outputs := Comp.pressedOutputs_held k2.sim.held
      rw [b2] at hos; cases hos
      have hrep := (tick_clock (qinv f1.sim) b1).2.2.2.1
      obtain ⟨t1, t2, t3, t4, t5⟩ := f1.taken.tick f1.delay hm
      refine ⟨t + 1, m1, m', Nat.le_refl _, ⟨?_, t1, ?_, by omega, ?_⟩, f1.room, f1.delay, f3, g2, .inl ⟨a1, hm, ?_, ?_⟩⟩
      · rw [b3]; exact simq_rep k2 _
      · have := f1.room; omega
      · rw [b3]; simp only; rw [hrep, f2]
        exact Reporter.reportSent_pos _ (Reporter.update_pos _ _ h.rep)
      · rw [b3]; simp only; rw [hrep, f2]
      · rw [← f2, ← hrep]; exact b4
  · exact ⟨t, m1, m1, by omega, by rw [a2]; exact f1, f1.room, f1.delay, f3, g2, .inr ⟨a1, rfl⟩⟩

end Keymap

end Verif.Keyboard
