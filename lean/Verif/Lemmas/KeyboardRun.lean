import Verif.Lemmas.KeyboardScan

/-!
# A keyboard at rest
-/

namespace Verif.Keyboard

open Device (Along levels)
open Board (Queued Entry)

variable {K : Comp.Keys} {refs : List Comp.Ref} {S : Search} {layout : List Entry} {n : Nat}

theorem levels_append (xs ys : List Device.Event) : levels (xs ++ ys) = levels xs ++ levels ys := by
  induction xs with
  | nil => rfl
  | cons x xs ih => cases x <;> simp [levels, ih]

theorem levels_quiet {es : List Device.Event} (h : Quiet es) : levels es = [] := by
  induction es with
  | nil => rfl
  | cons e es ih =>
    have := ih fun e he => h e (by simp [he])
    cases e with
    | timer raw => exact absurd rfl (h _ (by simp) raw)
    | _ => exact this

theorem levels_cycle (n1 n2 : Nat) (raw : List Bool) : levels (cycle n1 n2 raw) = [raw] := by
  rw [cycle, levels, levels_quiet (quiet_rest n1 n2)]

theorem levels_still (n1 n2 : Nat) (raw : List Bool) (k : Nat) : levels (still n1 n2 raw k) = List.replicate k raw := by
  induction k with
  | zero => rfl
  | succ k ih => rw [still, levels_append, ih, levels_cycle, List.replicate_succ']

/-- The board at the beginning. -/
abbrev start (c : Comp.Config) : Board.State := (Queued.new c.layerCount).board

/-- Any history. -/
theorem follows_run {c : Comp.Config} (hp : Comp.Plain K refs c layout) {es : List Device.Event} : ∀ {d d' : CDev} {t : Nat} {m : Queued} {evs : List InputEvent},
    Follows K layout c.layerCount (start c) d.km t m evs → t + (levels es).length < u32Size → Roomy ⟨Comp.system K, refs, S⟩ (n + 2) d es →
    Device.run ⟨Comp.system K, refs, S⟩ (n + 2) d es = .ok d' →
    ∃ t' m', t' ≤ t + (levels es).length ∧ Follows K layout c.layerCount (start c) d'.km t' m' (evs ++ (Firmware.scans d.keys (levels es)).2) ∧
      d'.keys = (Firmware.scans d.keys (levels es)).1 := by
  induction es with
  | nil => intro d d' t m evs h _ _ hr; cases hr; exact ⟨t, m, Nat.le_refl _, by simpa [levels, Firmware.scans] using h, rfl⟩
  | cons e es ih =>
    intro d d' t m evs h ht hro hr
    obtain ⟨d1, g1, g2⟩ := Res.bind_eq_ok.1 hr
    by_cases he : ∃ raw, e = .timer raw
    · obtain ⟨raw, rfl⟩ := he
      simp only [levels, List.length_cons] at ht ⊢
      obtain ⟨t1, m1, m2, f1, f2, _, _, _, f3, _⟩ := h.timer hp (by omega) (hro.1 raw rfl) g1
      obtain ⟨t', m', k1, k2, k3⟩ := ih f2 (by omega) (hro.2 d1 g1) g2
      rw [f3] at k2 k3
      exact ⟨t', m', by omega, by simpa [Firmware.scans] using k2, by simpa [Firmware.scans] using k3⟩
    · obtain ⟨a1, a2, _, _⟩ := quiet_step (fun raw h => he ⟨raw, h⟩) g1
      have hlv : levels (e :: es) = levels es := by
        cases e with
        | timer raw => exact absurd ⟨raw, rfl⟩ he
        | _ => rfl
      rw [hlv] at ht ⊢
      rw [← a1] at h
      obtain ⟨t', m', k1, k2, k3⟩ := ih h ht (hro.2 d1 g1) g2
      rw [a2] at k2 k3
      exact ⟨t', m', k1, k2, k3⟩

theorem follows_new {c : Comp.Config} (hp : Comp.Plain K refs c layout) :
    Follows K layout c.layerCount (start c) (KM.new (Comp.Ctx.fromConfig c)) 0 (Queued.new c.layerCount) [] :=
  ⟨Comp.SimQ.start hp.chords, ⟨[], rfl, rfl⟩, by simp [Queued.new], by simp [Queued.new], Nat.le_refl _⟩

/-- `k` scans with switches that do not move. -/
structure Stage (K : Comp.Keys) (layout : List Entry) (c : Comp.Config) (count : Nat) (raws : List (List Bool)) (raw : List Bool) (k : Nat) (d : CDev)
    (t : Nat) (m : Queued) : Prop where
  follows : Follows K layout c.layerCount (start c) d.km t m (moves count (raws ++ List.replicate k raw))
  time : t ≤ raws.length + k
  keys : d.keys = (Firmware.scans (List.replicate count Firmware.Key.new) (raws ++ List.replicate k raw)).1
  sizes : Device.Sizes d.report
  configured : d.usb.configured = true
  sent : 1 ≤ k → d.usb.sent = true
  delay : 2 ≤ k → m.delay = 0
  queue : 7 ≤ k → m.queue.length ≤ 38 - k
  rep : 39 ≤ k → d.km.rep.outputs = m.board.outputs ∧ min m.board.outputs.length (k - 38) ≤ d.km.rep.num
  report : 39 ≤ k → ∃ old, Device.Sizes old ∧ old.update d.km.rep.reportable = .ok d.report
  host : 1 ≤ k → d.usb.keyboard.host.getLastD (List.replicate 8 0) = d.report.keyboard ∧
    d.usb.consumer.host.getLastD (List.replicate 4 0) = d.report.consumer

theorem report_same (r : Reporter) (h : 1 ≤ r.num) (l : List KeyOutput) :
    (r.report l).1.outputs = l ∧ 1 ≤ (r.report l).1.num ∧ (r.report l).2 = (r.report l).1.reportable ∧
      (r.outputs = l → min l.length (r.num + 1) ≤ (r.report l).1.num) := by
  refine ⟨by simp [Reporter.report], Reporter.reportSent_pos _ (Reporter.update_pos _ _ h), rfl, fun ho => ?_⟩
  have := (Reporter.reportsOf_num l 1 r ho h).2.2
  exact this

theorem stage {c : Comp.Config} (hp : Comp.Plain K refs c layout) {count n1 n2 : Nat} (h1 : 121 ≤ n1) (h2 : 121 ≤ n2) {es : List Device.Event} {raw : List Bool}
    (hlv : ∀ r ∈ levels es, r.length = count) (hraw : raw.length = count) (hcf : .configure ∈ es) : ∀ (k : Nat) {d : CDev},
    (levels es).length + k < u32Size →
    Device.run ⟨Comp.system K, refs, S⟩ (n + 2) (Device.new count (KM.new (Comp.Ctx.fromConfig c))) (es ++ still n1 n2 raw k) = .ok d →
    Along ⟨Comp.system K, refs, S⟩ (n + 2) (Device.new count (KM.new (Comp.Ctx.fromConfig c))) (es ++ still n1 n2 raw k) →
    Roomy ⟨Comp.system K, refs, S⟩ (n + 2) (Device.new count (KM.new (Comp.Ctx.fromConfig c))) (es ++ still n1 n2 raw k) →
    ∃ t m, Stage K layout c count (levels es) raw k d t m := by
  intro k
  induction k with
  | zero =>
    intro d hlen hrun hal hro
    simp only [still, List.append_nil] at hrun hal hro
    obtain ⟨t', m', f1, f2, f3⟩ := follows_run (S := S) (n := n) hp (d := Device.new count (KM.new (Comp.Ctx.fromConfig c))) (follows_new hp) (by omega) hro hrun
    refine ⟨t', m', ?_, by omega, ?_, ((LastMade.new _ _).run hrun).1, configured_run (.inr hcf) hal hrun, ?_, ?_, ?_, ?_, ?_, ?_⟩
    · simpa [moves, Device.new] using f2
    · simpa [Device.new] using f3
    all_goals intro h; omega
  | succ k ih =>
    intro d hlen hrun hal hro
    rw [still, ← List.append_assoc] at hrun hal hro
    obtain ⟨d1, r1, r2⟩ := Device.run_app hrun
    obtain ⟨al1, al2⟩ := along_append r1 hal
    obtain ⟨ro1, ro2⟩ := roomy_append r1 hro
    obtain ⟨t, m, st⟩ := ih (by omega) r1 al1 ro1
    obtain ⟨d2, s1, s2⟩ := Res.bind_eq_ok.1 (show (Device.step _ _ d1 (.timer raw)).bind (fun d => Device.run _ _ d _) = .ok d from r2)
    have s1' : Device.timer ⟨Comp.system K, refs, S⟩ (n + 2) d1 raw = .ok d2 := s1
    have ht := st.time
    obtain ⟨t', m1, m2, f1, f2, f3, f4, f5, f6, f7⟩ := st.follows.timer hp (by omega) (ro2.1 raw rfl) s1'
    have hs := quiet_run (quiet_rest n1 n2) s2
    -- the host has got the report
    have r1' : Device.run ⟨Comp.system K, refs, S⟩ (n + 2) (Device.new count (KM.new (Comp.Ctx.fromConfig c))) ((es ++ still n1 n2 raw k) ++ [.timer raw]) = .ok d2 :=
      run_append r1 (by simp only [Device.run, s1, Res.ok_bind])
    have hcf2 : d2.usb.configured = true := configured_step st.configured al2.1 s1
    have hal' := hal
    rw [cycle, show ∀ (x : Device.Event) (xs ys : List Device.Event), ys ++ x :: xs = (ys ++ [x]) ++ xs from fun x xs ys => by simp] at hal'
    obtain ⟨e1, e2, e3⟩ := delivered h1 h2 r1' hcf2 s2 hal'
    have hcf3 : d.usb.configured = true := configured_run (.inl hcf2) (along_append r1' hal').2 s2
    have hmv : moves count (levels es ++ List.replicate (k + 1) raw) = moves count (levels es ++ List.replicate k raw) ++ (Firmware.scan d1.keys raw).2 := by
      rw [moves, moves, List.replicate_succ', ← List.append_assoc, scans_append _ (levels es ++ List.replicate k raw), scans_one, st.keys]
    have hks : d2.keys = (Firmware.scans (List.replicate count Firmware.Key.new) (levels es ++ List.replicate (k + 1) raw)).1 := by
      rw [List.replicate_succ', ← List.append_assoc, scans_append _ (levels es ++ List.replicate k raw), scans_one, f6, st.keys]
    have hnone : 6 ≤ k → m1 = m := fun hk => f5 (by rw [st.keys]; exact (settled_scan (settles hk hlv hraw)).1)
    have hsz := Device.step_sizes s1 st.sizes
    have htick : 1 ≤ k → m1.tick layout = some m2 ∧ d2.km.rep = (d1.km.rep.report m2.board.outputs).1 ∧
        d1.report.update (d1.km.rep.report m2.board.outputs).2 = .ok d2.report := fun hk => by
      rcases f7 with f7 | f7
      · exact f7.2
      · rw [st.sent hk] at f7; cases f7.1
    refine ⟨t', m2, ?_, by omega, ?_, ?_, hcf3, fun _ => e1, fun hk => ?_, fun hk => ?_, fun hk => ?_, fun hk => ?_, fun _ => ?_⟩
    · rw [hmv, hs.1]; exact f2
    · rw [hs.2.1]; exact hks
    · rw [hs.2.2.1]; exact hsz
    · obtain ⟨a1, _⟩ := htick (by omega)
      exact (Taken.tick (b := m1.board) (evs := m1.queue) ⟨[], rfl, rfl⟩ f4 a1).2.1
    · obtain ⟨a1, _⟩ := htick (by omega)
      have hq := Taken.tick (b := m1.board) (evs := m1.queue) ⟨[], rfl, rfl⟩ f4 a1
      by_cases h6 : k = 6
      · omega
      · have := hnone (by omega)
        subst this
        have h7 := st.queue (by omega)
        have h8 := hq.2.2.2.1 (st.delay (by omega))
        omega
    · obtain ⟨a1, a2, a3⟩ := htick (by omega)
      have := hnone (by omega)
      subst this
      have h7 := st.queue (by omega)
      have hq0 : m1.queue = [] := List.length_eq_zero_iff.1 (by omega)
      obtain ⟨_, hb⟩ := (Taken.tick (b := m1.board) (evs := m1.queue) ⟨[], rfl, rfl⟩ f4 a1).2.2.2.2 hq0
      obtain ⟨p1, p2, p3, p4⟩ := report_same d1.km.rep st.follows.rep m2.board.outputs
      rw [hs.1, a2]
      refine ⟨p1, ?_⟩
      by_cases h39 : 39 ≤ k
      · obtain ⟨q1, q2⟩ := st.rep h39
        have := p4 (by rw [q1, hb])
        rw [← hb] at q2
        omega
      · omega
    · obtain ⟨a1, a2, a3⟩ := htick (by omega)
      obtain ⟨p1, p2, p3, p4⟩ := report_same d1.km.rep st.follows.rep m2.board.outputs
      rw [hs.1, hs.2.2.1, a2, ← p3]
      exact ⟨_, st.sizes, a3⟩
    · rw [hs.2.2.1]; exact ⟨e2, e3⟩

/-- At rest. -/
theorem at_rest {c : Comp.Config} {count k : Nat} {raws : List (List Bool)} {raw : List Bool} {d : CDev} {t : Nat} {m : Queued}
    (h : Stage K layout c count raws raw k d t m) (hk : 55 ≤ k) :
    m.board = (moves count (raws ++ List.replicate k raw)).foldl (Board.State.input layout) (start c) ∧ m.board.outputs.length ≤ 16 ∧
      ∃ old, Device.Sizes old ∧ old.update m.board.outputs = .ok d.report := by
  have hq : m.queue = [] := List.length_eq_zero_iff.1 (by have := h.queue (by omega); omega)
  obtain ⟨tk, h1, h2⟩ := h.follows.taken
  rw [hq, List.append_nil] at h2
  subst h2
  have hl : m.board.held.length ≤ 16 := h.follows.sim.sim.len
  have hol : m.board.outputs.length ≤ 16 := Nat.le_trans (List.length_filterMap_le _ _) hl
  obtain ⟨g1, g2⟩ := h.rep (by omega)
  obtain ⟨old, o1, o2⟩ := h.report (by omega)
  have : d.km.rep.reportable = m.board.outputs := by
    rw [Reporter.reportable, g1, List.take_of_length_le (by omega)]
  rw [this] at o2
  exact ⟨h1, hol, old, o1, o2⟩

end Verif.Keyboard
