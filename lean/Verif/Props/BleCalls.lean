import Verif.Props.Ble

/-!
# C74: what the ch58x keyboard tells the keymap
-/

namespace Verif.Ble

variable {R Ev Ctx PKS KS : Type} {C : Cfg R Ev Ctx PKS KS} {n : Nat} {row : Nat → Nat} {rows : Nat}

/-! ## Replaying -/

theorem replay_append : ∀ {cs ds : List Call} {km km1 km2 : KM R Ev Ctx PKS KS} {r r1 : CApi.HidReport} {rs rs' : List CApi.HidReport},
    replay C n km r cs = .ok (km1, rs) → (r :: rs).getLast? = some r1 → replay C n km1 r1 ds = .ok (km2, rs') →
    replay C n km r (cs ++ ds) = .ok (km2, rs ++ rs')
  | [], _, km, km1, km2, r, r1, rs, rs', h, hl, h' => by
    cases h
    cases hl
    exact h'
  | .after ms e :: cs, ds, km, km1, km2, r, r1, rs, rs', h, hl, h' => by
    simp only [replay] at h
    obtain ⟨⟨km', r', nx⟩, e1, h⟩ := Res.bind_eq_ok.1 h
    obtain ⟨⟨km'', rs''⟩, e2, h⟩ := Res.bind_eq_ok.1 h
    cases h
    have := replay_append (ds := ds) e2 (by rw [List.getLast?_cons_cons] at hl; exact hl) h'
    simp only [List.cons_append, replay, e1, Res.ok_bind, this, Res.pure_eq]
  | .event e :: cs, ds, km, km1, km2, r, r1, rs, rs', h, hl, h' => by
    simp only [replay] at h
    obtain ⟨km', e1, h⟩ := Res.bind_eq_ok.1 h
    have := replay_append (ds := ds) h hl h'
    simp only [List.cons_append, replay, e1, Res.ok_bind, this]
  | .tick :: cs, ds, km, km1, km2, r, r1, rs, rs', h, hl, h' => by
    simp only [replay] at h
    obtain ⟨⟨km', r'⟩, e1, h⟩ := Res.bind_eq_ok.1 h
    obtain ⟨⟨km'', rs''⟩, e2, h⟩ := Res.bind_eq_ok.1 h
    cases h
    have := replay_append (ds := ds) e2 (by rw [List.getLast?_cons_cons] at hl; exact hl) h'
    simp only [List.cons_append, replay, e1, Res.ok_bind, this, Res.pure_eq]
  | .timeout :: cs, ds, km, km1, km2, r, r1, rs, rs', h, hl, h' => by
    simp only [replay] at h
    obtain ⟨⟨km', r', nx⟩, e1, h⟩ := Res.bind_eq_ok.1 h
    obtain ⟨⟨km'', rs''⟩, e2, h⟩ := Res.bind_eq_ok.1 h
    cases h
    have := replay_append (ds := ds) e2 (by rw [List.getLast?_cons_cons] at hl; exact hl) h'
    simp only [List.cons_append, replay, e1, Res.ok_bind, this, Res.pure_eq]

theorem eventsOf_append (cs ds : List Call) : eventsOf (cs ++ ds) = eventsOf cs ++ eventsOf ds := by
  induction cs with
  | nil => rfl
  | cons c cs ih => cases c <;> simp [eventsOf, ih]

theorem elapsed_append (cs ds : List Call) : elapsed (cs ++ ds) = elapsed cs + elapsed ds := by
  induction cs with
  | nil => simp [elapsed]
  | cons c cs ih => cases c <;> simp [elapsed, ih, Nat.add_assoc]

theorem pressedAfter_append : ∀ {es fs : List CApi.CEvent} {keys keys' : List Bool}, pressedAfter keys es = some keys' →
    pressedAfter keys (es ++ fs) = pressedAfter keys' fs
  | [], _, _, _, h => by cases h; rfl
  | e :: es, fs, keys, keys', h => by
    simp only [pressedAfter] at h
    simp only [List.cons_append, pressedAfter]
    split at h
    · next hc => rw [if_pos hc]; exact pressedAfter_append h
    · cases h

/-! ## Scans -/

/-- The events of a scan, from key `i` on. -/
def changes (i : Nat) : List (Option Bool) → List CApi.CEvent
  | [] => []
  | none :: es => changes (i + 1) es
  | some b :: es => cEvent i b :: changes (i + 1) es

theorem pressedAfter_changes : ∀ {ds cs pre : List Bool}, cs.length = ds.length →
    pressedAfter (pre ++ ds) (changes pre.length (List.zipWith (fun d r => if r = d then none else some r) ds cs)) = some (pre ++ cs)
  | [], [], pre, _ => rfl
  | d :: ds, c :: cs, pre, hl => by
    have hl : cs.length = ds.length := by simpa using hl
    have ih := pressedAfter_changes (pre := pre ++ [c]) hl
    rw [List.length_append, List.length_singleton, List.append_assoc, List.append_assoc, List.singleton_append, List.singleton_append] at ih
    rw [List.zipWith_cons_cons]
    by_cases h : c = d
    · rw [if_pos h]
      simp only [changes]
      rw [← h]; exact ih
    · rw [if_neg h]
      simp only [changes, pressedAfter]
      have h1 : (pre ++ d :: ds)[(cEvent pre.length c).value]? = some (decide ((cEvent pre.length c).type ≠ .press)) := by
        show (pre ++ d :: ds)[pre.length]? = _
        rw [List.getElem?_append_right (Nat.le_refl _), Nat.sub_self]
        cases c <;> cases d <;> simp_all [cEvent]
      have h2 : (pre ++ d :: ds).set (cEvent pre.length c).value (decide ((cEvent pre.length c).type = .press)) = pre ++ c :: ds := by
        show (pre ++ d :: ds).set pre.length _ = _
        rw [List.set_append_right _ _ (Nat.le_refl _), Nat.sub_self, List.set_cons_zero]
        cases c <;> simp [cEvent]
      rw [if_pos h1, h2]
      exact ih

theorem replay_register : ∀ {es : List (Option Bool)} {i : Nat} {km km' : KM R Ev Ctx PKS KS} (r : CApi.HidReport),
    register C n i km es = .ok km' → replay C n km r ((changes i es).map .event) = .ok (km', [])
  | [], _, _, _, _, h => by cases h; rfl
  | none :: es, i, km, km', r, h => replay_register (es := es) r h
  | some b :: es, i, km, km', r, h => by
    simp only [register] at h
    obtain ⟨km1, e1, h⟩ := Res.bind_eq_ok.1 h
    simp only [changes, List.map_cons, replay, e1, Res.ok_bind]
    exact replay_register r h

theorem eventsOf_events (es : List CApi.CEvent) : eventsOf (es.map .event) = es ∧ elapsed (es.map .event) = 0 := by
  induction es with
  | nil => exact ⟨rfl, rfl⟩
  | cons e es ih => exact ⟨by simp [eventsOf, ih.1], by simp [elapsed, ih.2]⟩

theorem deltaMs_le (now before : Nat) : deltaMs now before * 12 ≤ 8 * (now - before) := by
  unfold deltaMs
  have h1 : (now - before) % u32Size ≤ now - before := Nat.mod_le _ _
  have h2 : (now - before) % u32Size * 625 % u32Size ≤ (now - before) % u32Size * 625 := Nat.mod_le _ _
  have h3 := Nat.div_mul_le_self ((now - before) % u32Size * 625 % u32Size) 1000
  omega

/-- The calls of the loop in `KEYBOARD_SCAN_EVT`. -/
theorem replay_registerAfter : ∀ {es : List (Option Bool)} {i : Nat} {s s' : State R Ev Ctx PKS KS} {next next' : Nat},
    registerAfter C n i s next es = .ok (s', next') →
    ∃ cs rs, replay C n s.km s.report cs = .ok (s'.km, rs) ∧ s'.made = s.made ++ rs ∧ (s.report :: rs).getLast? = some s'.report ∧
      eventsOf cs = changes i es ∧
      ∀ base ≤ s.updated, s.updated ≤ s.clock → ∃ base' ≤ s'.updated, base ≤ base' ∧ s'.updated ≤ s.clock ∧ elapsed cs * 12 ≤ 8 * (base' - base)
  | [], _, s, s', _, _, h => by
    cases h
    exact ⟨[], [], rfl, by simp, rfl, rfl, fun base hb hu => ⟨base, hb, Nat.le_refl _, hu, by simp [elapsed]⟩⟩
  | none :: es, i, s, s', _, _, h => replay_registerAfter (es := es) h
  | some b :: es, i, s, s', next, next', h => by
    simp only [registerAfter] at h
    obtain ⟨⟨km, r, nx⟩, e1, h⟩ := Res.bind_eq_ok.1 h
    obtain ⟨cs, rs, h1, h2, h3, h4, h5⟩ := replay_registerAfter (es := es) h
    refine ⟨.after (deltaMs s.clock s.updated) (cEvent i b) :: cs, r :: rs, ?_, ?_, ?_, ?_, fun base hb hu => ?_⟩
    · simp only [replay, e1, Res.ok_bind]
      have h1 : replay C n km r cs = .ok (s'.km, rs) := h1
      rw [h1]; rfl
    · rw [h2]; simp [State.make]
    · rw [List.getLast?_cons_cons]; exact h3
    · simp only [eventsOf, changes, h4]
    · obtain ⟨base', g1, g2, g3, g4⟩ := h5 s.clock (Nat.le_refl _) (Nat.le_refl _)
      have hd := deltaMs_le s.clock s.updated
      refine ⟨base', g1, Nat.le_trans (Nat.le_trans hb hu) g2, g3, ?_⟩
      simp only [elapsed]
      have : s.clock ≤ base' := g2
      omega

/-- What the keymap has been told. -/
structure Says (C : Cfg R Ev Ctx PKS KS) (n count : Nat) (km : KM R Ev Ctx PKS KS) (s : State R Ev Ctx PKS KS) (cs : List Call) (base : Nat) : Prop where
  closed : s.closed.length = count
  debounced : s.matrix.debounced.length = count
  replays : replay C n (km.setMsPerTick 8) zero cs = .ok (s.km, s.made)
  report : (zero :: s.made).getLast? = some s.report
  events : pressedAfter (List.replicate count false) (eventsOf cs) = some s.matrix.debounced
  time : elapsed cs * 12 ≤ 8 * base
  le : base ≤ s.updated
  updated : s.updated ≤ s.clock
  timer : ∀ d, (Task.tick, d) ∈ s.timers → base + 12 ≤ d
  tick : .tick ∈ s.events → s.pc = .idle → base + 12 ≤ s.clock

variable {count : Nat} {km : KM R Ev Ctx PKS KS} {s s' : State R Ev Ctx PKS KS} {cs : List Call} {base : Nat}

theorem Says.same (h : Says C n count km s cs base) (h1 : s'.closed = s.closed) (h2 : s'.matrix = s.matrix) (h3 : s'.km = s.km)
    (h4 : s'.made = s.made) (h5 : s'.report = s.report) (h6 : s'.updated = s.updated) (h7 : s.clock ≤ s'.clock)
    (h8 : ∀ d, (Task.tick, d) ∈ s'.timers → (Task.tick, d) ∈ s.timers)
    (h9 : .tick ∈ s'.events → s'.pc = .idle → .tick ∈ s.events ∧ s.pc = .idle) : Says C n count km s' cs base where
  closed := h1 ▸ h.closed
  debounced := h2 ▸ h.debounced
  replays := by rw [h3, h4]; exact h.replays
  report := by rw [h4, h5]; exact h.report
  events := by rw [h2]; exact h.events
  time := h.time
  le := h6 ▸ h.le
  updated := by rw [h6]; exact Nat.le_trans h.updated h7
  timer := fun d hd => h.timer d (h8 d hd)
  tick := fun a b => Nat.le_trans (h.tick (h9 a b).1 (h9 a b).2) h7

/-- More calls. -/
theorem Says.more (h : Says C n count km s cs base) {ds : List Call} {rs : List CApi.HidReport} {base' : Nat}
    (h1 : s'.closed = s.closed) (h2 : s'.matrix.debounced.length = count) (h3 : replay C n s.km s.report ds = .ok (s'.km, rs))
    (h4 : s'.made = s.made ++ rs) (h5 : (s.report :: rs).getLast? = some s'.report)
    (h6 : pressedAfter s.matrix.debounced (eventsOf ds) = some s'.matrix.debounced)
    (h7 : base ≤ base') (h8 : elapsed ds * 12 ≤ 8 * (base' - base)) (h9 : base' ≤ s'.updated) (h10 : s'.updated ≤ s'.clock)
    (h11 : ∀ d, (Task.tick, d) ∈ s'.timers → base' + 12 ≤ d) (h12 : .tick ∈ s'.events → s'.pc = .idle → base' + 12 ≤ s'.clock) :
    Says C n count km s' (cs ++ ds) base' where
  closed := h1 ▸ h.closed
  debounced := h2
  replays := by rw [h4]; exact replay_append h.replays h.report h3
  report := by rw [h4]; exact getLast?_cons_append h.report h5
  events := by rw [eventsOf_append, pressedAfter_append h.events, h6]
  time := by have := h.time; rw [elapsed_append]; omega
  le := h9
  updated := h10
  timer := h11
  tick := h12

theorem scan_changes (h : Says C n count km s cs base) :
    pressedAfter s.matrix.debounced (changes 0 (s.matrix.scan s.closed).2) = some s.closed ∧
    (s.matrix.scan s.closed).1.debounced = s.closed := by
  have hl : s.closed.length = s.matrix.debounced.length := h.closed.trans h.debounced.symm
  constructor
  · rw [Firmware.C54_changes _ _ hl]
    exact pressedAfter_changes (pre := []) hl
  · exact (Firmware.scanLoop58_spec s.matrix.debounced s.closed s.matrix.pressed hl).1

theorem says_onScan (h : Says C n count km s cs base) (hp : At .scan s) (he : .scan ∈ s.events) (e : s.onScan C n = .ok s') :
    ∃ cs' base', Says C n count km s' cs' base' := by
  have hat := at_onScan hp he e
  obtain ⟨f1, f2, f3, f4, f5, f6⟩ := onScan_frame e
  obtain ⟨g1, g2⟩ := scan_changes h
  simp only [State.onScan] at e
  obtain ⟨⟨s1, next⟩, e1, e⟩ := Res.bind_eq_ok.1 e
  obtain ⟨ds, rs, x1, x2, x3, x4, x5⟩ := replay_registerAfter e1
  obtain ⟨base', y1, y2, y3, y4⟩ := x5 base h.le h.updated
  have hs' : s'.km = s1.km ∧ s'.made = s1.made ∧ s'.report = s1.report ∧ s'.updated = s1.updated := by
    rw [← Res.ok.inj e]
    simp only
    generalize hx : (State.start _ Task.tick 12) = x
    obtain ⟨ts, hc, _⟩ := compare_frame x
    rw [hc]
    subst hx
    split <;> exact ⟨rfl, rfl, rfl, rfl⟩
  obtain ⟨z1, z2, z3, z4⟩ := hs'
  refine ⟨cs ++ ds, base', h.more f2 (by rw [f1, g2]; exact h.closed) (z1 ▸ x1) (z2 ▸ x2) (z3 ▸ x3) ?_ y2 y4 (z4 ▸ y1) (z4 ▸ f3 ▸ y3)
    (fun d hd => ?_) (fun ht _ => ?_)⟩
  · rw [x4, f1, g2]; exact g1
  · have y3 : s1.updated ≤ s.clock := y3
    rw [f5 d hd]; omega
  · exact absurd (Or.inl ((f6 _).1 ht).1) hp.2.2.2.2.2.2

theorem says_onTimeout (h : Says C n count km s cs base) (hp : s.pc = .idle) (e : s.onTimeout C n = .ok s') :
    ∃ cs' base', Says C n count km s' cs' base' := by
  obtain ⟨f1, f2, f3, f4⟩ := onTimeout_frame e
  have hsame := same_onTimeout e
  simp only [State.onTimeout] at e
  obtain ⟨⟨km', r, next⟩, e1, e⟩ := Res.bind_eq_ok.1 e
  have hs' : s'.km = km' ∧ s'.made = s.made ++ [r] ∧ s'.report = r ∧ s'.updated = s.clock := by
    rw [← Res.ok.inj e]
    simp only
    have key : ∀ x : State R Ev Ctx PKS KS, x.km = km' → x.made = s.made ++ [r] → x.report = r → x.updated = s.clock →
        (x.compare.done .timeout).km = km' ∧ (x.compare.done .timeout).made = s.made ++ [r] ∧ (x.compare.done .timeout).report = r ∧
        (x.compare.done .timeout).updated = s.clock := by
      intro x h1 h2 h3 h4
      obtain ⟨ts, hc, _⟩ := compare_frame x
      rw [hc]
      exact ⟨h1, h2, h3, h4⟩
    apply key <;> split <;> rfl
  obtain ⟨z1, z2, z3, z4⟩ := hs'
  refine ⟨cs ++ [.timeout], base, h.more f2 (by rw [f1]; exact h.debounced) (rs := [r]) ?_ z2 (by rw [z3]; rfl) ?_ (Nat.le_refl _) (by simp [elapsed])
    (by rw [z4]; exact Nat.le_trans h.le h.updated) (by rw [z4, f3]; exact Nat.le_refl _)
    (fun d hd => h.timer d ((hsame.timers .tick d (by simp)).1 hd))
    (fun ht _ => by rw [f3]; exact h.tick ((f4 _).1 ht).1 hp)⟩
  · simp only [replay, e1, Res.ok_bind, Res.pure_eq, z1]
  · rw [f1]; rfl

theorem says_onTick (h : Says C n count km s cs base) (hp : At .tick s) (he : .tick ∈ s.events) (e : s.onTick C n = .ok s') :
    ∃ cs' base', Says C n count km s' cs' base' := by
  have hat := at_onTick hp he e
  obtain ⟨f1, f2, f3, f4⟩ := onTick_frame e
  obtain ⟨g1, g2⟩ := scan_changes h
  have hb := h.tick he hp.2.2.1
  simp only [State.onTick] at e
  obtain ⟨km1, e1, e⟩ := Res.bind_eq_ok.1 e
  obtain ⟨⟨km', r⟩, e2, e⟩ := Res.bind_eq_ok.1 e
  simp only at e
  have hs' : s'.km = km' ∧ s'.made = s.made ++ [r] ∧ s'.report = r ∧ s'.updated = s.clock := by
    split at e
    · rw [← Res.ok.inj e]
      generalize hx : (State.start _ Task.tick 12) = x
      obtain ⟨ts, hc, _⟩ := compare_frame x
      rw [hc]
      subst hx
      exact ⟨rfl, rfl, rfl, rfl⟩
    · rw [← Res.ok.inj e]
      exact ⟨rfl, rfl, rfl, rfl⟩
  obtain ⟨z1, z2, z3, z4⟩ := hs'
  have hev : eventsOf ((changes 0 (s.matrix.scan s.closed).2).map Call.event ++ [.tick]) = changes 0 (s.matrix.scan s.closed).2 := by
    rw [eventsOf_append, (eventsOf_events _).1]; simp [eventsOf]
  have hel : elapsed ((changes 0 (s.matrix.scan s.closed).2).map Call.event ++ [.tick]) = 8 := by
    rw [elapsed_append, (eventsOf_events _).2]; simp [elapsed]
  refine ⟨cs ++ ((changes 0 (s.matrix.scan s.closed).2).map .event ++ [.tick]), s.clock,
    h.more f2 (by rw [f1, g2]; exact h.closed) (rs := [r]) ?_ z2 (by rw [z3]; rfl) ?_ (by omega) (by rw [hel]; omega)
      (by rw [z4]; exact Nat.le_refl _) (by rw [z4, f3]; exact Nat.le_refl _) (fun d hd => ?_) (fun ht hpc => ?_)⟩
  · have h1 := replay_register s.report e1
    have h2 : replay C n km1 s.report [.tick] = .ok (s'.km, [r]) := by simp only [replay, e2, Res.ok_bind, Res.pure_eq, z1]
    exact replay_append h1 rfl h2
  · rw [hev, f1, g2]; exact g1
  · rcases f4 with ⟨_, _, g3⟩ | ⟨g, _⟩
    · rw [g3 d hd]; exact Nat.le_refl _
    · exact absurd ⟨he, d, (g _ _).1 hd⟩ hp.2.2.2.2.2.2
  · rcases hat with hat | hat
    · exfalso
      refine hat.2.2.2.2.2.2 ⟨ht, ?_⟩
      split at e
      · have hc := Same.compare (State.start { ({ s with matrix := (s.matrix.scan s.closed).1 }).make km' r with updated := s.clock } .tick 12)
        rw [← Res.ok.inj e]
        exact ⟨s.clock + 12, (hc.timers .tick _ (by simp)).2 (by simp [State.start, State.make])⟩
      · rw [← Res.ok.inj e] at hpc; cases hpc
    · exact absurd (hat.2.2.1.symm.trans hpc) (by simp)

theorem says_step {p : Phase} {i : Input} (h : Says C n count km s cs base) (hp : At p s) (hi : ∀ c, i = .move c → c.length = count)
    (e : s.step C n row rows i = .ok s') : ∃ cs' base', Says C n count km s' cs' base' := by
  cases i with
  | wait t => cases e; exact ⟨cs, base, h.same rfl rfl rfl rfl rfl rfl (Nat.le_add_right _ _) (fun _ => id) fun a b => ⟨a, b⟩⟩
  | expire t =>
    simp only [State.step] at e
    split at e
    · next d hf =>
      split at e
      · next hd =>
        have h1 := List.mem_of_find?_eq_some hf
        have h2 := List.find?_some hf
        simp only [decide_eq_true_eq] at h2
        rw [h2] at h1
        cases e
        refine ⟨cs, base, { h with timer := fun d hd => h.timer d (List.mem_filter.1 hd).1, tick := fun ht hpc => ?_ }⟩
        have ht' : t = .tick ∨ .tick ∈ s.events := by
          simp only [State.set] at ht
          split at ht
          · exact Or.inr ht
          · rcases List.mem_cons.1 ht with h | h
            · exact Or.inl h.symm
            · exact Or.inr h
        rcases ht' with rfl | ht'
        · exact Nat.le_trans (h.timer d h1) hd
        · exact h.tick ht' hpc
      · cases e; exact ⟨cs, base, h⟩
    · cases e; exact ⟨cs, base, h⟩
  | move c =>
    have hc := hi c rfl
    simp only [State.step] at e
    split at e
    · cases e
      refine ⟨cs, base, { h with closed := hc, tick := fun ht hpc => ?_ }⟩
      refine h.tick ?_ hpc
      simp only [State.interrupt, State.set] at ht
      split at ht
      · exact ht
      · rcases List.mem_cons.1 ht with h | h
        · cases h
        · exact h
    · cases e
      exact ⟨cs, base, { h with closed := hc }⟩
  | process ok =>
    simp only [State.step, State.process] at e
    split at e
    · cases e
      obtain ⟨ts, hc, hts⟩ := compare_frame ({ s with pc := .idle, irq := true } : State R Ev Ctx PKS KS)
      unfold State.armed
      rw [hc]
      exact ⟨cs, base, h.same rfl rfl rfl rfl rfl rfl (Nat.le_refl _) (fun d hd => (hts .tick d (by simp) (by simp) (by simp)).1 hd)
        fun a _ => absurd (mem_events_done.1 a).2 (by simp)⟩
    · next hpc =>
      have hidle : s.pc = .idle := by cases hx : s.pc with
        | idle => rfl
        | arming => exact absurd hx hpc
      split at e
      · cases e
        refine ⟨cs, base, h.same rfl rfl rfl rfl rfl rfl (Nat.le_refl _) (fun d hd => ?_) fun a b => ⟨(mem_events_done.1 a).1, b⟩⟩
        simpa [State.onWake, State.start, State.done] using hd
      · next hw =>
        split at e
        · next hs =>
          have hscan : At .scan s := by
            cases p with
            | scan => exact hp
            | waking => exact absurd hp.2.2.2.1 hw
            | asleep => exact absurd (Or.inl hs) hp.2.2.2.2.1
            | tick => exact absurd (Or.inl hs) hp.2.2.2.2.1
            | arming => exact absurd (Or.inl hs) hp.2.2.2.2.1
          exact says_onScan h hscan hs e
        · split at e
          · exact says_onTimeout h hidle e
          · split at e
            · cases e
              refine ⟨cs, base, h.same ?_ ?_ ?_ ?_ ?_ ?_ ?_ ?_ ?_⟩ <;> cases ok <;>
                first | rfl | exact Nat.le_refl _ | exact fun _ => id | exact fun a b => ⟨(mem_events_done.1 a).1, b⟩
            · split at e
              · cases e
                refine ⟨cs, base, h.same ?_ ?_ ?_ ?_ ?_ ?_ ?_ ?_ ?_⟩ <;> cases ok <;>
                  first | rfl | exact Nat.le_refl _ | exact fun _ => id | exact fun a b => ⟨(mem_events_done.1 a).1, b⟩
              · split at e
                · cases e
                  refine ⟨cs, base, h.same ?_ ?_ ?_ ?_ ?_ ?_ ?_ ?_ ?_⟩ <;> cases ok <;>
                    first | rfl | exact Nat.le_refl _ | exact fun _ => id | exact fun a b => ⟨(mem_events_done.1 a).1, b⟩
                · split at e
                  · next ht =>
                    have htick : At .tick s := by
                      cases p with
                      | scan => exact absurd (Or.inl ht) hp.2.2.2.2.2.2
                      | waking => exact absurd (Or.inl ht) hp.2.2.2.2.2.2
                      | asleep => exact absurd (Or.inl ht) hp.2.2.2.2.2
                      | tick => exact hp
                      | arming => exact absurd hp.2.2.1 hpc
                    exact says_onTick h htick ht e
                  · cases e; exact ⟨cs, base, h⟩

theorem says_run {is : List Input} : ∀ {s : State R Ev Ctx PKS KS} {cs : List Call} {base : Nat} {p : Phase}, Says C n count km s cs base → At p s →
    (∀ c, Input.move c ∈ is → c.length = count) → s.run C n row rows is = .ok s' → ∃ cs' base', Says C n count km s' cs' base' := by
  induction is with
  | nil => intro s cs base p h _ _ e; cases e; exact ⟨cs, base, h⟩
  | cons i is ih =>
    intro s cs base p h hp hm e
    simp only [State.run] at e
    obtain ⟨s1, e1, e⟩ := Res.bind_eq_ok.1 e
    obtain ⟨cs1, base1, h1⟩ := says_step h hp (fun c hc => hm c (hc ▸ List.mem_cons_self)) e1
    obtain ⟨p1, hp1⟩ := at_step hp e1
    exact ih h1 hp1 (fun c hc => hm c (List.mem_cons_of_mem _ hc)) e

/-- C74: whatever happens, the keymap is told of every change of a switch the scans see exactly once, the reports are those it makes, and its
time does not run ahead by more than one part in 15 (8 ms for 12 units of 0.625 ms), apart from the calls that have it skip to its next event. -/
theorem C74_calls_partial (count : Nat) (km : KM R Ev Ctx PKS KS) (is : List Input) (s : State R Ev Ctx PKS KS)
    (hl : ∀ c, Input.move c ∈ is → c.length = count) (h : (State.new count km).run C n row rows is = .ok s) :
    ∃ calls, replay C n (km.setMsPerTick 8) zero calls = .ok (s.km, s.made) ∧
      pressedAfter (List.replicate count false) (eventsOf calls) = some s.matrix.debounced ∧ elapsed calls * 12 ≤ 8 * s.clock := by
  have h0 : Says C n count km (State.new count km) [] 0 :=
    ⟨by simp [State.new], by simp [State.new], rfl, rfl, rfl, by simp [elapsed], Nat.zero_le _, Nat.zero_le _, fun d hd => (by cases hd), fun hd => (by cases hd)⟩
  obtain ⟨cs, base, hs⟩ := says_run h0 (at_new count km) hl h
  refine ⟨cs, hs.replays, hs.events, ?_⟩
  have := hs.time
  have := hs.le
  have := hs.updated
  omega

end Verif.Ble
