import Verif.Lemmas.BleKeyboard

/-!
# The calls a ch58x keyboard makes of a keymap of plain keys and layer keys return
-/

namespace Verif.Ble

open Verif.Keyboard (Taken start HeldOk heldOk_foldl heldOk_start AtMostSixteen Within Proper Has press_same update_ok)
open Verif.Board (Queued Entry Cell)

variable {K : Comp.Keys} {refs : List Comp.Ref} {S : Search} {layout : List Entry} {n : Nat}

section

variable {c : Comp.Config} {km : Comp.CKM} {t count : Nat} {m : Queued} {evs : List InputEvent}

theorem Keeps.takes (hcount : count ≤ layout.length) {rest xs : List InputEvent} {x : InputEvent} (h : Keeps K layout c.layerCount (start c) km t m evs)
    (h16 : AtMostSixteen layout (start c) (evs ++ rest)) (hx : m.queue ++ rest = x :: xs) (he : Within count x) : m.board.takes layout x = true := by
  obtain ⟨tk, h1, h2⟩ := h.taken
  obtain ⟨i, hi, rfl | rfl⟩ := he
  · cases hh : m.board.holds i with
    | true => simp [Board.State.takes, hh]
    | false =>
      have := h16 (tk ++ [.press i]) ⟨xs, by rw [← h2, List.append_assoc, List.append_assoc, hx]; rfl⟩
      rw [List.foldl_append, ← h1] at this
      simp only [List.foldl_cons, List.foldl_nil, Board.State.input, hh, Bool.false_eq_true, if_false] at this
      rw [List.getElem?_eq_getElem (by omega)] at this
      simp only [press_same, List.length_append, List.length_singleton] at this
      simp [Board.State.takes, hh]
      omega
  · rfl

theorem Keeps.queue_within (h : Keeps K layout c.layerCount (start c) km t m evs) (hw : ∀ e ∈ evs, Within count e) : ∀ e ∈ m.queue, Within count e := by
  obtain ⟨tk, h1, h2⟩ := h.taken
  exact fun e he => hw e (by rw [← h2]; simp [he])

/-- A tick. -/
theorem Keeps.tick_ok (hp : Comp.Plain K refs c layout) (hc : count ≤ layout.length) (h : Keeps K layout c.layerCount (start c) km t m evs)
    (hw : ∀ e ∈ evs, Within count e) (h16 : AtMostSixteen layout (start c) evs) (ht : t + 8 < u32Size) :
    ∃ km' m', Verif.tick ⟨Comp.system K, refs, S⟩ (n + 2) km = .ok km' ∧ Keeps K layout c.layerCount (start c) km' (t + 8) m' evs ∧ m'.queue.length ≤ m.queue.length := by
  have key := h.sim.tick (S := S) (n := n) hp.layoutEq hp.fits hp.size ht
  have hsome : ∃ m2, m.tick layout = some m2 := by
    simp only [Queued.tick]
    split
    · next hc' =>
      cases hq : m.queue with
      | nil => exact absurd hq hc'.2
      | cons x xs =>
        simp only [Queued.take]
        rw [if_pos (h.takes hc (rest := []) (by simpa using h16) (by simpa using hq) (h.queue_within hw x (by rw [hq]; simp)))]
        exact ⟨_, rfl⟩
    · exact ⟨_, rfl⟩
  obtain ⟨m2, hm⟩ := hsome
  obtain ⟨km2, k1, k2⟩ := key.1 m2 hm
  obtain ⟨m3, f1, f2, f3⟩ := h.tick hp (S := S) (n := n) k1
  rw [hm] at f2; cases f2
  exact ⟨km2, m2, k1, f1, (h.taken.tick h.delay hm).2.2.1⟩

theorem Keeps.ticks_ok (hp : Comp.Plain K refs c layout) (hc : count ≤ layout.length) (hw : ∀ e ∈ evs, Within count e) (h16 : AtMostSixteen layout (start c) evs)
    {k : Nat} : ∀ {km : Comp.CKM} {t : Nat} {m : Queued}, Keeps K layout c.layerCount (start c) km t m evs → t + 8 * k < u32Size →
    ∃ km' m', Verif.ticks ⟨Comp.system K, refs, S⟩ (n + 2) k km = .ok km' ∧ Keeps K layout c.layerCount (start c) km' (t + 8 * k) m' evs ∧
      m'.queue.length ≤ m.queue.length := by
  induction k with
  | zero => intro km t m h _; exact ⟨km, m, rfl, h, Nat.le_refl _⟩
  | succ k ih =>
    intro km t m h ht
    obtain ⟨km1, m1, e1, h1, q1⟩ := h.tick_ok (S := S) (n := n) hp hc hw h16 (by omega)
    obtain ⟨km2, m2, e2, h2, q2⟩ := ih h1 (by omega)
    refine ⟨km2, m2, by simp only [Verif.ticks, e1, Res.ok_bind]; exact e2, ?_, by omega⟩
    rw [show t + 8 * (k + 1) = t + 8 + 8 * k by omega]; exact h2

theorem Keeps.tickBy_ok (hp : Comp.Plain K refs c layout) (hc : count ≤ layout.length) (hw : ∀ e ∈ evs, Within count e) (h16 : AtMostSixteen layout (start c) evs)
    {ms : Nat} (h : Keeps K layout c.layerCount (start c) km t m evs) (ht : t + ms + 8 < u32Size) :
    ∃ km' t' m', Verif.tickBy ⟨Comp.system K, refs, S⟩ (n + 2) km ms = .ok km' ∧ Keeps K layout c.layerCount (start c) km' t' m' evs ∧
      m'.queue.length ≤ m.queue.length ∧ t' ≤ t + ms + 8 := by
  have h8 : km.msPerTick = 8 := h.sim.ms
  by_cases h0 : ms = 0
  · obtain ⟨km1, m1, e1, h1, q1⟩ := h.tick_ok (S := S) (n := n) hp hc hw h16 (by omega)
    exact ⟨km1, _, m1, by simp only [Verif.tickBy]; rw [if_pos h0]; exact e1, h1, q1, by omega⟩
  · obtain ⟨km1, m1, e1, h1, q1⟩ := Keeps.ticks_ok (S := S) (n := n) (k := ms / 8) hp hc hw h16 h (by omega)
    exact ⟨km1, _, m1, by simp only [Verif.tickBy]; rw [if_neg h0, if_neg (by omega), h8]; exact e1, h1, q1, by omega⟩

/-- A key event. -/
theorem Keeps.input_ok (hp : Comp.Plain K refs c layout) (hc : count ≤ layout.length) (h : Keeps K layout c.layerCount (start c) km t m evs)
    (hw : ∀ e ∈ evs, Within count e) {ev : InputEvent} (hev : Within count ev) (h16 : AtMostSixteen layout (start c) (evs ++ [ev]))
    (hl : m.queue.length + 1 ≤ 31) :
    ∃ km' m', handleInput ⟨Comp.system K, refs, S⟩ (n + 2) km ev = .ok km' ∧ Keeps K layout c.layerCount (start c) km' t m' (evs ++ [ev]) ∧
      m'.queue.length ≤ m.queue.length + 1 := by
  have hphys : Comp.isPhysical ev = true := by obtain ⟨i, _, rfl | rfl⟩ := hev <;> rfl
  have key := h.sim.input (S := S) (n := n) hp.layoutEq hp.fits hp.size hphys
  have hsome : ∃ m1, m.input layout ev = some m1 := by
    simp only [Queued.input]
    rw [if_neg (by omega)]
    split
    · cases hq : m.queue ++ [ev] with
      | nil => simp at hq
      | cons x xs =>
        have hx : x ∈ m.queue ++ [ev] := by rw [hq]; simp
        have hxw : Within count x := by
          rcases List.mem_append.1 hx with hx | hx
          · exact h.queue_within hw x hx
          · simp only [List.mem_singleton] at hx; subst hx; exact hev
        simp only [Queued.take]
        rw [if_pos (h.takes hc (rest := [ev]) h16 hq hxw)]
        exact ⟨_, rfl⟩
    · exact ⟨_, rfl⟩
  obtain ⟨m1, hm⟩ := hsome
  obtain ⟨km1, k1, k2⟩ := key.1 m1 hm
  obtain ⟨m2, f1, f2, f3⟩ := h.input hp hphys hl (S := S) (n := n) k1
  exact ⟨km1, m2, k1, f1, f2⟩

theorem Keeps.proper (hpr : ∀ e ∈ layout, ∀ o, Has e (.out o) → Proper o) (h : Keeps K layout c.layerCount (start c) km t m evs) :
    ∀ o ∈ m.board.outputs, Proper o := by
  obtain ⟨tk, h1, h2⟩ := h.taken
  have hok : HeldOk layout m.board := by rw [h1]; exact heldOk_foldl _ (heldOk_start c)
  intro o ho
  obtain ⟨p, hp1, hp2⟩ := List.mem_filterMap.1 ho
  obtain ⟨e, he, hh⟩ := hok.has p hp1
  refine hpr e (List.mem_of_getElem? he) o ?_
  obtain ⟨i, x⟩ := p
  cases x <;> simp only [Cell.output, Option.some.injEq, reduceCtorEq] at hp2
  subst hp2
  exact hh

/-- A report, and its place in the report of the C interface. -/
theorem Keeps.report_ok (hpr : ∀ e ∈ layout, ∀ o, Has e (.out o) → Proper o) (h : Keeps K layout c.layerCount (start c) km t m evs)
    {old : CApi.HidReport} (ho : Device.Sizes old) :
    ∃ km' out r, reportOutput ⟨Comp.system K, refs, S⟩ km = .ok (km', out) ∧ old.update out = .ok r ∧ Keeps K layout c.layerCount (start c) km' t m evs ∧
      Device.Sizes r := by
  have hos : km.pressedKeys ⟨Comp.system K, refs, S⟩ = .ok m.board.outputs := Comp.pressedOutputs_held h.sim.sim.held
  have hol : m.board.outputs.length ≤ 16 := Nat.le_trans (List.length_filterMap_le _ _) h.sim.sim.len
  have hout : (km.rep.report m.board.outputs).2 = m.board.outputs.take (km.rep.report m.board.outputs).1.num := by
    simp [Reporter.report, Reporter.reportable]
  obtain ⟨rep, hrep⟩ := update_ok (outs := (km.rep.report m.board.outputs).2) (old := old)
    (fun o ho => h.proper hpr o (by rw [hout] at ho; exact List.mem_of_mem_take ho))
    (by rw [hout, List.length_take]; omega) ho
  have e : reportOutput ⟨Comp.system K, refs, S⟩ km = .ok ({ km with rep := (km.rep.report m.board.outputs).1 }, (km.rep.report m.board.outputs).2) := by
    unfold reportOutput
    rw [hos]
    rfl
  exact ⟨_, _, rep, e, hrep, (h.report e).1, Keyboard.update_size ho hrep⟩

end

/-! ## Scans -/

section

variable {c : Comp.Config} {count : Nat}

theorem changes_within {es : List (Option Bool)} : ∀ {i : Nat}, i + es.length ≤ count → ∀ e ∈ changes i es, Within count e.toInput := by
  induction es with
  | nil => intro i _ e he; cases he
  | cons x es ih =>
    intro i hl e he
    simp only [List.length_cons] at hl
    cases x with
    | none => exact ih (i := i + 1) (by omega) e he
    | some b =>
      simp only [changes, List.mem_cons] at he
      rcases he with rfl | he
      · cases b
        · exact ⟨i, by omega, .inr rfl⟩
        · exact ⟨i, by omega, .inl rfl⟩
      · exact ih (i := i + 1) (by omega) e he

theorem Keeps.register_ok (hp : Comp.Plain K refs c layout) (hc : count ≤ layout.length) {es : List (Option Bool)} :
    ∀ {i : Nat} {km : Comp.CKM} {t : Nat} {m : Queued} {evs : List CApi.CEvent}, Keeps K layout c.layerCount (start c) km t m (evs.map CApi.CEvent.toInput) →
    (∀ e ∈ evs, Within count e.toInput) → (∀ e ∈ changes i es, Within count e.toInput) →
    AtMostSixteen layout (start c) ((evs ++ changes i es).map CApi.CEvent.toInput) → m.queue.length + (changes i es).length ≤ 31 →
    ∃ km' m', Ble.register ⟨Comp.system K, refs, S⟩ (n + 2) i km es = .ok km' ∧
      Keeps K layout c.layerCount (start c) km' t m' ((evs ++ changes i es).map CApi.CEvent.toInput) := by
  induction es with
  | nil => intro i km t m evs h _ _ _ _; exact ⟨km, m, rfl, by simpa [changes] using h⟩
  | cons x es ih =>
    intro i km t m evs h hw hw' h16 hl
    cases x with
    | none => exact ih (i := i + 1) h hw hw' h16 hl
    | some v =>
      simp only [changes, List.length_cons] at hl
      have hv := hw' (cEvent i v) (by simp [changes])
      obtain ⟨km1, m1, e1, h1, q1⟩ := h.input_ok (S := S) (n := n) hp hc (by simpa using hw) hv
        (AtMostSixteen.first (ys := (changes (i + 1) es).map CApi.CEvent.toInput) (by simpa [changes] using h16)) (by omega)
      obtain ⟨km2, m2, e2, h2⟩ := ih (i := i + 1) (evs := evs ++ [cEvent i v]) (by simpa using h1)
        (by
          intro e he
          rcases List.mem_append.1 he with he | he
          · exact hw e he
          · simp only [List.mem_singleton] at he; subst he; exact hv)
        (fun e he => hw' e (by simp [changes, he])) (by simpa [changes] using h16) (by omega)
      refine ⟨km2, m2, ?_, by simpa [changes] using h2⟩
      simp only [Ble.register, CApi.registerInputEvent, e1, Res.ok_bind]
      exact e2

theorem deltaMs_self (x : Nat) : deltaMs x x = 0 := by simp [deltaMs]

theorem Keeps.registerAfter_ok (hp : Comp.Plain K refs c layout) (hpr : ∀ e ∈ layout, ∀ o, Has e (.out o) → Proper o) (hc : count ≤ layout.length)
    {es : List (Option Bool)} : ∀ {i next : Nat} {s : CState} {t : Nat} {m : Queued} {evs : List CApi.CEvent},
    Keeps K layout c.layerCount (start c) s.km t m (evs.map CApi.CEvent.toInput) → Device.Sizes s.report →
    (∀ e ∈ evs, Within count e.toInput) → (∀ e ∈ changes i es, Within count e.toInput) →
    AtMostSixteen layout (start c) ((evs ++ changes i es).map CApi.CEvent.toInput) → m.queue.length + (changes i es).length ≤ 31 →
    t + deltaMs s.clock s.updated + 8 * (changes i es).length < u32Size →
    ∃ x, Ble.registerAfter ⟨Comp.system K, refs, S⟩ (n + 2) i s next es = .ok x := by
  induction es with
  | nil => intro i next s t m evs _ _ _ _ _ _ _; exact ⟨_, rfl⟩
  | cons x es ih =>
    intro i next s t m evs h hs hw hw' h16 hl ht
    cases x with
    | none => exact ih (i := i + 1) h hs hw hw' h16 hl ht
    | some v =>
      simp only [changes, List.length_cons] at hl ht
      have hv := hw' (cEvent i v) (by simp [changes])
      have h16' : AtMostSixteen layout (start c) (evs.map CApi.CEvent.toInput ++ [(cEvent i v).toInput]) :=
        AtMostSixteen.first (ys := (changes (i + 1) es).map CApi.CEvent.toInput) (by simpa [changes] using h16)
      obtain ⟨km1, t1, m1, e1, h1, q1, b1⟩ := Keeps.tickBy_ok (S := S) (n := n) hp hc (by simpa using hw) h16'.first (ms := deltaMs s.clock s.updated) h (by omega)
      obtain ⟨km2, m2, e2, h2, q2⟩ := h1.input_ok (S := S) (n := n) hp hc (by simpa using hw) hv h16' (by omega)
      obtain ⟨km3, out, r, e3, e4, h3, z3⟩ := h2.report_ok (refs := refs) (S := S) hpr hs
      have e5 : CApi.registerInputAfterMs ⟨Comp.system K, refs, S⟩ (n + 2) s.km (deltaMs s.clock s.updated) (cEvent i v) s.report = .ok (km3, r, 0) := by
        simp only [CApi.registerInputAfterMs, handleInputAfterTime, e1, Res.ok_bind, e2, h2.next]
        rw [if_neg (by simp)]
        rw [show (pure (km2, none) : Res (Comp.CKM × Option Nat)) = .ok (km2, none) from rfl]
        simp only [e3, Res.ok_bind, e4]
        rfl
      obtain ⟨x, e6⟩ := ih (i := i + 1) (next := 0) (s := { s.make km3 r with updated := s.clock }) (evs := evs ++ [cEvent i v]) (t := t1) (m := m2)
        (show Keeps K layout c.layerCount (start c) km3 t1 m2 _ by simpa using h3) z3
        (by
          intro e he
          rcases List.mem_append.1 he with he | he
          · exact hw e he
          · simp only [List.mem_singleton] at he; subst he; exact hv)
        (fun e he => hw' e (by simp [changes, he])) (by simpa [changes] using h16) (by omega)
        (by show t1 + deltaMs s.clock s.clock + _ < _; rw [deltaMs_self]; omega)
      refine ⟨x, ?_⟩
      simp only [Ble.registerAfter, e5, Res.ok_bind]
      exact e6

end

/-! ## The program -/

section

variable {c : Comp.Config} {count : Nat} {s : CState} {t : Nat} {m : Queued} {evs : List CApi.CEvent}

theorem onTick_ok (hp : Comp.Plain K refs c layout) (hpr : ∀ e ∈ layout, ∀ o, Has e (.out o) → Proper o) (hc : count ≤ layout.length)
    (h : Core K layout c count s t m evs) (hw : ∀ e ∈ evs ++ changes 0 (s.matrix.scan s.closed).2, Within count e.toInput)
    (h16 : AtMostSixteen layout (start c) ((evs ++ changes 0 (s.matrix.scan s.closed).2).map CApi.CEvent.toInput))
    (hroom : s.km.inq.length + moved s ≤ 31) (ht : t + 8 < u32Size) :
    ∃ s', s.onTick ⟨Comp.system K, refs, S⟩ (n + 2) = .ok s' := by
  rw [h.keeps.sim.inq] at hroom
  obtain ⟨km1, m1, e1, h1⟩ := Keeps.register_ok (S := S) (n := n) hp hc h.keeps (fun e he => hw e (by simp [he])) (fun e he => hw e (by simp [he])) h16 hroom
  obtain ⟨km2, m2, e2, h2, _⟩ := h1.tick_ok (S := S) (n := n) hp hc (by
    intro e he
    obtain ⟨x, hx, rfl⟩ := List.mem_map.1 he
    exact hw x hx) h16 ht
  obtain ⟨km3, out, r, e3, e4, _, _⟩ := h2.report_ok (refs := refs) (S := S) hpr h.sizes
  have e5 : CApi.keymapTick ⟨Comp.system K, refs, S⟩ (n + 2) km1 s.report = .ok (km3, r) := by
    simp only [CApi.keymapTick, e2, Res.ok_bind, e3, e4]
    rfl
  unfold State.onTick
  simp only [e1, Res.ok_bind, e5]
  split
  · exact ⟨_, rfl⟩
  · exact ⟨_, rfl⟩

theorem onScan_ok (hp : Comp.Plain K refs c layout) (hpr : ∀ e ∈ layout, ∀ o, Has e (.out o) → Proper o) (hc : count ≤ layout.length)
    (h : Core K layout c count s t m evs) (hw : ∀ e ∈ evs ++ changes 0 (s.matrix.scan s.closed).2, Within count e.toInput)
    (h16 : AtMostSixteen layout (start c) ((evs ++ changes 0 (s.matrix.scan s.closed).2).map CApi.CEvent.toInput))
    (hroom : s.km.inq.length + moved s ≤ 31) (ht : t + deltaMs s.clock s.updated + 8 * moved s < u32Size) :
    ∃ s', s.onScan ⟨Comp.system K, refs, S⟩ (n + 2) = .ok s' := by
  rw [h.keeps.sim.inq] at hroom
  obtain ⟨⟨s1, next⟩, e1⟩ := Keeps.registerAfter_ok (S := S) (n := n) (i := 0) (next := 0) (s := { s with matrix := (s.matrix.scan s.closed).1 }) hp hpr hc h.keeps h.sizes
    (fun e he => hw e (by simp [he])) (fun e he => hw e (by simp [he])) h16 hroom ht
  unfold State.onScan
  simp only [e1, Res.ok_bind]
  exact ⟨_, rfl⟩

theorem onTimeout_ok (hpr : ∀ e ∈ layout, ∀ o, Has e (.out o) → Proper o) (h : Core K layout c count s t m evs) :
    ∃ s', s.onTimeout ⟨Comp.system K, refs, S⟩ (n + 2) = .ok s' := by
  obtain ⟨km3, out, r, e3, e4, _, _⟩ := h.keeps.report_ok (refs := refs) (S := S) hpr h.sizes
  have e5 : CApi.nextEventTimeout ⟨Comp.system K, refs, S⟩ (n + 2) s.km s.report = .ok (km3, r, 0) := by
    simp only [CApi.nextEventTimeout, tickToNext, h.keeps.next, Res.ok_bind]
    rw [show (pure (s.km, none) : Res (Comp.CKM × Option Nat)) = .ok (s.km, none) from rfl]
    simp only [e3, Res.ok_bind, e4]
    rfl
  unfold State.onTimeout
  simp only [e5, Res.ok_bind]
  exact ⟨_, rfl⟩

theorem step_ok (hp : Comp.Plain K refs c layout) (hpr : ∀ e ∈ layout, ∀ o, Has e (.out o) → Proper o) (hc : count ≤ layout.length)
    {row : Nat → Nat} {rows : Nat} {i : Input}
    (h : Core K layout c count s t m evs) (hw : ∀ e ∈ evs ++ changes 0 (s.matrix.scan s.closed).2, Within count e.toInput)
    (hi : ∀ ok, i = .process ok → AtMostSixteen layout (start c) ((evs ++ changes 0 (s.matrix.scan s.closed).2).map CApi.CEvent.toInput) ∧
      s.km.inq.length + moved s ≤ 31 ∧ t + deltaMs s.clock s.updated + 8 * (moved s + 1) < u32Size) :
    ∃ s', s.step ⟨Comp.system K, refs, S⟩ (n + 2) row rows i = .ok s' := by
  cases i with
  | wait d => exact ⟨_, rfl⟩
  | expire u =>
    simp only [State.step]
    split
    · split <;> exact ⟨_, rfl⟩
    · exact ⟨_, rfl⟩
  | move cl =>
    simp only [State.step]
    split <;> exact ⟨_, rfl⟩
  | process ok =>
    obtain ⟨h16, hroom, ht⟩ := hi ok rfl
    simp only [State.step, State.process]
    split
    · exact ⟨_, rfl⟩
    split
    · exact ⟨_, rfl⟩
    split
    · exact onScan_ok hp hpr hc h hw h16 hroom (by omega)
    split
    · exact onTimeout_ok hpr h
    split
    · exact ⟨_, rfl⟩
    split
    · exact ⟨_, rfl⟩
    split
    · exact ⟨_, rfl⟩
    split
    · exact onTick_ok hp hpr hc h hw h16 hroom (by omega)
    · exact ⟨_, rfl⟩

end

/-! ## Sixteen keys -/

section

variable {c : Comp.Config} {count : Nat}

theorem held_holds {b : Board.State} {p : Nat × Cell} (h : p ∈ b.held) : b.holds p.1 = true := by
  simp only [Board.State.holds, List.any_eq_true]
  exact ⟨p, h, by simp⟩

theorem input_press {b : Board.State} {ev : InputEvent} {i : Nat} (hw : Within count ev) (hc : count ≤ layout.length) (h : (b.input layout ev).holds i = true) :
    b.holds i = true ∨ ev = .press i := by
  obtain ⟨j, hj, rfl | rfl⟩ := hw
  · have := Keyboard.input_holds (layout := layout) b (i := j) (b := true) (by omega) i
    rw [show InputEvent.press j = Firmware.stateChanged j true from rfl, this] at h
    by_cases he : i = j
    · subst he; exact .inr rfl
    · rw [if_neg he] at h; exact .inl h
  · have := Keyboard.input_holds (layout := layout) b (i := j) (b := false) (by omega) i
    rw [show InputEvent.release j = Firmware.stateChanged j false from rfl, this] at h
    by_cases he : i = j
    · rw [if_pos he] at h; cases h
    · rw [if_neg he] at h; exact .inl h

theorem foldl_press (hc : count ≤ layout.length) {es : List InputEvent} : ∀ {b : Board.State} {i : Nat}, (∀ e ∈ es, Within count e) →
    (es.foldl (Board.State.input layout) b).holds i = true → b.holds i = true ∨ .press i ∈ es := by
  induction es with
  | nil => intro b i _ h; exact .inl h
  | cons e es ih =>
    intro b i hw h
    rcases ih (fun e he => hw e (by simp [he])) h with h | h
    · rcases input_press (hw e (by simp)) hc h with h | h
      · exact .inl h
      · subst h; exact .inr (by simp)
    · exact .inr (by simp [h])

theorem changes_press {ds : List Bool} : ∀ {cs : List Bool} {k i : Nat},
    .press i ∈ (changes k (List.zipWith (fun d r => if r = d then none else some r) ds cs)).map CApi.CEvent.toInput → k ≤ i ∧ cs[i - k]? = some true := by
  induction ds with
  | nil => intro cs k i h; cases h
  | cons d ds ih =>
    intro cs k i h
    cases cs with
    | nil => cases h
    | cons x cs =>
      rw [List.zipWith_cons_cons] at h
      have next : .press i ∈ (changes (k + 1) (List.zipWith (fun d r => if r = d then none else some r) ds cs)).map CApi.CEvent.toInput →
          k ≤ i ∧ (x :: cs)[i - k]? = some true := by
        intro h
        obtain ⟨h1, h2⟩ := ih h
        refine ⟨by omega, ?_⟩
        rw [show i - k = i - (k + 1) + 1 by omega]
        exact h2
      by_cases hx : x = d
      · rw [if_pos hx] at h
        exact next h
      · rw [if_neg hx] at h
        simp only [changes, List.map_cons, List.mem_cons] at h
        rcases h with h | h
        · cases x
          · cases h
          · injection h with h; subst h; exact ⟨Nat.le_refl _, by rw [Nat.sub_self]; rfl⟩
        · exact next h

theorem either_length : ∀ (ds cs : List Bool) (k : Nat), cs.length = ds.length → ((List.range' k ds.length).filter fun i => ds.getD (i - k) false || cs.getD (i - k) false).length =
    ((ds.zip cs).filter fun p => p.1 || p.2).length := by
  intro ds
  induction ds with
  | nil => intro cs k _; rfl
  | cons d ds ih =>
    intro cs k hl
    cases cs with
    | nil => cases hl
    | cons x cs =>
      simp only [List.length_cons, List.range'_succ, List.zip_cons_cons, List.filter_cons, Nat.sub_self, List.getD_cons_zero]
      have ih' := ih cs (k + 1) (by simpa using hl)
      have e : ((List.range' (k + 1) ds.length).filter fun i => (d :: ds).getD (i - k) false || (x :: cs).getD (i - k) false) =
          (List.range' (k + 1) ds.length).filter fun i => ds.getD (i - (k + 1)) false || cs.getD (i - (k + 1)) false := by
        apply List.filter_congr
        intro i hi
        rw [List.mem_range'_1] at hi
        rw [show i - k = i - (k + 1) + 1 by omega]
        rfl
      rw [e]
      split
      · simp only [List.length_cons]; rw [ih']
      · exact ih'

theorem sixteen_scan {s : CState} {t : Nat} {m : Queued} {evs : List CApi.CEvent} (hc : count ≤ layout.length) (h : Core K layout c count s t m evs) (hz : Sized count s)
    (hw : ∀ e ∈ evs ++ changes 0 (s.matrix.scan s.closed).2, Within count e.toInput)
    (h16 : AtMostSixteen layout (start c) (evs.map CApi.CEvent.toInput)) (hf : ((s.matrix.debounced.zip s.closed).filter fun p => p.1 || p.2).length ≤ 16) :
    AtMostSixteen layout (start c) ((evs ++ changes 0 (s.matrix.scan s.closed).2).map CApi.CEvent.toInput) := by
  intro first hfirst
  rw [List.map_append] at hfirst
  rcases List.prefix_or_prefix_of_prefix hfirst (List.prefix_append _ _) with hle | ⟨rest, rfl⟩
  · exact h16 first hle
  · have hpre : rest <+: (changes 0 (s.matrix.scan s.closed).2).map CApi.CEvent.toInput := (List.prefix_append_right_inj _).1 hfirst
    have hok : HeldOk layout ((evs.map CApi.CEvent.toInput ++ rest).foldl (Board.State.input layout) (start c)) := heldOk_foldl _ (heldOk_start c)
    have hold : ∀ i, ((evs.map CApi.CEvent.toInput).foldl (Board.State.input layout) (start c)).holds i = true → s.matrix.debounced[i]? = some true := by
      intro i
      refine (holds_pressedAfter (keys := List.replicate count false) (by simpa using hc) h.kinds ?_ h.told i).1
      intro j
      rw [List.getElem?_replicate]
      constructor
      · intro hh; cases hh
      · intro hh
        split at hh <;> cases hh
    have hin : ∀ p ∈ ((evs.map CApi.CEvent.toInput ++ rest).foldl (Board.State.input layout) (start c)).held,
        s.matrix.debounced[p.1]? = some true ∨ s.closed[p.1]? = some true := by
      intro p hp
      have := held_holds hp
      rw [List.foldl_append] at this
      rcases foldl_press hc (fun e he => by
        obtain ⟨x, hx, rfl⟩ := List.mem_map.1 (hpre.subset he)
        exact hw x (by simp [hx])) this with h1 | h1
      · exact .inl (hold _ h1)
      · refine .inr ?_
        have h2 := hpre.subset h1
        rw [Firmware.C54_changes _ _ (hz.closed.trans hz.debounced.symm)] at h2
        simpa using (changes_press h2).2
    have key := Chorded.nodup_length_le (s := (List.range count).filter fun i => s.matrix.debounced.getD i false || s.closed.getD i false) hok.nodup (by
      intro x hx
      obtain ⟨p, hp, rfl⟩ := List.mem_map.1 hx
      have := hin p hp
      rw [List.mem_filter, List.mem_range]
      rcases this with h1 | h1
      · refine ⟨?_, by simp [List.getD_eq_getElem?_getD, h1]⟩
        rw [← hz.debounced]; exact (List.getElem?_eq_some_iff.1 h1).1
      · refine ⟨?_, by simp [List.getD_eq_getElem?_getD, h1]⟩
        rw [← hz.closed]; exact (List.getElem?_eq_some_iff.1 h1).1)
    rw [List.length_map] at key
    refine Nat.le_trans key (Nat.le_trans (Nat.le_of_eq ?_) hf)
    have := either_length s.matrix.debounced s.closed 0 (hz.closed.trans hz.debounced.symm)
    rw [hz.debounced] at this
    rw [List.range_eq_range']
    simpa using this

end

end Verif.Ble
