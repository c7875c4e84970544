import Verif.Props.Automation
import Verif.Props.Sticky

/-!
# C21: no reaction schedules more than four events

`KeyEvents` has room for four (`MAX_KEY_EVENTS`); one more would panic. The context and the keys react to every
event with at most four, so that it never does.
-/

namespace Verif

theorem KeyEvents.extend_ok {E : Type} (es xs : KeyEvents E) (h : xs.length + es.length ≤ 4) : xs.extend es = .ok (xs ++ es) := by
  induction es generalizing xs with
  | nil => simp [KeyEvents.extend]
  | cons e es ih =>
    simp only [List.length_cons] at h
    have hp : KeyEvents.push xs e = .ok (xs ++ [e]) := by
      unfold KeyEvents.push pushCap maxKeyEvents
      rw [if_pos (by omega)]
    simp only [KeyEvents.extend, hp, Res.ok_bind]
    rw [ih _ (by simp; omega)]
    simp

namespace Automation

/-- The macro player never schedules too many events: if it panics, then because a macro refers to instructions
outside of the table. -/
theorem C21_automation {c : Ctx} {xs : List Execution} (h : Holds c xs) (e : Event Ev) : c.handleEvent e ≠ .panic .capacity := by
  have hidx : ∀ {α : Type} (l : List α) (i : Nat), Res.index l i ≠ .panic .capacity := by
    intro α l i; unfold Res.index; split <;> simp
  have hkev : ∀ cfg idx x, keyEventsFor cfg idx x ≠ .panic .capacity := by
    intro cfg idx x hk
    unfold keyEventsFor at hk
    rcases Res.bind_eq_panic.1 hk with hk | ⟨i, _, hk⟩
    · exact hidx _ _ hk
    · simp at hk
  have hexec : ∀ (c : Ctx) idx, c.executeHead idx ≠ .panic .capacity := by
    intro c idx hk
    unfold Ctx.executeHead at hk
    rcases Res.bind_eq_panic.1 hk with hk | ⟨head, _, hk⟩
    · exact hidx _ _ hk
    rcases Res.bind_eq_panic.1 hk with hk | ⟨es, hes, hk⟩
    · exact hkev _ _ _ hk
    have hlen : es.length ≤ 3 := by
      unfold keyEventsFor at hes
      obtain ⟨i, _, hes⟩ := Res.bind_eq_ok.1 hes
      simp only [Res.pure_eq, Res.ok.injEq] at hes
      rw [← hes]
      cases i <;> simp
    rcases Res.bind_eq_panic.1 hk with hk | ⟨head', _, hk⟩
    · unfold Execution.incr at hk
      split at hk
      · split at hk <;> simp at hk
      · simp at hk
    split at hk
    · rcases Res.bind_eq_panic.1 hk with hk | ⟨next, _, hk⟩
      · exact hidx _ _ hk
      split at hk
      · simp at hk
      · rcases Res.bind_eq_panic.1 hk with hk | ⟨_, _, hk⟩
        · unfold KeyEvents.push pushCap maxKeyEvents at hk
          rw [if_pos (by omega)] at hk
          simp at hk
        · simp at hk
    · simp at hk
  intro hk
  unfold Ctx.handleEvent at hk
  split at hk
  · split at hk
    · simp at hk
    · rcases Res.bind_eq_panic.1 hk with hk | ⟨head, _, hk⟩
      · exact hidx _ _ hk
      split at hk
      · exact hexec _ _ hk
      · simp at hk
  · rcases Res.bind_eq_panic.1 hk with hk | ⟨head, _, hk⟩
    · exact hidx _ _ hk
    split at hk
    · simp at hk
    · exact hexec _ _ hk
  · simp at hk

end Automation

namespace Comp

theorem sub_ok {E C : Type} {conv : Ev → Option E} {inj : E → Ev} {h : C → Event E → Res (C × KeyEvents E)} {c : C}
    {pke : KeyEvents Ev} {ev : Event Ev} (hh : ∀ e, ev.tryInto conv = some e → ∃ r, h c e = .ok r)
    (hl : ∀ e c' es, ev.tryInto conv = some e → h c e = .ok (c', es) → pke.length + es.length ≤ 4) :
    ∃ c' es, sub conv inj h c pke ev = .ok (c', pke ++ es) ∧
      (es = [] ∨ ∃ e es', ev.tryInto conv = some e ∧ h c e = .ok (c', es') ∧ es = KeyEvents.mapEv inj es') := by
  unfold sub
  cases ht : ev.tryInto conv with
  | none => exact ⟨c, [], by simp, .inl rfl⟩
  | some e =>
    obtain ⟨⟨c', es⟩, hr⟩ := hh e ht
    have hle := hl e c' es ht hr
    have hx := KeyEvents.extend_ok (KeyEvents.mapEv inj es) pke (by simpa [KeyEvents.mapEv] using hle)
    exact ⟨c', _, by simp [hr, hx], .inr ⟨e, es, rfl, hr, rfl⟩⟩

/-- The parts of the context, other than their events, work: the macros and the chord and layer bookkeeping do
not panic on this event (C34, C40, C28). -/
structure PartsReturn (c : Ctx) (ev : Event Ev) : Prop where
  automation : ∀ e, ev.tryInto Ev.toAutomation? = some e → ∃ r, c.automation.handleEvent e = .ok r
  chorded : ∀ e, ev.tryInto Ev.toChorded? = some e → ∃ r, c.chorded.handleEvent e = .ok r
  layered : ∀ e, ev.tryInto Ev.toLayered? = some e → ∃ r, c.layered.handleEvent e = .ok r

/-- C21: in every state a keymap can reach, the context reacts to any event with at most four events, and adding
them up never panics. -/
theorem C21_context (K : Keys) (refs : List Ref) (S : Search) (config : Config) {km : KM Ref Ev Ctx PKS KS}
    (h : Reachable ⟨system K, refs, S⟩ (Ctx.fromConfig config) km) (ev : Event Ev) (hp : PartsReturn km.ctx ev) :
    ∃ c' es, km.ctx.handleEvent ev = .ok (c', es) ∧ es.length ≤ 4 := by
  obtain ⟨xs, hA⟩ := Automation.C35_reachable K refs S config h
  have h4 : km.ctx.sticky.active.length ≤ 4 := by
    refine sticky_reachable K refs S (fun c => c.active.length ≤ 4) ?_ (by simp [Ctx.fromConfig, Sticky.Ctx.fromConfig]) h
    intro c e c' es hc he
    obtain ⟨c1, out, h1, h2, _⟩ := Sticky.handleEvent_spec c hc e
    rw [h1] at he
    simp only [Res.ok.injEq, Prod.mk.injEq] at he
    rw [← he.1]; exact h2
  generalize km.ctx = c at *
  -- which parts react with events
  have hsl : ∀ e c' es, ev.tryInto Ev.toSticky? = some e → c.sticky.handleEvent e = .ok (c', es) →
      es.length ≤ 4 ∧ (es ≠ [] → ∃ i, ev = .input i) := by
    intro e c' es ht he
    obtain ⟨c1, out, h1, _, _, h3⟩ := Sticky.handleEvent_spec c.sticky h4 e
    rw [h1] at he
    simp only [Res.ok.injEq, Prod.mk.injEq] at he
    obtain ⟨rfl, rfl⟩ := he
    rcases h3 with ⟨rfl, _, _, _, h5, _⟩ | ⟨rfl, _⟩ | ⟨rfl, _⟩
    · refine ⟨by simpa [Sticky.releases] using h4, fun _ => ?_⟩
      cases ev with
      | input i => exact ⟨i, rfl⟩
      | key k x =>
        simp only [Event.tryInto, Option.map_eq_some_iff] at ht
        obtain ⟨_, _, rfl⟩ := ht
        rcases h5 with h | ⟨_, h⟩ <;> simp at h
      | keymap k =>
        simp only [Event.tryInto, Option.some.injEq] at ht
        subst ht
        rcases h5 with h | ⟨_, h⟩ <;> simp at h
    · exact ⟨by simp, by simp⟩
    · exact ⟨by simp, by simp⟩
  have hal : ∀ e c' es, ev.tryInto Ev.toAutomation? = some e → c.automation.handleEvent e = .ok (c', es) →
      es.length ≤ 4 ∧ (es ≠ [] → ∃ i x, ev = .key i (.automation x)) := by
    intro e c' es ht he
    refine ⟨(Automation.handleEvent_spec hA he).2.1, fun hne => ?_⟩
    cases ev with
    | key k x =>
      simp only [Event.tryInto, Option.map_eq_some_iff] at ht
      obtain ⟨y, hy, _⟩ := ht
      cases x <;> simp only [Ev.toAutomation?, reduceCtorEq, Option.some.injEq] at hy
      exact ⟨k, _, rfl⟩
    | input i =>
      simp only [Event.tryInto, Option.some.injEq] at ht
      subst ht
      simp only [Automation.Ctx.handleEvent, Res.ok.injEq, Prod.mk.injEq] at he
      exact absurd he.2.symm hne
    | keymap i =>
      simp only [Event.tryInto, Option.some.injEq] at ht
      subst ht
      simp only [Automation.Ctx.handleEvent, Res.ok.injEq, Prod.mk.injEq] at he
      exact absurd he.2.symm hne
  have hcl : ∀ e, ev.tryInto Ev.toCapsWord? = some e →
      (c.capsWord.handleEvent e).2.length ≤ 1 ∧
      ((c.capsWord.handleEvent e).2 ≠ [] → (∀ i, ev ≠ .input i) ∧ ∀ i x, ev ≠ .key i (.automation x)) := by
    intro e ht
    refine ⟨?_, fun hne => ?_⟩
    · unfold CapsWord.Ctx.handleEvent
      split
      · split
        · split <;> simp
        · simp
      · simp
      · simp
      · simp
    · cases ev with
      | input i =>
        simp only [Event.tryInto, Option.some.injEq] at ht
        subst ht
        simp [CapsWord.Ctx.handleEvent] at hne
      | keymap i => simp
      | key k x =>
        refine ⟨by simp, fun i y hxy => ?_⟩
        simp only [Event.key.injEq] at hxy
        obtain ⟨rfl, rfl⟩ := hxy
        simp [Event.tryInto, Ev.toCapsWord?] at ht
  unfold Ctx.handleEvent
  obtain ⟨a', p1, ha, ha2⟩ := sub_ok (inj := .automation) (pke := []) hp.automation
    (fun e c' es ht he => by simpa using (hal e c' es ht he).1)
  rw [ha]
  simp only [Res.ok_bind, List.nil_append]
  have hp1 : p1.length ≤ 4 ∧ (p1 ≠ [] → ∃ i x, ev = .key i (.automation x)) := by
    rcases ha2 with rfl | ⟨e, es', ht, he, rfl⟩
    · simp
    · have := hal e _ es' ht he
      exact ⟨by simpa [KeyEvents.mapEv] using this.1, fun hne => this.2 (by rintro rfl; simp [KeyEvents.mapEv] at hne)⟩
  obtain ⟨w', p2, hw, hw2⟩ := sub_ok (conv := Ev.toCapsWord?) (inj := .capsWord) (pke := p1) (ev := ev) (c := c.capsWord)
    (h := fun c e => .ok (c.handleEvent e)) (fun e _ => ⟨_, rfl⟩)
    (fun e c' es ht he => by
      have := hcl e ht
      simp only [Res.ok.injEq] at he
      rw [he] at this
      by_cases hes : es = []
      · subst hes; simpa using hp1.1
      · have h1 : p1 = [] := by
          by_cases hp1n : p1 = []
          · exact hp1n
          · obtain ⟨i, x, hx⟩ := hp1.2 hp1n
            exact absurd hx ((this.2 hes).2 i x)
        subst h1
        have := this.1
        simp at this ⊢
        omega)
  rw [hw]
  simp only [Res.ok_bind]
  have hp2 : (p1 ++ p2).length ≤ 4 ∧ (p1 ++ p2 ≠ [] → ∀ i, ev ≠ .input i) := by
    rcases hw2 with rfl | ⟨e, es', ht, he, rfl⟩
    · simp only [List.append_nil]
      refine ⟨hp1.1, fun hne i hi => ?_⟩
      obtain ⟨j, x, hx⟩ := hp1.2 hne
      rw [hi] at hx; simp at hx
    · have := hcl e ht
      simp only [Res.ok.injEq] at he
      rw [he] at this
      by_cases hes : es' = []
      · subst hes
        simp only [KeyEvents.mapEv, List.map_nil, List.append_nil]
        refine ⟨hp1.1, fun hne i hi => ?_⟩
        obtain ⟨j, x, hx⟩ := hp1.2 hne
        rw [hi] at hx; simp at hx
      · have h1 : p1 = [] := by
          by_cases hp1n : p1 = []
          · exact hp1n
          · obtain ⟨i, x, hx⟩ := hp1.2 hp1n
            exact absurd hx ((this.2 hes).2 i x)
        subst h1
        refine ⟨?_, fun _ => (this.2 hes).1⟩
        have := this.1
        simp [KeyEvents.mapEv] at this ⊢
        omega
  obtain ⟨d', p3, hd, hd2⟩ := sub_ok (conv := Ev.toChorded?) (inj := .chorded) (pke := p1 ++ p2) (ev := ev) (c := c.chorded)
    (h := fun c e => (·, []) <$> c.handleEvent e)
    (fun e ht => by obtain ⟨r, hr⟩ := hp.chorded e ht; exact ⟨(r, []), by simp [hr]⟩)
    (fun e c' es ht he => by
      obtain ⟨r, _, hr⟩ := Res.map_eq_ok.1 he
      simp only [Prod.mk.injEq] at hr
      rw [← hr.2]; simpa using hp2.1)
  have hp3 : p3 = [] := by
    rcases hd2 with h | ⟨e, es', _, he, rfl⟩
    · exact h
    · obtain ⟨r, _, hr⟩ := Res.map_eq_ok.1 he
      simp only [Prod.mk.injEq] at hr
      rw [← hr.2]; rfl
  subst hp3
  rw [hd]
  simp only [Res.ok_bind, List.append_nil]
  obtain ⟨l', p4, hl, hl2⟩ := sub_ok (conv := Ev.toLayered?) (inj := .layered) (pke := p1 ++ p2) (ev := ev) (c := c.layered)
    (h := fun c e => (·, []) <$> c.handleEvent e)
    (fun e ht => by obtain ⟨r, hr⟩ := hp.layered e ht; exact ⟨(r, []), by simp [hr]⟩)
    (fun e c' es ht he => by
      obtain ⟨r, _, hr⟩ := Res.map_eq_ok.1 he
      simp only [Prod.mk.injEq] at hr
      rw [← hr.2]; simpa using hp2.1)
  have hp4 : p4 = [] := by
    rcases hl2 with h | ⟨e, es', _, he, rfl⟩
    · exact h
    · obtain ⟨r, _, hr⟩ := Res.map_eq_ok.1 he
      simp only [Prod.mk.injEq] at hr
      rw [← hr.2]; rfl
  subst hp4
  rw [hl]
  simp only [Res.ok_bind, List.append_nil]
  have hroom : ∀ e c' es, ev.tryInto Ev.toSticky? = some e → c.sticky.handleEvent e = .ok (c', es) →
      (p1 ++ p2).length + es.length ≤ 4 := by
    intro e c' es ht he
    have := hsl e c' es ht he
    by_cases hes : es = []
    · subst hes; simpa using hp2.1
    · obtain ⟨i, hi⟩ := this.2 hes
      have h1 : p1 ++ p2 = [] := by
        by_cases hn : p1 ++ p2 = []
        · exact hn
        · exact absurd hi (hp2.2 hn i)
      rw [h1]; simpa using this.1
  obtain ⟨s', p5, hs, hs2⟩ := sub_ok (conv := Ev.toSticky?) (inj := .sticky) (pke := p1 ++ p2) (ev := ev) (c := c.sticky)
    (h := Sticky.Ctx.handleEvent)
    (fun e ht => by obtain ⟨c1, out, h1, _⟩ := Sticky.handleEvent_spec c.sticky h4 e; exact ⟨_, h1⟩) hroom
  rw [hs]
  refine ⟨_, _, rfl, ?_⟩
  rcases hs2 with rfl | ⟨e, es', ht, he, rfl⟩
  · simpa using hp2.1
  · have := hroom e _ es' ht he
    simp [KeyEvents.mapEv] at this ⊢
    omega

/-- C21: pressing any key schedules at most two events. -/
theorem C21_press (K : Keys) (idx : Nat) (c : Ctx) (r : Ref) {x : PKR Ref PKS KS} {es : KeyEvents Ev}
    (h : newPressedKey K idx c r = .ok (x, es)) : es.length ≤ 2 := by
  cases r with
  | automation i =>
    obtain ⟨e1, h1, h⟩ := Res.bind_eq_ok.1 h
    obtain ⟨k, _, h1⟩ := Res.bind_eq_ok.1 h1
    simp only [Res.pure_eq, Res.ok.injEq, Prod.mk.injEq] at h h1
    rw [← h.2, ← h1]; simp [KeyEvents.mapEv]
  | callback i =>
    obtain ⟨e1, h1, h⟩ := Res.bind_eq_ok.1 h
    obtain ⟨k, _, h1⟩ := Res.bind_eq_ok.1 h1
    simp only [Res.pure_eq, Res.ok.injEq, Prod.mk.injEq] at h h1
    rw [← h.2, ← h1]; simp
  | capsWord =>
    simp only [newPressedKey, Res.ok.injEq, Prod.mk.injEq] at h
    rw [← h.2]; simp [KeyEvents.mapEv, CapsWord.newPressedKey]
  | chorded r =>
    obtain ⟨⟨p, e1⟩, h1, h⟩ := Res.bind_eq_ok.1 h
    simp only [Res.pure_eq, Res.ok.injEq, Prod.mk.injEq] at h
    have : e1.length ≤ 1 := by
      cases r with
      | chorded i =>
        obtain ⟨k, _, h1⟩ := Res.bind_eq_ok.1 h1
        obtain ⟨q, _, h1⟩ := Res.bind_eq_ok.1 h1
        cases q with
        | inl q =>
          obtain ⟨n, _, h1⟩ := Res.bind_eq_ok.1 h1
          simp only [Res.pure_eq, Res.ok.injEq, Prod.mk.injEq] at h1
          rw [← h1.2]; simp
        | inr q =>
          simp only [Res.pure_eq, Res.ok.injEq, Prod.mk.injEq] at h1
          rw [← h1.2]; simp [Chorded.timeoutEvents]
      | auxiliary i =>
        obtain ⟨k, _, h1⟩ := Res.bind_eq_ok.1 h1
        obtain ⟨q, _, h1⟩ := Res.bind_eq_ok.1 h1
        cases q with
        | inl q =>
          simp only [Res.pure_eq, Res.ok.injEq, Prod.mk.injEq] at h1
          rw [← h1.2]; simp
        | inr q =>
          simp only [Res.pure_eq, Res.ok.injEq, Prod.mk.injEq] at h1
          rw [← h1.2]; simp [Chorded.timeoutEvents]
    rw [← h.2]; simp [KeyEvents.mapEv]; omega
  | consumer i => simp only [newPressedKey, Res.ok.injEq, Prod.mk.injEq] at h; rw [← h.2]; simp
  | custom i => simp only [newPressedKey, Res.ok.injEq, Prod.mk.injEq] at h; rw [← h.2]; simp
  | keyboard i => simp only [newPressedKey, Res.ok.injEq, Prod.mk.injEq] at h; rw [← h.2]; simp
  | mouse i => simp only [newPressedKey, Res.ok.injEq, Prod.mk.injEq] at h; rw [← h.2]; simp
  | layered r =>
    obtain ⟨⟨p, e1⟩, h1, h⟩ := Res.bind_eq_ok.1 h
    simp only [Res.pure_eq, Res.ok.injEq, Prod.mk.injEq] at h
    have : e1.length ≤ 1 := by
      cases r with
      | modifier i =>
        obtain ⟨k, _, h1⟩ := Res.bind_eq_ok.1 h1
        simp only [Res.pure_eq, Res.ok.injEq, Prod.mk.injEq] at h1
        rw [← h1.2]; simp
      | layered i =>
        obtain ⟨k, _, h1⟩ := Res.bind_eq_ok.1 h1
        obtain ⟨q, _, h1⟩ := Res.bind_eq_ok.1 h1
        simp only [Res.pure_eq, Res.ok.injEq, Prod.mk.injEq] at h1
        rw [← h1.2]; simp
    rw [← h.2]; simp [KeyEvents.mapEv]; omega
  | sticky i =>
    obtain ⟨b, _, h⟩ := Res.bind_eq_ok.1 h
    simp only [Res.pure_eq, Res.ok.injEq, Prod.mk.injEq] at h
    rw [← h.2]; simp
  | tapDance i =>
    simp only [newPressedKey, TapDance.newPressedKey, Res.ok.injEq, Prod.mk.injEq] at h
    rw [← h.2]; simp [KeyEvents.mapEv]
  | tapHold i =>
    obtain ⟨⟨p, e1⟩, h1, h⟩ := Res.bind_eq_ok.1 h
    simp only [Res.pure_eq, Res.ok.injEq, Prod.mk.injEq] at h
    have : e1.length ≤ 1 := by
      unfold TapHold.newPressedKey at h1
      split at h1
      · split at h1
        · simp only [Res.ok.injEq, Prod.mk.injEq] at h1
          rw [← h1.2]; simp [TapHold.newPending]
        · obtain ⟨k, _, h1⟩ := Res.bind_eq_ok.1 h1
          simp only [Res.pure_eq, Res.ok.injEq, Prod.mk.injEq] at h1
          rw [← h1.2]; simp
      · simp only [Res.ok.injEq, Prod.mk.injEq] at h1
        rw [← h1.2]; simp [TapHold.newPending]
    rw [← h.2]; simp [KeyEvents.mapEv]; omega

/-- C21: a waiting key reacts to any event with at most two events. -/
theorem C21_pending (K : Keys) (p : PKS) (idx : Nat) (c : Ctx) (r : Ref) (ev : Event Ev) {p' : PKS} {n : Option (NPK Ref)}
    {es : KeyEvents Ev} (h : updatePending K p idx c r ev = .ok (p', n, es)) : es.length ≤ 2 := by
  unfold updatePending at h
  split at h
  · split at h
    · obtain ⟨⟨p1, n1, e1⟩, h1, h⟩ := Res.bind_eq_ok.1 h
      simp only [Res.pure_eq, Res.ok.injEq, Prod.mk.injEq] at h
      rw [← h.2.2]
      simp only [KeyEvents.mapEv, List.length_map]
      unfold Chorded.sysUpdatePending at h1
      split at h1
      · obtain ⟨k, _, h1⟩ := Res.bind_eq_ok.1 h1
        obtain ⟨⟨q, res⟩, _, h1⟩ := Res.bind_eq_ok.1 h1
        cases res with
        | some res =>
          obtain ⟨m, _, h1⟩ := Res.bind_eq_ok.1 h1
          simp only [Res.pure_eq, Res.ok.injEq, Prod.mk.injEq] at h1
          rw [← h1.2.2]; simp
        | none =>
          simp only [Res.pure_eq, Res.ok.injEq, Prod.mk.injEq] at h1
          rw [← h1.2.2]; simp
      · obtain ⟨k, _, h1⟩ := Res.bind_eq_ok.1 h1
        obtain ⟨⟨q, res⟩, _, h1⟩ := Res.bind_eq_ok.1 h1
        cases res with
        | some res =>
          simp only [Res.pure_eq, Res.ok.injEq, Prod.mk.injEq] at h1
          rw [← h1.2.2]; simp
        | none =>
          simp only [Res.pure_eq, Res.ok.injEq, Prod.mk.injEq] at h1
          rw [← h1.2.2]; simp
    · simp only [Res.ok.injEq, Prod.mk.injEq] at h
      rw [← h.2.2]; simp
  · split at h
    · obtain ⟨⟨p1, n1, e1⟩, h1, h⟩ := Res.bind_eq_ok.1 h
      simp only [Res.pure_eq, Res.ok.injEq, Prod.mk.injEq] at h
      rw [← h.2.2]
      simp only [KeyEvents.mapEv, List.length_map]
      unfold TapDance.updatePending at h1
      obtain ⟨k, _, h1⟩ := Res.bind_eq_ok.1 h1
      obtain ⟨⟨q, res, e2⟩, h2, h1⟩ := Res.bind_eq_ok.1 h1
      have h3 : e2.length ≤ 2 := by
        unfold TapDance.PKS.handleEvent at h2
        grind
      have h4 : e1 = e2 := by
        cases res with
        | some res =>
          obtain ⟨m, _, h1⟩ := Res.bind_eq_ok.1 h1
          obtain ⟨m, _, h1⟩ := Res.bind_eq_ok.1 h1
          simp only [Res.pure_eq, Res.ok.injEq, Prod.mk.injEq] at h1
          exact h1.2.2.symm
        | none =>
          simp only at h1
          split at h1
          · simp at h1
          · split at h1
            · obtain ⟨m, _, h1⟩ := Res.bind_eq_ok.1 h1
              obtain ⟨m, _, h1⟩ := Res.bind_eq_ok.1 h1
              simp only [Res.pure_eq, Res.ok.injEq, Prod.mk.injEq] at h1
              exact h1.2.2.symm
            · simp only [Res.ok.injEq, Prod.mk.injEq] at h1
              exact h1.2.2.symm
      rw [h4]; exact h3
    · simp only [Res.ok.injEq, Prod.mk.injEq] at h
      rw [← h.2.2]; simp
  · split at h
    · obtain ⟨⟨p1, n1, e1⟩, h1, h⟩ := Res.bind_eq_ok.1 h
      simp only [Res.pure_eq, Res.ok.injEq, Prod.mk.injEq] at h
      rw [← h.2.2]
      simp only [KeyEvents.mapEv, List.length_map]
      unfold TapHold.updatePending at h1
      revert h1
      generalize TapHold.PKS.handleEvent _ _ _ _ = q
      obtain ⟨q, st⟩ := q
      intro h1
      cases st with
      | none =>
        simp only [Res.ok.injEq, Prod.mk.injEq] at h1
        rw [← h1.2.2]; simp
      | some st =>
        obtain ⟨k, _, h1⟩ := Res.bind_eq_ok.1 h1
        simp only [Res.pure_eq, Res.ok.injEq, Prod.mk.injEq] at h1
        rw [← h1.2.2]; simp
    · simp only [Res.ok.injEq, Prod.mk.injEq] at h
      rw [← h.2.2]; simp
  · simp at h

/-- C21: a pressed key reacts to any event with at most two events. -/
theorem C21_state (K : Keys) (ks : KS) (r : Ref) (c : Ctx) (idx : Nat) (ev : Event Ev) {ks' : KS} {es : KeyEvents Ev}
    (h : updateState K ks r c idx ev = .ok (ks', es)) : es.length ≤ 2 := by
  unfold updateState at h
  split at h
  · split at h
    · obtain ⟨e1, h1, h⟩ := Res.bind_eq_ok.1 h
      simp only [Res.pure_eq, Res.ok.injEq, Prod.mk.injEq] at h
      rw [← h.2]
      simp only [KeyEvents.mapEv, List.length_map]
      unfold Automation.sysUpdateState at h1
      split at h1
      · split at h1
        · obtain ⟨k, _, h1⟩ := Res.bind_eq_ok.1 h1
          simp only [Res.pure_eq, Res.ok.injEq] at h1
          rw [← h1]; simp
        · simp only [Res.ok.injEq] at h1; rw [← h1]; simp
      · split at h1
        · obtain ⟨k, _, h1⟩ := Res.bind_eq_ok.1 h1
          simp only [Res.pure_eq, Res.ok.injEq] at h1
          rw [← h1]; simp
        · simp only [Res.ok.injEq] at h1; rw [← h1]; simp
      · simp only [Res.ok.injEq] at h1; rw [← h1]; simp
    · simp only [Res.ok.injEq, Prod.mk.injEq] at h
      rw [← h.2]; simp
  · split at h
    · obtain ⟨⟨b, e1⟩, h1, h⟩ := Res.bind_eq_ok.1 h
      simp only [Res.pure_eq, Res.ok.injEq, Prod.mk.injEq] at h
      rw [← h.2]
      simp only [KeyEvents.mapEv, List.length_map]
      unfold Layered.sysUpdateState at h1
      split at h1
      · obtain ⟨k, _, h1⟩ := Res.bind_eq_ok.1 h1
        simp only [Res.pure_eq, Res.ok.injEq, Prod.mk.injEq] at h1
        rw [← h1.2]; split <;> simp
      · simp only [Res.ok.injEq, Prod.mk.injEq] at h1; rw [← h1.2]; simp
    · simp only [Res.ok.injEq, Prod.mk.injEq] at h
      rw [← h.2]; simp
  · split at h
    · obtain ⟨⟨b, e1⟩, h1, h⟩ := Res.bind_eq_ok.1 h
      simp only [Res.pure_eq, Res.ok.injEq, Prod.mk.injEq] at h
      rw [← h.2]
      simp only [KeyEvents.mapEv, List.length_map]
      obtain ⟨m, _, h1⟩ := Res.bind_eq_ok.1 h1
      simp only [Res.pure_eq, Res.ok.injEq] at h1
      rw [show e1 = (Sticky.updateState _ _ _ _).2 from (congrArg Prod.snd h1).symm]
      unfold Sticky.updateState
      split
      · split
        · simp
        · split <;> simp
        · simp
      · simp
    · simp only [Res.ok.injEq, Prod.mk.injEq] at h
      rw [← h.2]; simp
  · simp only [Res.ok.injEq, Prod.mk.injEq] at h
    rw [← h.2]; simp

end Comp

/-- The bound is reached: with four sticky modifiers waiting, releasing the modified key schedules four events. -/
example : (do
    let km ← run Sticky.Demo.C 9 (KM.new Ex.ctx)
      (Sticky.Demo.tap 0 ++ Sticky.Demo.tap 1 ++ Sticky.Demo.tap 2 ++ Sticky.Demo.tap 3 ++ [Op.input (.press 5)])
    let (_, es) ← km.ctx.handleEvent (.input (.release 5))
    pure es.length) = .ok 4 := by decide +kernel

/-- The hypothesis of `C21_context` holds, for one, in the initial state, for every event about a physical key. -/
example (i : Nat) : Comp.PartsReturn Ex.ctx (.input (.release i)) := by
  constructor <;> intro e he <;> simp only [Event.tryInto, Option.some.injEq] at he <;> subst he <;> exact ⟨_, rfl⟩

end Verif
