import Verif.Composite
import Verif.Lemmas.Api

/-!
# Invariants of the context

A property of the context that no event and no clock update breaks holds in every state the keymap can
reach.
-/

namespace Verif

section
variable {R Ev Ctx PKS KS : Type}

/-- A property of the context alone, as a property of the keymap. -/
theorem ctxInv_api (C : Cfg R Ev Ctx PKS KS) (J : Ctx → Prop)
    (hev : ∀ c ev c' es, J c → C.sys.ctxEvent c ev = .ok (c', es) → J c')
    (hset : ∀ c t i, J c → J (C.sys.setCtx c t i)) : ApiInv C (fun km => J km.ctx) where
  micro := by
    intro a b h hq m
    cases m with
    | ctxEv ev ctx es s hu hs => exact hev _ _ _ _ h hu
    | take ev s h' => simpa using h
    | resolve p ks km' hp hf he =>
      obtain ⟨_, _, rfl⟩ := resolveEnter_spec (hq.queued p hp) he
      exact h
    | _ => exact h
  frame := fun _ h _ _ _ _ _ => h
  enq := fun _ h _ _ => h
  deq := fun _ h _ _ _ => h
  ctx := fun _ h t i => hset _ t i h
  tick := fun _ h _ _ _ => h
  init := fun _ h => h

end

namespace Comp

theorem sub_spec {E C : Type} {conv : Ev → Option E} {inj : E → Ev} {h : C → Event E → Res (C × KeyEvents E)}
    {c c' : C} {pke pke' : KeyEvents Ev} {ev : Event Ev} (hs : sub conv inj h c pke ev = .ok (c', pke')) :
    (ev.tryInto conv = none ∧ c' = c ∧ pke' = pke) ∨
    ∃ e es, ev.tryInto conv = some e ∧ h c e = .ok (c', es) ∧ pke.extend (KeyEvents.mapEv inj es) = .ok pke' := by
  unfold sub at hs
  split at hs
  · rename_i e he
    simp only [Res.bind_eq_ok, Res.pure_eq, Res.ok.injEq, Prod.mk.injEq] at hs
    obtain ⟨⟨c1, es⟩, h1, p1, h2, rfl, rfl⟩ := hs
    exact .inr ⟨e, es, he, h1, h2⟩
  · rename_i he
    simp only [Res.ok.injEq, Prod.mk.injEq] at hs
    exact .inl ⟨he, hs.1.symm, hs.2.symm⟩

/-- The parts of the context each take the event, if it is theirs. -/
theorem handleEvent_parts {c c' : Ctx} {ev : Event Ev} {es : KeyEvents Ev} (h : c.handleEvent ev = .ok (c', es)) :
    ∃ p1 p2 p3 p4,
      sub Ev.toAutomation? .automation Automation.Ctx.handleEvent c.automation [] ev = .ok (c'.automation, p1) ∧
      sub Ev.toCapsWord? .capsWord (fun c e => .ok (c.handleEvent e)) c.capsWord p1 ev = .ok (c'.capsWord, p2) ∧
      sub Ev.toChorded? .chorded (fun c e => (·, []) <$> c.handleEvent e) c.chorded p2 ev = .ok (c'.chorded, p3) ∧
      sub Ev.toLayered? .layered (fun c e => (·, []) <$> c.handleEvent e) c.layered p3 ev = .ok (c'.layered, p4) ∧
      sub Ev.toSticky? .sticky Sticky.Ctx.handleEvent c.sticky p4 ev = .ok (c'.sticky, es) ∧
      c'.tapDance = c.tapDance ∧ c'.tapHold = c.tapHold := by
  unfold Ctx.handleEvent at h
  simp only [Res.bind_eq_ok, Res.pure_eq, Res.ok.injEq, Prod.mk.injEq] at h
  obtain ⟨⟨a, p1⟩, h1, ⟨b, p2⟩, h2, ⟨d, p3⟩, h3, ⟨l, p4⟩, h4, ⟨s, p5⟩, h5, rfl, rfl⟩ := h
  exact ⟨p1, p2, p3, p4, h1, h2, h3, h4, h5, rfl, rfl⟩

/-- An invariant of the macro context holds in all reachable states. -/
theorem automation_reachable (K : Keys) (refs : List Ref) (S : Search) (J : Automation.Ctx → Prop)
    (hJ : ∀ c e c' es, J c → c.handleEvent e = .ok (c', es) → J c') {ctx : Ctx} (h0 : J ctx.automation)
    {km : KM Ref Ev Ctx PKS KS} (h : Reachable ⟨system K, refs, S⟩ ctx km) : J km.ctx.automation := by
  refine (ctxInv_api ⟨system K, refs, S⟩ (fun c => J c.automation) ?_ ?_).of_reachable h0 h
  · intro c ev c' es hj hu
    obtain ⟨p1, p2, p3, p4, h1, _⟩ := handleEvent_parts hu
    rcases sub_spec h1 with ⟨_, he, _⟩ | ⟨e, es, _, he, _⟩
    · rw [he]; exact hj
    · exact hJ _ _ _ _ hj he
  · intro c t i hj; exact hj

/-- An invariant of the sticky context holds in all reachable states. -/
theorem sticky_reachable (K : Keys) (refs : List Ref) (S : Search) (J : Sticky.Ctx → Prop)
    (hJ : ∀ c e c' es, J c → c.handleEvent e = .ok (c', es) → J c') {ctx : Ctx} (h0 : J ctx.sticky)
    {km : KM Ref Ev Ctx PKS KS} (h : Reachable ⟨system K, refs, S⟩ ctx km) : J km.ctx.sticky := by
  refine (ctxInv_api ⟨system K, refs, S⟩ (fun c => J c.sticky) ?_ ?_).of_reachable h0 h
  · intro c ev c' es hj hu
    obtain ⟨p1, p2, p3, p4, _, _, _, _, h1, _⟩ := handleEvent_parts hu
    rcases sub_spec h1 with ⟨_, he, _⟩ | ⟨e, es, _, he, _⟩
    · rw [he]; exact hj
    · exact hJ _ _ _ _ hj he
  · intro c t i hj; exact hj

/-- An invariant of the layer context holds in all reachable states. -/
theorem layered_reachable (K : Keys) (refs : List Ref) (S : Search) (J : Layered.Ctx → Prop)
    (hJ : ∀ c e c', J c → c.handleEvent e = .ok c' → J c') {ctx : Ctx} (h0 : J ctx.layered)
    {km : KM Ref Ev Ctx PKS KS} (h : Reachable ⟨system K, refs, S⟩ ctx km) : J km.ctx.layered := by
  refine (ctxInv_api ⟨system K, refs, S⟩ (fun c => J c.layered) ?_ ?_).of_reachable h0 h
  · intro c ev c' es hj hu
    obtain ⟨p1, p2, p3, p4, _, _, _, h1, _⟩ := handleEvent_parts hu
    rcases sub_spec h1 with ⟨_, he, _⟩ | ⟨e, es, _, he, _⟩
    · rw [he]; exact hj
    · obtain ⟨c1, h1, h2⟩ := Res.map_eq_ok.1 he
      simp only [Prod.mk.injEq] at h2
      rw [← h2.1]
      exact hJ _ _ _ hj h1
  · intro c t i hj; exact hj

/-- An invariant of the chord context holds in all reachable states. -/
theorem chorded_reachable (K : Keys) (refs : List Ref) (S : Search) (J : Chorded.Ctx → Prop)
    (hJ : ∀ c e c', J c → c.handleEvent e = .ok c' → J c') (hset : ∀ c i, J c → J (c.setIdle i)) {ctx : Ctx} (h0 : J ctx.chorded)
    {km : KM Ref Ev Ctx PKS KS} (h : Reachable ⟨system K, refs, S⟩ ctx km) : J km.ctx.chorded := by
  refine (ctxInv_api ⟨system K, refs, S⟩ (fun c => J c.chorded) ?_ ?_).of_reachable h0 h
  · intro c ev c' es hj hu
    obtain ⟨p1, p2, p3, p4, _, _, h1, _⟩ := handleEvent_parts hu
    rcases sub_spec h1 with ⟨_, he, _⟩ | ⟨e, es, _, he, _⟩
    · rw [he]; exact hj
    · obtain ⟨c1, h1, h2⟩ := Res.map_eq_ok.1 he
      simp only [Prod.mk.injEq] at h2
      rw [← h2.1]
      exact hJ _ _ _ hj h1
  · intro c t i hj; exact hset _ i hj

end Comp
end Verif
