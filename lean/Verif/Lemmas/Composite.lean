import Verif.Composite
import Verif.Lemmas.Call

/-! # Events emitted by the aggregate key system -/

namespace Verif

theorem KeyEvents.push_eq_ok {E : Type} {xs ys : KeyEvents E} {e : SchEv E} :
    xs.push e = .ok ys ↔ xs.length < maxKeyEvents ∧ ys = xs ++ [e] := pushCap_eq_ok

theorem KeyEvents.extend_eq_ok {E : Type} {xs ys es : KeyEvents E} :
    xs.extend es = .ok ys ↔ (es = [] ∨ xs.length + es.length ≤ maxKeyEvents) ∧ ys = xs ++ es := by
  induction es generalizing xs with
  | nil => simp [KeyEvents.extend, eq_comm]
  | cons e es ih =>
    simp only [KeyEvents.extend, Res.bind_eq_ok, KeyEvents.push_eq_ok]
    constructor
    · rintro ⟨a, ⟨h1, rfl⟩, h2⟩
      obtain ⟨h3, rfl⟩ := ih.1 h2
      refine ⟨Or.inr ?_, by simp⟩
      rcases h3 with rfl | h3
      · simp; omega
      · simp only [List.length_append, List.length_cons, List.length_nil] at h3 ⊢; omega
    · rintro ⟨h1, rfl⟩
      simp only [List.length_cons] at h1
      have h1 : xs.length + (es.length + 1) ≤ maxKeyEvents := by rcases h1 with h | h; cases h; exact h
      refine ⟨_, ⟨by omega, rfl⟩, ih.2 ⟨?_, by simp⟩⟩
      right; simp only [List.length_append, List.length_cons, List.length_nil]; omega

namespace Comp

/-- What the key system may emit: no physical key events, only callbacks of its callback keys, and no
`ResolvedKeyOutput` (those come from the keymap). -/
def EmitOk (K : Keys) : Event Ev → Prop
  | .input (.press _) => False
  | .input (.release _) => False
  | .input _ => True
  | .key _ _ => True
  | .keymap (.callback c) => c ∈ K.callback
  | .keymap (.resolved _ _) => True

/-- Events with no callback. -/
def NoCb {E : Type} : Event E → Prop
  | .input (.press _) => False
  | .input (.release _) => False
  | .input _ => True
  | .key _ _ => True
  | .keymap _ => False

theorem NoCb.map {E F : Type} (f : E → F) (e : Event E) (h : NoCb e) : NoCb (e.map f) := by
  rcases e with (_ | _ | _ | _) | _ | _ <;> simp_all [NoCb, Event.map]

theorem NoCb.emitOk {K : Keys} {e : Event Ev} (h : NoCb e) : EmitOk K e := by
  rcases e with (_ | _ | _ | _) | _ | _ <;> simp_all [NoCb, EmitOk]

/-- All events in the list satisfy `NoCb`. -/
def AllNoCb {E : Type} (es : KeyEvents E) : Prop := ∀ e ∈ es, NoCb e.event

theorem AllNoCb.nil {E : Type} : AllNoCb ([] : KeyEvents E) := by simp [AllNoCb]
theorem AllNoCb.mapEv {E F : Type} (f : E → F) {es : KeyEvents E} (h : AllNoCb es) : AllNoCb (es.mapEv f) := by
  intro e he
  simp only [KeyEvents.mapEv, List.mem_map] at he
  obtain ⟨x, hx, rfl⟩ := he
  exact NoCb.map f _ (h x hx)
theorem AllNoCb.append {E : Type} {a b : KeyEvents E} (h : AllNoCb a) (h' : AllNoCb b) : AllNoCb (a ++ b) := by
  intro e he
  rcases List.mem_append.1 he with he | he
  · exact h e he
  · exact h' e he

theorem keyEventsFor_noCb {c : Automation.Config} {idx : Nat} {e : Automation.Execution} {es : KeyEvents Automation.Ev}
    (h : Automation.keyEventsFor c idx e = .ok es) : AllNoCb es := by
  simp only [Automation.keyEventsFor, Res.bind_eq_ok, Res.pure_eq, Res.ok.injEq] at h
  obtain ⟨i, _, rfl⟩ := h
  cases i <;> simp [AllNoCb, SchEv.after, SchEv.imm, NoCb]

theorem executeHead_noCb {c c' : Automation.Ctx} {idx : Nat} {es : KeyEvents Automation.Ev}
    (h : c.executeHead idx = .ok (c', es)) : AllNoCb es := by
  simp only [Automation.Ctx.executeHead, Res.bind_eq_ok] at h
  obtain ⟨hd, _, es1, h1, hd', _, h2⟩ := h
  have := keyEventsFor_noCb h1
  split at h2
  · simp only [Res.bind_eq_ok] at h2
    obtain ⟨nx, _, h2⟩ := h2
    split at h2
    · simp only [Res.pure_eq, Res.ok.injEq, Prod.mk.injEq] at h2
      rw [← h2.2]; exact this
    · simp only [Res.bind_eq_ok, KeyEvents.push_eq_ok, Res.pure_eq, Res.ok.injEq, Prod.mk.injEq] at h2
      obtain ⟨es2, ⟨_, rfl⟩, _, rfl⟩ := h2
      exact this.append (by simp [AllNoCb, SchEv.after, NoCb])
  · simp only [Res.pure_eq, Res.ok.injEq, Prod.mk.injEq] at h2
    rw [← h2.2]; exact this

theorem automation_noCb {c c' : Automation.Ctx} {ev : Event Automation.Ev} {es : KeyEvents Automation.Ev}
    (h : c.handleEvent ev = .ok (c', es)) : AllNoCb es := by
  unfold Automation.Ctx.handleEvent at h
  split at h
  · split at h
    · simp only [Res.ok.injEq, Prod.mk.injEq] at h; rw [← h.2]; exact .nil
    · simp only [Res.bind_eq_ok] at h
      obtain ⟨hd, _, h⟩ := h
      split at h
      · exact executeHead_noCb h
      · simp only [Res.pure_eq, Res.ok.injEq, Prod.mk.injEq] at h; rw [← h.2]; exact .nil
  · simp only [Res.bind_eq_ok] at h
    obtain ⟨hd, _, h⟩ := h
    split at h
    · simp only [Res.pure_eq, Res.ok.injEq, Prod.mk.injEq] at h; rw [← h.2]; exact .nil
    · exact executeHead_noCb h
  · simp only [Res.ok.injEq, Prod.mk.injEq] at h; rw [← h.2]; exact .nil

theorem capsWord_noCb (c : CapsWord.Ctx) (ev : Event CapsWord.Ev) : AllNoCb (c.handleEvent ev).2 := by
  unfold CapsWord.Ctx.handleEvent
  split
  · split
    · split <;> simp [AllNoCb, SchEv.imm, NoCb]
    · exact .nil
  all_goals simp [AllNoCb, SchEv.imm, NoCb]

theorem releaseAll_eq_ok {es es' : KeyEvents Sticky.Ev} {ms : List Byte} (h : Sticky.releaseAll es ms = .ok es') :
    es' = es ++ ms.map (fun m => SchEv.imm (.input (.vrelease (KeyOutput.fromKeyModifiers m)))) := by
  induction ms generalizing es with
  | nil => simp only [Sticky.releaseAll, Res.ok.injEq] at h; simp [h]
  | cons m ms ih =>
    simp only [Sticky.releaseAll, Res.bind_eq_ok, KeyEvents.push_eq_ok] at h
    obtain ⟨_, ⟨_, rfl⟩, h⟩ := h
    simp [ih h]

theorem sticky_noCb {c c' : Sticky.Ctx} {ev : Event Sticky.Ev} {es : KeyEvents Sticky.Ev}
    (h : c.handleEvent ev = .ok (c', es)) : AllNoCb es := by
  have key : ∀ ms es, Sticky.releaseAll [] ms = .ok es → AllNoCb es := by
    intro ms es h
    rw [releaseAll_eq_ok h]
    intro e he
    simp only [List.nil_append, List.mem_map] at he
    obtain ⟨m, _, rfl⟩ := he
    simp [SchEv.imm, NoCb]
  unfold Sticky.Ctx.handleEvent at h
  split at h
  · split at h <;> (simp only [Res.ok.injEq, Prod.mk.injEq] at h; rw [← h.2]; exact .nil)
  · split at h <;> (simp only [Res.ok.injEq, Prod.mk.injEq] at h; rw [← h.2]; exact .nil)
  · split at h
    · simp only [Res.bind_eq_ok, Res.pure_eq, Res.ok.injEq, Prod.mk.injEq] at h
      obtain ⟨es1, h1, _, rfl⟩ := h
      exact key _ _ h1
    · simp only [Res.ok.injEq, Prod.mk.injEq] at h; rw [← h.2]; exact .nil
  · split at h
    · simp only [Res.bind_eq_ok, Res.pure_eq, Res.ok.injEq, Prod.mk.injEq] at h
      obtain ⟨es1, h1, _, rfl⟩ := h
      exact key _ _ h1
    · simp only [Res.ok.injEq, Prod.mk.injEq] at h; rw [← h.2]; exact .nil
  · simp only [Res.ok.injEq, Prod.mk.injEq] at h; rw [← h.2]; exact .nil

theorem sub_eq_ok {E C : Type} {conv : Ev → Option E} {inj : E → Ev} {hd : C → Event E → Res (C × KeyEvents E)}
    {c c' : C} {pke pke' : KeyEvents Ev} {ev : Event Ev} (h : sub conv inj hd c pke ev = .ok (c', pke')) :
    (ev.tryInto conv = none ∧ c' = c ∧ pke' = pke) ∨
    ∃ e es, ev.tryInto conv = some e ∧ hd c e = .ok (c', es) ∧ pke.extend (KeyEvents.mapEv inj es) = .ok pke' := by
  unfold sub at h
  split at h
  · rename_i e he
    simp only [Res.bind_eq_ok, Res.pure_eq, Res.ok.injEq, Prod.mk.injEq] at h
    obtain ⟨⟨c1, es⟩, h1, p1, h2, rfl, rfl⟩ := h
    exact Or.inr ⟨e, es, he, h1, h2⟩
  · rename_i he
    simp only [Res.ok.injEq, Prod.mk.injEq] at h
    exact Or.inl ⟨he, h.1.symm, h.2.symm⟩

theorem sub_noCb {E C : Type} {conv : Ev → Option E} {inj : E → Ev} {hd : C → Event E → Res (C × KeyEvents E)}
    {c c' : C} {pke pke' : KeyEvents Ev} {ev : Event Ev} (h : sub conv inj hd c pke ev = .ok (c', pke'))
    (hn : ∀ c e c' es, hd c e = .ok (c', es) → AllNoCb es) (hp : AllNoCb pke) : AllNoCb pke' := by
  rcases sub_eq_ok h with ⟨_, _, rfl⟩ | ⟨e, es, _, h1, h2⟩
  · exact hp
  · rw [(KeyEvents.extend_eq_ok.1 h2).2]
    exact hp.append ((hn _ _ _ _ h1).mapEv _)

theorem map_fst_nil {α β : Type} {x : Res α} {c : α} {es : List β}
    (h : ((·, []) : α → α × List β) <$> x = .ok (c, es)) : x = .ok c ∧ es = [] := by
  cases x <;> simp_all [Functor.map, Res.bind, eq_comm]

theorem ctx_eq_ok {c c' : Ctx} {ev : Event Ev} {es : KeyEvents Ev} (h : c.handleEvent ev = .ok (c', es)) :
    ∃ p1 p2 p3 p4, sub Ev.toAutomation? .automation Automation.Ctx.handleEvent c.automation [] ev = .ok (c'.automation, p1) ∧
      sub Ev.toCapsWord? .capsWord (fun c e => .ok (c.handleEvent e)) c.capsWord p1 ev = .ok (c'.capsWord, p2) ∧
      sub Ev.toChorded? .chorded (fun c e => (·, []) <$> c.handleEvent e) c.chorded p2 ev = .ok (c'.chorded, p3) ∧
      sub Ev.toLayered? .layered (fun c e => (·, []) <$> c.handleEvent e) c.layered p3 ev = .ok (c'.layered, p4) ∧
      sub Ev.toSticky? .sticky Sticky.Ctx.handleEvent c.sticky p4 ev = .ok (c'.sticky, es) ∧
      c'.tapDance = c.tapDance ∧ c'.tapHold = c.tapHold := by
  simp only [Ctx.handleEvent, Res.bind_eq_ok, Res.pure_eq, Res.ok.injEq, Prod.mk.injEq] at h
  obtain ⟨⟨a, p1⟩, h1, ⟨b, p2⟩, h2, ⟨d, p3⟩, h3, ⟨e, p4⟩, h4, ⟨f, p5⟩, h5, rfl, rfl⟩ := h
  exact ⟨p1, p2, p3, p4, h1, h2, h3, h4, h5, rfl, rfl⟩

theorem ctx_noCb {c c' : Ctx} {ev : Event Ev} {es : KeyEvents Ev} (h : c.handleEvent ev = .ok (c', es)) :
    AllNoCb es := by
  obtain ⟨p1, p2, p3, p4, h1, h2, h3, h4, h5, _⟩ := ctx_eq_ok h
  have a1 := sub_noCb h1 (fun _ _ _ _ h => automation_noCb h) .nil
  have a2 := sub_noCb h2 (fun c e _ _ h => by
    simp only [Res.ok.injEq] at h
    have := capsWord_noCb c e
    rwa [h] at this) a1
  have a3 := sub_noCb h3 (fun c e _ _ h => by rw [(map_fst_nil h).2]; exact .nil) a2
  have a4 := sub_noCb h4 (fun c e _ _ h => by rw [(map_fst_nil h).2]; exact .nil) a3
  exact sub_noCb h5 (fun _ _ _ _ h => sticky_noCb h) a4

theorem state_noCb {K : Keys} {ks ks' : KS} {r : Ref} {c : Ctx} {idx : Nat} {ev : Event Ev} {es : KeyEvents Ev}
    (h : updateState K ks r c idx ev = .ok (ks', es)) : AllNoCb es := by
  unfold updateState at h
  split at h
  · split at h
    · simp only [Res.bind_eq_ok, Res.pure_eq, Res.ok.injEq, Prod.mk.injEq] at h
      obtain ⟨es1, h1, _, rfl⟩ := h
      refine AllNoCb.mapEv _ ?_
      unfold Automation.sysUpdateState at h1
      split at h1
      · split at h1
        · simp only [Res.bind_eq_ok, Res.pure_eq, Res.ok.injEq] at h1
          obtain ⟨_, _, rfl⟩ := h1
          simp [AllNoCb, SchEv.imm, NoCb]
        · simp only [Res.ok.injEq] at h1; rw [← h1]; exact .nil
      · split at h1
        · simp only [Res.bind_eq_ok, Res.pure_eq, Res.ok.injEq] at h1
          obtain ⟨_, _, rfl⟩ := h1
          simp [AllNoCb, SchEv.imm, NoCb]
        · simp only [Res.ok.injEq] at h1; rw [← h1]; exact .nil
      · simp only [Res.ok.injEq] at h1; rw [← h1]; exact .nil
    · simp only [Res.ok.injEq, Prod.mk.injEq] at h; rw [← h.2]; exact .nil
  · split at h
    · simp only [Res.bind_eq_ok, Res.pure_eq, Res.ok.injEq, Prod.mk.injEq] at h
      obtain ⟨⟨b, es1⟩, h1, _, rfl⟩ := h
      refine AllNoCb.mapEv _ ?_
      unfold Layered.sysUpdateState at h1
      split at h1
      · simp only [Res.bind_eq_ok, Res.pure_eq, Res.ok.injEq, Prod.mk.injEq] at h1
        obtain ⟨_, _, _, rfl⟩ := h1
        split <;> simp [AllNoCb, SchEv.imm, NoCb]
      · simp only [Res.ok.injEq, Prod.mk.injEq] at h1; rw [← h1.2]; exact .nil
    · simp only [Res.ok.injEq, Prod.mk.injEq] at h; rw [← h.2]; exact .nil
  · split at h
    · simp only [Res.bind_eq_ok, Res.pure_eq, Res.ok.injEq, Prod.mk.injEq] at h
      obtain ⟨⟨b, es1⟩, h1, _, rfl⟩ := h
      refine AllNoCb.mapEv _ ?_
      simp only [Sticky.sysUpdateState, Res.bind_eq_ok, Res.pure_eq, Res.ok.injEq] at h1
      obtain ⟨m, _, h1⟩ := h1
      have := congrArg Prod.snd h1
      simp only at this
      rw [← this]
      unfold Sticky.updateState
      split
      · split
        · exact .nil
        · split
          · simp [AllNoCb, SchEv.imm, NoCb]
          · exact .nil
        · exact .nil
      · exact .nil
    · simp only [Res.ok.injEq, Prod.mk.injEq] at h; rw [← h.2]; exact .nil
  · simp only [Res.ok.injEq, Prod.mk.injEq] at h; rw [← h.2]; exact .nil

theorem pend_noCb {K : Keys} {p p' : PKS} {r : Ref} {c : Ctx} {idx : Nat} {ev : Event Ev} {o : Option (NPK Ref)}
    {es : KeyEvents Ev} (h : updatePending K p idx c r ev = .ok (p', o, es)) : AllNoCb es := by
  unfold updatePending at h
  split at h
  · split at h
    · simp only [Res.bind_eq_ok, Res.pure_eq, Res.ok.injEq, Prod.mk.injEq] at h
      obtain ⟨⟨q, n, es1⟩, h1, _, _, rfl⟩ := h
      refine AllNoCb.mapEv _ ?_
      unfold Chorded.sysUpdatePending at h1
      split at h1
      · simp only [Chorded.Key.updatePending, Res.bind_eq_ok] at h1
        obtain ⟨_, _, ⟨q1, r1⟩, _, h1⟩ := h1
        split at h1
        · simp only [Res.bind_eq_ok, Res.pure_eq, Res.ok.injEq, Prod.mk.injEq] at h1
          obtain ⟨_, _, _, _, rfl⟩ := h1
          simp [AllNoCb, SchEv.imm, NoCb]
        · simp only [Res.pure_eq, Res.ok.injEq, Prod.mk.injEq] at h1; rw [← h1.2.2]; exact .nil
      · simp only [Chorded.auxUpdatePending, Res.bind_eq_ok] at h1
        obtain ⟨_, _, ⟨q1, r1⟩, _, h1⟩ := h1
        split at h1
        · simp only [Res.pure_eq, Res.ok.injEq, Prod.mk.injEq] at h1
          obtain ⟨_, _, rfl⟩ := h1
          simp [AllNoCb, SchEv.imm, NoCb]
        · simp only [Res.pure_eq, Res.ok.injEq, Prod.mk.injEq] at h1; rw [← h1.2.2]; exact .nil
    · simp only [Res.ok.injEq, Prod.mk.injEq] at h; rw [← h.2.2]; exact .nil
  · split at h
    · simp only [Res.bind_eq_ok, Res.pure_eq, Res.ok.injEq, Prod.mk.injEq] at h
      obtain ⟨⟨q, n, es1⟩, h1, _, _, rfl⟩ := h
      refine AllNoCb.mapEv _ ?_
      simp only [TapDance.updatePending, Res.bind_eq_ok] at h1
      obtain ⟨k, _, ⟨q1, r1, es2⟩, h2, h1⟩ := h1
      have hes : AllNoCb es2 := by
        unfold TapDance.PKS.handleEvent at h2
        split at h2
        · split at h2 <;> (simp only [Res.ok.injEq, Prod.mk.injEq] at h2; rw [← h2.2.2]; exact .nil)
        · split at h2
          · split at h2
            · simp only [Res.ok.injEq, Prod.mk.injEq] at h2; rw [← h2.2.2]; simp [AllNoCb, SchEv.after, NoCb]
            · simp at h2
          · simp only [Res.ok.injEq, Prod.mk.injEq] at h2; rw [← h2.2.2]; exact .nil
        · simp only [Res.ok.injEq, Prod.mk.injEq] at h2; rw [← h2.2.2]; exact .nil
      have : es1 = es2 := by
        split at h1
        · simp only [Res.bind_eq_ok, Res.pure_eq, Res.ok.injEq, Prod.mk.injEq] at h1
          obtain ⟨_, _, _, _, _, _, rfl⟩ := h1; rfl
        · split at h1
          · simp at h1
          · split at h1
            · simp only [Res.bind_eq_ok, Res.pure_eq, Res.ok.injEq, Prod.mk.injEq] at h1
              obtain ⟨_, _, _, _, _, _, rfl⟩ := h1; rfl
            · simp only [Res.ok.injEq, Prod.mk.injEq] at h1; exact h1.2.2.symm
      rw [this]; exact hes
    · simp only [Res.ok.injEq, Prod.mk.injEq] at h; rw [← h.2.2]; exact .nil
  · split at h
    · simp only [Res.bind_eq_ok, Res.pure_eq, Res.ok.injEq, Prod.mk.injEq] at h
      obtain ⟨⟨q, n, es1⟩, h1, _, _, rfl⟩ := h
      refine AllNoCb.mapEv _ ?_
      unfold TapHold.updatePending at h1
      simp only at h1
      split at h1
      · simp only [Res.bind_eq_ok, Res.pure_eq, Res.ok.injEq, Prod.mk.injEq] at h1
        obtain ⟨_, _, _, _, rfl⟩ := h1; exact .nil
      · simp only [Res.ok.injEq, Prod.mk.injEq] at h1; rw [← h1.2.2]; exact .nil
    · simp only [Res.ok.injEq, Prod.mk.injEq] at h; rw [← h.2.2]; exact .nil
  · simp at h

/-- Pressing a key that is not a callback key emits no callback. -/
theorem npk_noCb {K : Keys} {idx : Nat} {c : Ctx} {r : Ref} {x : PKR Ref PKS KS} {es : KeyEvents Ev}
    (hr : ∀ i, r ≠ .callback i) (h : newPressedKey K idx c r = .ok (x, es)) : AllNoCb es := by
  unfold newPressedKey at h
  split at h
  · simp only [Res.bind_eq_ok, Res.pure_eq, Res.ok.injEq, Prod.mk.injEq] at h
    obtain ⟨es1, h1, _, rfl⟩ := h
    refine AllNoCb.mapEv _ ?_
    simp only [Automation.sysNewPressedKey, Res.bind_eq_ok, Res.pure_eq, Res.ok.injEq] at h1
    obtain ⟨_, _, rfl⟩ := h1
    simp [AllNoCb, SchEv.imm, NoCb]
  · exact absurd rfl (hr _)
  · simp only [Res.ok.injEq, Prod.mk.injEq] at h
    rw [← h.2]
    refine AllNoCb.mapEv _ ?_
    simp [AllNoCb, SchEv.imm, NoCb, CapsWord.newPressedKey]
  · simp only [Res.bind_eq_ok, Res.pure_eq, Res.ok.injEq, Prod.mk.injEq] at h
    obtain ⟨⟨p, es1⟩, h1, _, rfl⟩ := h
    refine AllNoCb.mapEv _ ?_
    unfold Chorded.sysNewPressedKey at h1
    split at h1
    · simp only [Chorded.Key.newPressedKey, Res.bind_eq_ok] at h1
      obtain ⟨_, _, rp, _, h1⟩ := h1
      split at h1
      · simp only [Res.bind_eq_ok, Res.pure_eq, Res.ok.injEq, Prod.mk.injEq] at h1
        obtain ⟨_, _, _, rfl⟩ := h1; exact .nil
      · simp only [Res.pure_eq, Res.ok.injEq, Prod.mk.injEq] at h1
        rw [← h1.2]; simp [Chorded.timeoutEvents, AllNoCb, SchEv.after, NoCb]
    · simp only [Chorded.auxNewPressedKey, Res.bind_eq_ok] at h1
      obtain ⟨_, _, rp, _, h1⟩ := h1
      split at h1
      · simp only [Res.pure_eq, Res.ok.injEq, Prod.mk.injEq] at h1
        rw [← h1.2]; exact .nil
      · simp only [Res.pure_eq, Res.ok.injEq, Prod.mk.injEq] at h1
        rw [← h1.2]; simp [Chorded.timeoutEvents, AllNoCb, SchEv.after, NoCb]
  · simp only [Res.ok.injEq, Prod.mk.injEq] at h; rw [← h.2]; exact .nil
  · simp only [Res.ok.injEq, Prod.mk.injEq] at h; rw [← h.2]; exact .nil
  · simp only [Res.ok.injEq, Prod.mk.injEq] at h; rw [← h.2]; exact .nil
  · simp only [Res.bind_eq_ok, Res.pure_eq, Res.ok.injEq, Prod.mk.injEq] at h
    obtain ⟨⟨p, es1⟩, h1, _, rfl⟩ := h
    refine AllNoCb.mapEv _ ?_
    unfold Layered.sysNewPressedKey at h1
    split at h1
    · simp only [Res.bind_eq_ok, Res.pure_eq, Res.ok.injEq, Prod.mk.injEq] at h1
      obtain ⟨_, _, _, rfl⟩ := h1
      simp [AllNoCb, SchEv.imm, NoCb]
    · simp only [Res.bind_eq_ok, Res.pure_eq, Res.ok.injEq, Prod.mk.injEq] at h1
      obtain ⟨_, _, _, _, _, rfl⟩ := h1
      exact .nil
  · simp only [Res.ok.injEq, Prod.mk.injEq] at h; rw [← h.2]; exact .nil
  · simp only [Res.bind_eq_ok, Res.pure_eq, Res.ok.injEq, Prod.mk.injEq] at h
    obtain ⟨_, _, _, rfl⟩ := h; exact .nil
  · simp only [Res.ok.injEq, Prod.mk.injEq] at h
    rw [← h.2]
    refine AllNoCb.mapEv _ ?_
    simp [TapDance.newPressedKey, AllNoCb, SchEv.after, NoCb]
  · simp only [Res.bind_eq_ok, Res.pure_eq, Res.ok.injEq, Prod.mk.injEq] at h
    obtain ⟨⟨p, es1⟩, h1, _, rfl⟩ := h
    refine AllNoCb.mapEv _ ?_
    unfold TapHold.newPressedKey at h1
    split at h1
    · split at h1
      · simp only [Res.ok.injEq, Prod.mk.injEq] at h1
        rw [← h1.2]; simp [TapHold.newPending, AllNoCb, SchEv.after, NoCb]
      · simp only [Res.bind_eq_ok, Res.pure_eq, Res.ok.injEq, Prod.mk.injEq] at h1
        obtain ⟨_, _, _, rfl⟩ := h1; exact .nil
    · simp only [Res.ok.injEq, Prod.mk.injEq] at h1
      rw [← h1.2]; simp [TapHold.newPending, AllNoCb, SchEv.after, NoCb]

theorem npk_emitOk {K : Keys} {idx : Nat} {c : Ctx} {r : Ref} {x : PKR Ref PKS KS} {es : KeyEvents Ev}
    (h : newPressedKey K idx c r = .ok (x, es)) : ∀ e ∈ es, EmitOk K e.event := by
  by_cases hr : ∃ i, r = .callback i
  · obtain ⟨i, rfl⟩ := hr
    simp only [newPressedKey, CallbackKey.newPressedKey, Res.bind_eq_ok, Res.pure_eq, Res.ok.injEq, Prod.mk.injEq] at h
    obtain ⟨_, ⟨cb, hc, rfl⟩, _, rfl⟩ := h
    intro e he
    simp only [List.mem_singleton] at he
    subst he
    simp only [SchEv.imm, EmitOk]
    unfold Res.index at hc
    split at hc
    · rename_i hx
      simp only [Res.ok.injEq] at hc
      subst hc
      exact List.mem_of_getElem? hx
    · simp at hc
  · intro e he
    exact (npk_noCb (fun i hi => hr ⟨i, hi⟩) h e he).emitOk

/-- The aggregate key system on a keymap. -/
def cfg (K : Keys) (refs : List Ref) (S : Search) : Cfg Ref Ev Ctx PKS KS := ⟨system K, refs, S⟩

theorem emits (K : Keys) (refs : List Ref) (S : Search) : Emits (cfg K refs S) (EmitOk K) where
  npk := fun _ _ _ _ _ h => npk_emitOk h
  pend := fun _ _ _ _ _ _ _ _ h e he => (pend_noCb h e he).emitOk
  state := fun _ _ c _ _ _ _ h e he => (state_noCb (c := c) h e he).emitOk
  ctx := fun _ _ _ _ h e he => (ctx_noCb h e he).emitOk
  resolved := fun _ _ => True.intro

theorem emitOk_nonPhys {K : Keys} {e : Event Ev} (h : EmitOk K e) : NonPhys e := by
  rcases e with (_ | _ | _ | _) | _ | (_ | _) <;> simp_all [EmitOk, NonPhys, Spec.physical]

theorem emits_nonPhys (K : Keys) (refs : List Ref) (S : Search) : Emits (cfg K refs S) NonPhys :=
  (emits K refs S).weaken (fun _ h => emitOk_nonPhys h)

end Comp

end Verif
