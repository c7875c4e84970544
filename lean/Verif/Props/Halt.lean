import Verif.Lemmas.Halt
import Verif.Lemmas.Depth
import Verif.Lemmas.Refs
import Verif.Lemmas.CtxInv
import Verif.Example

/-!
# C45: every call comes to an end

The model counts the depth of the recursion between the keymap's functions, and the number of rounds of its loops.
If no key refers back to itself, every call returns (or panics) within some depth, and beyond that depth the result
is always the same. So the depth does not show in any other theorem about `run`, either.
-/

namespace Verif

/-- Closes goals "this does not go on forever". -/
macro "ends" : tactic => `(tactic| repeat' (first
  | (intro h; cases h; done) | exact index_ne_fuel | exact pushCap_ne_fuel | exact extendCap_ne_fuel | assumption
  | refine bind_ne_fuel ?_ (fun _ _ => ?_) | split | (simp; done)))

theorem unwrap_ne_fuel {α : Type} (o : Option α) : Res.unwrap o ≠ .fuel := by cases o <;> simp [Res.unwrap]

theorem map_ne_fuel {α β : Type} {x : Res α} {f : α → β} (h : x ≠ .fuel) : f <$> x ≠ .fuel := by
  cases x <;> simp at h ⊢

theorem KeyEvents.extend_ne_fuel {E : Type} (es xs : KeyEvents E) : xs.extend es ≠ .fuel := by
  induction es generalizing xs with
  | nil => simp [KeyEvents.extend]
  | cons e es ih => exact bind_ne_fuel pushCap_ne_fuel (fun _ _ => ih _)

/-! ## No function of a key system goes on forever -/

namespace Automation

theorem executeHead_ne_fuel (c : Ctx) (idx : Nat) : c.executeHead idx ≠ .fuel := by
  have h1 : ∀ x, keyEventsFor c.config idx x ≠ .fuel := fun x => by unfold keyEventsFor; ends
  have h2 : ∀ x : Execution, x.incr ≠ .fuel := fun x => by unfold Execution.incr; ends
  unfold Ctx.executeHead
  refine bind_ne_fuel index_ne_fuel (fun _ _ => bind_ne_fuel (h1 _) (fun _ _ => bind_ne_fuel (h2 _) (fun _ _ => ?_)))
  split
  · refine bind_ne_fuel index_ne_fuel (fun _ _ => ?_)
    split
    · simp
    · exact bind_ne_fuel pushCap_ne_fuel (fun _ _ => by simp)
  · simp

theorem handleEvent_ne_fuel (c : Ctx) (e : Event Ev) : c.handleEvent e ≠ .fuel := by
  unfold Ctx.handleEvent
  split
  · split
    · simp
    · refine bind_ne_fuel index_ne_fuel (fun _ _ => ?_)
      split
      · exact executeHead_ne_fuel _ _
      · simp
  · refine bind_ne_fuel index_ne_fuel (fun _ _ => ?_)
    split
    · simp
    · exact executeHead_ne_fuel _ _
  · simp

end Automation

namespace Sticky

theorem releaseAll_ne_fuel (ms : List Byte) (es : KeyEvents Ev) : releaseAll es ms ≠ .fuel := by
  induction ms generalizing es with
  | nil => simp [releaseAll]
  | cons m ms ih => exact bind_ne_fuel pushCap_ne_fuel (fun _ _ => ih _)

theorem handleEvent_ne_fuel (c : Ctx) (e : Event Ev) : c.handleEvent e ≠ .fuel := by
  unfold Ctx.handleEvent
  split
  · split <;> simp
  · split <;> simp
  · split
    · exact bind_ne_fuel (releaseAll_ne_fuel _ _) (fun _ _ => by simp)
    · simp
  · split
    · exact bind_ne_fuel (releaseAll_ne_fuel _ _) (fun _ _ => by simp)
    · simp
  · simp

end Sticky

namespace Layered

theorem setLayer_ne_fuel (ls : List Activity) (l : Nat) (a : Activity) : setLayer ls l a ≠ .fuel := by
  unfold setLayer; ends

theorem setLayers_ne_fuel (s : LayerBitset) (ls : List Activity) (is : List Nat) : setLayers s ls is ≠ .fuel := by
  induction is generalizing ls with
  | nil => simp [setLayers]
  | cons i is ih =>
    unfold setLayers
    exact bind_ne_fuel (setLayer_ne_fuel _ _ _) (fun _ _ => ih _)

theorem handleEvent_ne_fuel (c : Ctx) (e : Event Ev) : c.handleEvent e ≠ .fuel := by
  unfold Ctx.handleEvent Ctx.handleLayerEvent
  repeat' (first
    | refine bind_ne_fuel ?_ (fun _ _ => ?_) | exact index_ne_fuel | exact setLayer_ne_fuel _ _ _
    | exact setLayers_ne_fuel _ _ _ | split | (simp; done))

theorem firstActive_ne_fuel {R : Type} (layered : List (Option R)) (ls : List Nat) : firstActive layered ls ≠ .fuel := by
  induction ls with
  | nil => simp [firstActive]
  | cons l ls ih =>
    refine bind_ne_fuel index_ne_fuel (fun o _ => ?_)
    cases o with
    | none => exact ih
    | some r => simp

theorem newPressedKey_ne_fuel {R : Type} (k : LayeredKey R) (c : Ctx) : k.newPressedKey c ≠ .fuel := by
  unfold LayeredKey.newPressedKey highestActiveKey
  refine bind_ne_fuel (bind_ne_fuel (firstActive_ne_fuel _ _) (fun o _ => ?_)) (fun _ _ => by simp)
  cases o with
  | some r => simp
  | none =>
    simp only
    split
    · exact index_ne_fuel
    · simp

end Layered

namespace Chorded

theorem pressedFrom_ne_fuel (chords : List Chord) (bs : List Bool) (i : Nat) : pressedFrom chords i bs ≠ .fuel := by
  induction bs generalizing i with
  | nil => simp [pressedFrom]
  | cons b bs ih =>
    cases b with
    | true => exact bind_ne_fuel index_ne_fuel (fun _ _ => bind_ne_fuel (ih _) (fun _ _ => by simp))
    | false => exact ih _

theorem span_ne_fuel (c : Ctx) : c.span ≠ .fuel := by
  have h1 : ∀ cap span i, spanInsert cap span i ≠ .fuel := fun cap span i => by unfold spanInsert; ends
  have h2 : ∀ cap is span, spanInsertAll cap span is ≠ .fuel := by
    intro cap is
    induction is with
    | nil => simp [spanInsertAll]
    | cons i is ih => exact fun span => bind_ne_fuel (h1 _ _ _) (fun _ _ => ih _)
  have h3 : ∀ cap ps span, spanOf cap span ps ≠ .fuel := by
    intro cap ps
    induction ps with
    | nil => simp [spanOf]
    | cons p ps ih => exact fun span => bind_ne_fuel (h2 _ _ _) (fun _ _ => ih _)
  exact bind_ne_fuel (pressedFrom_ne_fuel _ _ _) (fun _ _ => h3 _ _ _)

theorem handleEvent_ne_fuel (c : Ctx) (e : Event Ev) : c.handleEvent e ≠ .fuel := by
  have h1 : ∀ (c : Ctx) idx, c.pressIndex idx ≠ .fuel := fun c idx => by
    unfold Ctx.pressIndex insertPressed; ends
  unfold Ctx.handleEvent
  split
  · refine bind_ne_fuel (h1 _ _) (fun _ _ => bind_ne_fuel (span_ne_fuel _) (fun _ _ => ?_))
    split
    · simp
    · split
      · exact bind_ne_fuel index_ne_fuel (fun _ _ => by simp)
      · simp
  · simp
  · split <;> simp
  · simp

theorem pressCommon_ne_fuel (c : Ctx) (idx : Nat) : pressCommon c idx ≠ .fuel := by
  refine bind_ne_fuel ?_ (fun _ _ => by simp)
  refine bind_ne_fuel pushCap_ne_fuel (fun _ _ => bind_ne_fuel ?_ (fun _ _ => by simp))
  refine bind_ne_fuel (bind_ne_fuel (pressedFrom_ne_fuel _ _ _) (fun _ _ => by simp)) (fun o _ => ?_)
  cases o with
  | some cs => simp
  | none => exact bind_ne_fuel (span_ne_fuel _) (fun _ _ => by simp)

theorem refFor_ne_fuel {R : Type} (k : Key R) (c : Ctx) (idx : Nat) (x : Resolution) : k.refFor c idx x ≠ .fuel := by
  cases x with
  | passthrough => simp [Key.refFor]
  | chord id =>
    simp only [Key.refFor]
    split
    · refine bind_ne_fuel index_ne_fuel (fun _ _ => ?_)
      split
      · split <;> simp
      · simp
    · simp

theorem sysNewPressedKey_ne_fuel {R : Type} (keys : List (Key R)) (aux : List R) (idx : Nat) (c : Ctx) (r : Ref) :
    sysNewPressedKey keys aux idx c r ≠ .fuel := by
  cases r with
  | chorded i =>
    refine bind_ne_fuel index_ne_fuel (fun _ _ => bind_ne_fuel (pressCommon_ne_fuel _ _) (fun x _ => ?_))
    cases x with
    | inl x => exact bind_ne_fuel (refFor_ne_fuel _ _ _ _) (fun _ _ => by simp)
    | inr x => simp
  | auxiliary i =>
    refine bind_ne_fuel index_ne_fuel (fun _ _ => bind_ne_fuel (pressCommon_ne_fuel _ _) (fun x _ => ?_))
    cases x <;> simp

theorem sysUpdatePending_ne_fuel {R : Type} (keys : List (Key R)) (aux : List R) (p : PKS) (idx : Nat) (c : Ctx) (r : Ref)
    (ev : Event Ev) : sysUpdatePending keys aux p idx c r ev ≠ .fuel := by
  have h1 : p.handleEvent c.config.maxChordSize idx ev ≠ .fuel := by
    unfold PKS.handleEvent
    split
    · simp
    · simp only; split <;> simp
    · split <;> simp
    · simp
  cases r with
  | chorded i =>
    refine bind_ne_fuel index_ne_fuel (fun _ _ => bind_ne_fuel h1 (fun x _ => ?_))
    obtain ⟨p', x⟩ := x
    cases x with
    | some x => exact bind_ne_fuel (refFor_ne_fuel _ _ _ _) (fun _ _ => by simp)
    | none => simp
  | auxiliary i =>
    refine bind_ne_fuel index_ne_fuel (fun _ _ => bind_ne_fuel h1 (fun x _ => ?_))
    obtain ⟨p', x⟩ := x
    cases x <;> simp

end Chorded

namespace Comp

theorem sub_ne_fuel {E C : Type} {conv : Ev → Option E} {inj : E → Ev} {h : C → Event E → Res (C × KeyEvents E)} {c : C}
    {pke : KeyEvents Ev} {ev : Event Ev} (hh : ∀ e, h c e ≠ .fuel) : sub conv inj h c pke ev ≠ .fuel := by
  unfold sub
  split
  · exact bind_ne_fuel (hh _) (fun _ _ => bind_ne_fuel (KeyEvents.extend_ne_fuel _ _) (fun _ _ => by simp))
  · simp

theorem handleEvent_ne_fuel (c : Ctx) (ev : Event Ev) : c.handleEvent ev ≠ .fuel :=
  bind_ne_fuel (sub_ne_fuel (Automation.handleEvent_ne_fuel _)) (fun _ _ =>
    bind_ne_fuel (sub_ne_fuel (fun _ => by simp)) (fun _ _ =>
      bind_ne_fuel (sub_ne_fuel (fun _ => map_ne_fuel (Chorded.handleEvent_ne_fuel _ _))) (fun _ _ =>
        bind_ne_fuel (sub_ne_fuel (fun _ => map_ne_fuel (Layered.handleEvent_ne_fuel _ _))) (fun _ _ =>
          bind_ne_fuel (sub_ne_fuel (Sticky.handleEvent_ne_fuel _)) (fun _ _ => by simp)))))

theorem newPressedKey_ne_fuel (K : Keys) (idx : Nat) (c : Ctx) (r : Ref) : newPressedKey K idx c r ≠ .fuel := by
  cases r with
  | automation i => exact bind_ne_fuel (bind_ne_fuel index_ne_fuel (fun _ _ => by simp)) (fun _ _ => by simp)
  | callback i => exact bind_ne_fuel (bind_ne_fuel index_ne_fuel (fun _ _ => by simp)) (fun _ _ => by simp)
  | capsWord => simp [newPressedKey]
  | chorded r => exact bind_ne_fuel (Chorded.sysNewPressedKey_ne_fuel _ _ _ _ _) (fun _ _ => by simp)
  | consumer _ => simp [newPressedKey]
  | custom _ => simp [newPressedKey]
  | keyboard _ => simp [newPressedKey]
  | mouse _ => simp [newPressedKey]
  | layered r =>
    refine bind_ne_fuel ?_ (fun _ _ => by simp)
    cases r with
    | modifier i => exact bind_ne_fuel index_ne_fuel (fun _ _ => by simp)
    | layered i =>
      exact bind_ne_fuel index_ne_fuel (fun _ _ => bind_ne_fuel (Layered.newPressedKey_ne_fuel _ _) (fun _ _ => by simp))
  | sticky i => exact bind_ne_fuel (bind_ne_fuel index_ne_fuel (fun _ _ => by simp)) (fun _ _ => by simp)
  | tapDance i => simp [newPressedKey]
  | tapHold i =>
    refine bind_ne_fuel ?_ (fun _ _ => by simp)
    unfold TapHold.newPressedKey
    split
    · split
      · simp
      · exact bind_ne_fuel index_ne_fuel (fun _ _ => by simp)
    · simp

theorem updatePending_ne_fuel (K : Keys) (p : PKS) (idx : Nat) (c : Ctx) (r : Ref) (ev : Event Ev) :
    updatePending K p idx c r ev ≠ .fuel := by
  unfold updatePending
  split
  · split
    · exact bind_ne_fuel (Chorded.sysUpdatePending_ne_fuel _ _ _ _ _ _ _) (fun _ _ => by simp)
    · simp
  · split
    · refine bind_ne_fuel ?_ (fun _ _ => by simp)
      unfold TapDance.updatePending
      refine bind_ne_fuel index_ne_fuel (fun k _ => bind_ne_fuel ?_ (fun x _ => ?_))
      · unfold TapDance.PKS.handleEvent
        ends
      · obtain ⟨p', res, es⟩ := x
        cases res with
        | some n => exact bind_ne_fuel index_ne_fuel (fun _ _ => bind_ne_fuel (unwrap_ne_fuel _) (fun _ _ => by simp))
        | none =>
          simp only
          split
          · simp
          · split
            · exact bind_ne_fuel index_ne_fuel (fun _ _ => bind_ne_fuel (unwrap_ne_fuel _) (fun _ _ => by simp))
            · simp
    · simp
  · split
    · refine bind_ne_fuel ?_ (fun _ _ => by simp)
      unfold TapHold.updatePending
      generalize TapHold.PKS.handleEvent _ _ _ _ = q
      obtain ⟨q, st⟩ := q
      cases st with
      | none => simp
      | some st => exact bind_ne_fuel index_ne_fuel (fun _ _ => by simp)
    · simp
  · simp

theorem updateState_ne_fuel (K : Keys) (ks : KS) (r : Ref) (c : Ctx) (idx : Nat) (ev : Event Ev) :
    updateState K ks r c idx ev ≠ .fuel := by
  unfold updateState
  split
  · split
    · refine bind_ne_fuel ?_ (fun _ _ => by simp)
      unfold Automation.sysUpdateState
      ends
    · simp
  · split
    · refine bind_ne_fuel ?_ (fun _ _ => by simp)
      unfold Layered.sysUpdateState
      ends
    · simp
  · split
    · refine bind_ne_fuel ?_ (fun _ _ => by simp)
      exact bind_ne_fuel index_ne_fuel (fun _ _ => by simp)
    · simp
  · simp

theorem keyOutput_ne_fuel (K : Keys) (r : Ref) (ks : KS) : keyOutput K r ks ≠ .fuel := by
  unfold keyOutput
  split
  · simp
  · simp
  · unfold Keyboard.keyOutput; ends
  · unfold Mouse.keyOutput; ends
  · exact bind_ne_fuel index_ne_fuel (fun _ _ => by simp)
  · simp

/-! ## What the immediate events lead to -/

/-- The weight of an event: more than twice that of all immediate events it can lead to. -/
def weight : Event Ev → Nat
  | .key _ (.automation .executionFinished) => 97
  | .key _ (.automation _) => 3
  | .key _ (.capsWord _) => 3
  | .keymap _ => 3
  | _ => 1

/-- A bound for the events the context schedules for an event. -/
def ctxWeight : Event Ev → Nat
  | .key _ (.automation .executionFinished) => 0
  | .key _ (.automation _) => 1
  | .key _ (.capsWord _) => 1
  | .keymap _ => 1
  | _ => 0

/-- A bound for the events one pressed key schedules for an event. -/
def keyWeight : Event Ev → Nat
  | .key _ (.automation .executionFinished) => 3
  | _ => 0

theorem immWeight_append {E : Type} (w : Event E → Nat) (p q : KeyEvents E) :
    immWeight w (p ++ q) = immWeight w p + immWeight w q := by
  induction p with
  | nil => simp [immWeight]
  | cons x p ih => simp [immWeight, ih]; omega

theorem sub_weight {E C : Type} {conv : Ev → Option E} {inj : E → Ev} {h : C → Event E → Res (C × KeyEvents E)}
    {c c' : C} {pke pke' : KeyEvents Ev} {ev : Event Ev} {B : Nat} (hs : sub conv inj h c pke ev = .ok (c', pke'))
    (hB : ∀ e es, ev.tryInto conv = some e → h c e = .ok (c', es) → immWeight weight (KeyEvents.mapEv inj es) ≤ B) :
    immWeight weight pke' ≤ immWeight weight pke + B := by
  rcases sub_spec hs with ⟨_, _, rfl⟩ | ⟨e, es, he, h1, h2⟩
  · omega
  · rw [(KeyEvents.extend_eq_ok.1 h2).2, immWeight_append]
    have := hB e es he h1
    omega

theorem executeHead_weight {c c' : Automation.Ctx} {idx : Nat} {es : KeyEvents Automation.Ev}
    (h : c.executeHead idx = .ok (c', es)) : immWeight weight (KeyEvents.mapEv Ev.automation es) ≤ 1 := by
  unfold Automation.Ctx.executeHead at h
  obtain ⟨head, _, h⟩ := Res.bind_eq_ok.1 h
  obtain ⟨es1, h1, h⟩ := Res.bind_eq_ok.1 h
  obtain ⟨head', _, h⟩ := Res.bind_eq_ok.1 h
  have hw : immWeight weight (KeyEvents.mapEv Ev.automation es1) ≤ 1 := by
    unfold Automation.keyEventsFor at h1
    obtain ⟨inst, _, h1⟩ := Res.bind_eq_ok.1 h1
    simp only [Res.pure_eq, Res.ok.injEq] at h1
    subst h1
    cases inst <;> simp [KeyEvents.mapEv, SchEv.map, SchEv.imm, SchEv.after, immWeight, Event.map, weight]
  split at h
  · obtain ⟨next, _, h⟩ := Res.bind_eq_ok.1 h
    split at h
    · simp only [Res.pure_eq, Res.ok.injEq, Prod.mk.injEq] at h
      rw [← h.2]; exact hw
    · obtain ⟨es2, h2, h⟩ := Res.bind_eq_ok.1 h
      simp only [Res.pure_eq, Res.ok.injEq, Prod.mk.injEq] at h
      rw [← h.2, (KeyEvents.push_eq_ok.1 h2).2]
      simp only [KeyEvents.mapEv, List.map_append, immWeight_append] at hw ⊢
      simpa [SchEv.map, SchEv.after, immWeight] using hw
  · simp only [Res.pure_eq, Res.ok.injEq, Prod.mk.injEq] at h
    rw [← h.2]; exact hw

theorem ctx_weight {c c' : Ctx} {ev : Event Ev} {es : KeyEvents Ev} (hQ : NonPhys ev) (h : c.handleEvent ev = .ok (c', es)) :
    immWeight weight es ≤ ctxWeight ev := by
  obtain ⟨p1, p2, p3, p4, h1, h2, h3, h4, h5, _⟩ := handleEvent_parts h
  have e5 : immWeight weight es ≤ immWeight weight p4 + 0 := sub_weight h5 (fun e es he hh => by
    suffices es = [] by subst this; simp [KeyEvents.mapEv, immWeight]
    cases e with
    | key i e =>
      cases e
      simp only [Sticky.Ctx.handleEvent] at hh
      split at hh <;> simp_all
    | keymap e =>
      cases e <;> simp only [Sticky.Ctx.handleEvent] at hh
      · simp_all
      · split at hh <;> simp_all
    | input e =>
      have hev : ev = .input e := by
        cases ev <;> simp [Event.tryInto] at he
        subst he; rfl
      subst hev
      cases e <;> simp_all [NonPhys, Spec.physical, Sticky.Ctx.handleEvent])
  have e4 : immWeight weight p4 ≤ immWeight weight p3 + 0 := sub_weight h4 (fun e es he hh => by
    rw [(map_fst_nil hh).2]; simp [KeyEvents.mapEv, immWeight])
  have e3 : immWeight weight p3 ≤ immWeight weight p2 + 0 := sub_weight h3 (fun e es he hh => by
    rw [(map_fst_nil hh).2]; simp [KeyEvents.mapEv, immWeight])
  cases ev with
  | input ie =>
    have e2 : immWeight weight p2 ≤ immWeight weight p1 + 0 := sub_weight h2 (fun e es he hh => by
      simp only [Event.tryInto, Option.some.injEq] at he
      subst he
      simp only [CapsWord.Ctx.handleEvent, Res.ok.injEq, Prod.mk.injEq] at hh
      rw [← hh.2]; simp [KeyEvents.mapEv, immWeight])
    have e1 : immWeight weight p1 ≤ immWeight weight ([] : KeyEvents Ev) + 0 := sub_weight h1 (fun e es he hh => by
      simp only [Event.tryInto, Option.some.injEq] at he
      subst he
      simp only [Automation.Ctx.handleEvent, Res.ok.injEq, Prod.mk.injEq] at hh
      rw [← hh.2]; simp [KeyEvents.mapEv, immWeight])
    simp only [immWeight] at e1
    omega
  | keymap ke =>
    have e2 : immWeight weight p2 ≤ immWeight weight p1 + 1 := sub_weight h2 (fun e es he hh => by
      simp only [Event.tryInto, Option.some.injEq] at he
      subst he
      cases ke with
      | callback cb =>
        simp only [CapsWord.Ctx.handleEvent, Res.ok.injEq, Prod.mk.injEq] at hh
        rw [← hh.2]; simp [KeyEvents.mapEv, immWeight]
      | resolved i ko =>
        simp only [CapsWord.Ctx.handleEvent, Res.ok.injEq] at hh
        split at hh
        · split at hh <;> simp only [Prod.mk.injEq] at hh <;> rw [← hh.2] <;>
            simp [KeyEvents.mapEv, SchEv.map, SchEv.imm, immWeight, Event.map, weight]
        · simp only [Prod.mk.injEq] at hh
          rw [← hh.2]; simp [KeyEvents.mapEv, immWeight])
    have e1 : immWeight weight p1 ≤ immWeight weight ([] : KeyEvents Ev) + 0 := sub_weight h1 (fun e es he hh => by
      simp only [Event.tryInto, Option.some.injEq] at he
      subst he
      simp only [Automation.Ctx.handleEvent, Res.ok.injEq, Prod.mk.injEq] at hh
      rw [← hh.2]; simp [KeyEvents.mapEv, immWeight])
    simp only [immWeight] at e1
    simp only [ctxWeight]
    omega
  | key i e =>
    cases e with
    | automation e =>
      have e2 : immWeight weight p2 ≤ immWeight weight p1 + 0 := sub_weight h2 (fun e es he hh => by
        simp [Event.tryInto, Ev.toCapsWord?] at he)
      have e1 : immWeight weight p1 ≤ immWeight weight ([] : KeyEvents Ev) + ctxWeight (.key i (.automation e)) :=
        sub_weight h1 (fun e' es he hh => by
          simp only [Event.tryInto, Ev.toAutomation?, Option.map_some, Option.some.injEq] at he
          subst he
          cases e with
          | enqueue x =>
            simp only [Automation.Ctx.handleEvent] at hh
            split at hh
            · simp only [Res.ok.injEq, Prod.mk.injEq] at hh
              rw [← hh.2]; simp [KeyEvents.mapEv, immWeight]
            · obtain ⟨head, _, hh⟩ := Res.bind_eq_ok.1 hh
              split at hh
              · exact executeHead_weight hh
              · simp only [Res.pure_eq, Res.ok.injEq, Prod.mk.injEq] at hh
                rw [← hh.2]; simp [KeyEvents.mapEv, immWeight]
          | nextInstruction =>
            simp only [Automation.Ctx.handleEvent] at hh
            obtain ⟨head, _, hh⟩ := Res.bind_eq_ok.1 hh
            split at hh
            · simp only [Res.pure_eq, Res.ok.injEq, Prod.mk.injEq] at hh
              rw [← hh.2]; simp [KeyEvents.mapEv, immWeight]
            · exact executeHead_weight hh
          | executionFinished =>
            simp only [Automation.Ctx.handleEvent, Res.ok.injEq, Prod.mk.injEq] at hh
            rw [← hh.2]; simp [KeyEvents.mapEv, immWeight])
      simp only [immWeight] at e1
      omega
    | capsWord e =>
      have e2 : immWeight weight p2 ≤ immWeight weight p1 + 1 := sub_weight h2 (fun e' es he hh => by
        simp only [Event.tryInto, Ev.toCapsWord?, Option.map_some, Option.some.injEq] at he
        subst he
        cases e <;> simp only [CapsWord.Ctx.handleEvent, Res.ok.injEq, Prod.mk.injEq] at hh <;> rw [← hh.2] <;>
          simp [KeyEvents.mapEv, SchEv.map, SchEv.imm, immWeight, Event.map, weight])
      have e1 : immWeight weight p1 ≤ immWeight weight ([] : KeyEvents Ev) + 0 := sub_weight h1 (fun e es he hh => by
        simp [Event.tryInto, Ev.toAutomation?] at he)
      simp only [immWeight] at e1
      simp only [ctxWeight]
      omega
    | chorded e | layered e | sticky e | tapDance e | tapHold e =>
      have e2 : immWeight weight p2 ≤ immWeight weight p1 + 0 := sub_weight h2 (fun e es he hh => by
        simp [Event.tryInto, Ev.toCapsWord?] at he)
      have e1 : immWeight weight p1 ≤ immWeight weight ([] : KeyEvents Ev) + 0 := sub_weight h1 (fun e es he hh => by
        simp [Event.tryInto, Ev.toAutomation?] at he)
      simp only [immWeight] at e1
      omega

theorem state_weight {K : Keys} {ks ks' : KS} {r : Ref} {c : Ctx} {idx : Nat} {ev : Event Ev} {es : KeyEvents Ev}
    (hQ : NonPhys ev) (h : updateState K ks r c idx ev = .ok (ks', es)) : immWeight weight es ≤ keyWeight ev := by
  unfold updateState at h
  split at h
  · split at h
    · rename_i ev' he
      obtain ⟨es1, h1, h2⟩ := Res.bind_eq_ok.1 h
      simp only [Res.pure_eq, Res.ok.injEq, Prod.mk.injEq] at h2
      rw [← h2.2]
      cases ev with
      | input ie =>
        simp only [Event.tryInto, Option.some.injEq] at he
        subst he
        cases ie with
        | press i => simp [NonPhys, Spec.physical] at hQ
        | release i => simp [NonPhys, Spec.physical] at hQ
        | vpress ko =>
          simp only [Automation.sysUpdateState, Res.ok.injEq] at h1
          rw [← h1]; simp [KeyEvents.mapEv, immWeight]
        | vrelease ko =>
          simp only [Automation.sysUpdateState, Res.ok.injEq] at h1
          rw [← h1]; simp [KeyEvents.mapEv, immWeight]
      | keymap ke =>
        simp only [Event.tryInto, Option.some.injEq] at he
        subst he
        simp only [Automation.sysUpdateState, Res.ok.injEq] at h1
        rw [← h1]; simp [KeyEvents.mapEv, immWeight]
      | key i e =>
        cases e <;> simp [Event.tryInto, Ev.toAutomation?] at he
        subst he
        rename_i e
        cases e <;> simp only [Automation.sysUpdateState, Res.ok.injEq] at h1
        · rw [← h1]; simp [KeyEvents.mapEv, immWeight]
        · rw [← h1]; simp [KeyEvents.mapEv, immWeight]
        · split at h1
          · obtain ⟨k, _, h1⟩ := Res.bind_eq_ok.1 h1
            simp only [Res.pure_eq, Res.ok.injEq] at h1
            rw [← h1]
            simp [KeyEvents.mapEv, SchEv.map, SchEv.imm, immWeight, Event.map, weight, keyWeight]
          · simp only [Res.ok.injEq] at h1
            rw [← h1]; simp [KeyEvents.mapEv, immWeight]
    · simp only [Res.ok.injEq, Prod.mk.injEq] at h
      rw [← h.2]; simp [immWeight]
  · split at h
    · rename_i r b _ ev' he
      obtain ⟨⟨b', es1⟩, h1, h2⟩ := Res.bind_eq_ok.1 h
      simp only [Res.pure_eq, Res.ok.injEq, Prod.mk.injEq] at h2
      rw [← h2.2]
      suffices es1 = [] by subst this; simp [KeyEvents.mapEv, immWeight]
      unfold Layered.sysUpdateState at h1
      split at h1
      · obtain ⟨k, _, h1⟩ := Res.bind_eq_ok.1 h1
        simp only [Res.pure_eq, Res.ok.injEq, Prod.mk.injEq] at h1
        rw [← h1.2]
        have hn : (Layered.handleKeyEvent b idx ev' k).2 = none := by
          cases ev with
          | input ie =>
            simp only [Event.tryInto, Option.some.injEq] at he
            subst he
            cases ie <;> cases k <;> simp_all [NonPhys, Spec.physical, Layered.handleKeyEvent]
          | keymap ke =>
            simp only [Event.tryInto, Option.some.injEq] at he
            subst he
            cases k <;> simp [Layered.handleKeyEvent]
          | key i e =>
            simp only [Event.tryInto] at he
            cases hc : Ev.toLayered? e with
            | none => simp [hc] at he
            | some e' =>
              simp only [hc, Option.map_some, Option.some.injEq] at he
              subst he
              cases k <;> simp [Layered.handleKeyEvent]
        rw [hn]
      · simp only [Res.ok.injEq, Prod.mk.injEq] at h1
        exact h1.2.symm
    · simp only [Res.ok.injEq, Prod.mk.injEq] at h
      rw [← h.2]; simp [immWeight]
  · split at h
    · rename_i i b _ ev' he
      obtain ⟨⟨b', es1⟩, h1, h2⟩ := Res.bind_eq_ok.1 h
      simp only [Res.pure_eq, Res.ok.injEq, Prod.mk.injEq] at h2
      rw [← h2.2]
      suffices es1 = [] by subst this; simp [KeyEvents.mapEv, immWeight]
      obtain ⟨m, _, h1⟩ := Res.bind_eq_ok.1 h1
      simp only [Res.pure_eq, Res.ok.injEq] at h1
      have h1 : (Sticky.updateState b m idx ev').2 = es1 := by rw [h1]
      rw [← h1]
      cases b with
      | regular => rfl
      | sticky =>
        cases ev with
        | input ie =>
          simp only [Event.tryInto, Option.some.injEq] at he
          subst he
          cases ie <;> simp_all [NonPhys, Spec.physical, Sticky.updateState]
        | keymap ke =>
          simp only [Event.tryInto, Option.some.injEq] at he
          subst he
          cases ke <;> simp [Sticky.updateState]
        | key i e =>
          simp only [Event.tryInto] at he
          cases hc : Ev.toSticky? e with
          | none => simp [hc] at he
          | some e' =>
            simp only [hc, Option.map_some, Option.some.injEq] at he
            subst he
            simp [Sticky.updateState]
    · simp only [Res.ok.injEq, Prod.mk.injEq] at h
      rw [← h.2]; simp [immWeight]
  · simp only [Res.ok.injEq, Prod.mk.injEq] at h
    rw [← h.2]; simp [immWeight]

/-- A key that goes on waiting schedules no immediate events. -/
theorem wait_weight {K : Keys} {p p' : PKS} {idx : Nat} {c : Ctx} {r : Ref} {ev : Event Ev} {es : KeyEvents Ev}
    (h : updatePending K p idx c r ev = .ok (p', none, es)) : immWeight weight es = 0 := by
  unfold updatePending at h
  split at h
  · split at h
    · rename_i r p _ ev' _
      obtain ⟨⟨p1, npk, es1⟩, h1, h2⟩ := Res.bind_eq_ok.1 h
      simp only [Res.pure_eq, Res.ok.injEq, Prod.mk.injEq] at h2
      obtain ⟨_, rfl, rfl⟩ := h2
      suffices es1 = [] by subst this; simp [KeyEvents.mapEv, immWeight]
      cases r with
      | chorded i =>
        obtain ⟨k, _, h1⟩ := Res.bind_eq_ok.1 h1
        obtain ⟨⟨p2, x⟩, _, h1⟩ := Res.bind_eq_ok.1 h1
        cases x with
        | some x =>
          obtain ⟨n, _, h1⟩ := Res.bind_eq_ok.1 h1
          simp at h1
        | none => simp_all
      | auxiliary i =>
        obtain ⟨k, _, h1⟩ := Res.bind_eq_ok.1 h1
        obtain ⟨⟨p2, x⟩, _, h1⟩ := Res.bind_eq_ok.1 h1
        cases x <;> simp_all
    · simp only [Res.ok.injEq, Prod.mk.injEq] at h
      rw [← h.2.2]; simp [immWeight]
  · split at h
    · rename_i i p _ ev' _
      obtain ⟨⟨p1, npk, es1⟩, h1, h2⟩ := Res.bind_eq_ok.1 h
      simp only [Res.pure_eq, Res.ok.injEq, Prod.mk.injEq] at h2
      obtain ⟨_, rfl, rfl⟩ := h2
      unfold TapDance.updatePending at h1
      obtain ⟨k, _, h1⟩ := Res.bind_eq_ok.1 h1
      obtain ⟨⟨p2, x, es2⟩, h0, h1⟩ := Res.bind_eq_ok.1 h1
      have hw : immWeight weight (KeyEvents.mapEv Ev.tapDance es2) = 0 := by
        unfold TapDance.PKS.handleEvent at h0
        split at h0
        · split at h0 <;> simp only [Res.ok.injEq, Prod.mk.injEq] at h0 <;> rw [← h0.2.2] <;>
            simp [KeyEvents.mapEv, immWeight]
        · split at h0
          · split at h0
            · simp only [Res.ok.injEq, Prod.mk.injEq] at h0
              rw [← h0.2.2]; simp [KeyEvents.mapEv, SchEv.map, SchEv.after, immWeight]
            · simp at h0
          · simp only [Res.ok.injEq, Prod.mk.injEq] at h0
            rw [← h0.2.2]; simp [KeyEvents.mapEv, immWeight]
        · simp only [Res.ok.injEq, Prod.mk.injEq] at h0
          rw [← h0.2.2]; simp [KeyEvents.mapEv, immWeight]
      cases x with
      | some n =>
        obtain ⟨d, _, h1⟩ := Res.bind_eq_ok.1 h1
        obtain ⟨r, _, h1⟩ := Res.bind_eq_ok.1 h1
        simp at h1
      | none =>
        simp only at h1
        split at h1
        · simp at h1
        · split at h1
          · obtain ⟨d, _, h1⟩ := Res.bind_eq_ok.1 h1
            obtain ⟨r, _, h1⟩ := Res.bind_eq_ok.1 h1
            simp at h1
          · simp only [Res.ok.injEq, Prod.mk.injEq] at h1
            rw [← h1.2.2]; exact hw
    · simp only [Res.ok.injEq, Prod.mk.injEq] at h
      rw [← h.2.2]; simp [immWeight]
  · split at h
    · rename_i i p _ ev' _
      obtain ⟨⟨p1, npk, es1⟩, h1, h2⟩ := Res.bind_eq_ok.1 h
      simp only [Res.pure_eq, Res.ok.injEq, Prod.mk.injEq] at h2
      obtain ⟨_, rfl, rfl⟩ := h2
      suffices es1 = [] by subst this; simp [KeyEvents.mapEv, immWeight]
      unfold TapHold.updatePending at h1
      generalize TapHold.PKS.handleEvent _ _ _ _ = q at h1
      obtain ⟨q, st⟩ := q
      cases st with
      | none => simp_all
      | some st =>
        obtain ⟨k, _, h1⟩ := Res.bind_eq_ok.1 h1
        simp at h1
    · simp only [Res.ok.injEq, Prod.mk.injEq] at h
      rw [← h.2.2]; simp [immWeight]
  · simp at h

/-! ## Key references without cycles -/

/-- No key refers back to itself, directly or through other keys. -/
def Acyclic (K : Keys) : Prop := ∀ r r', Child K r r' → ¬ Leads K r' r

/-- The keys with entries that refer to other keys. -/
def Keys.nested (K : Keys) : List Ref :=
  (List.range K.layered.length).map (fun i => .layered (.layered i)) ++ (List.range K.tapHold.length).map .tapHold ++
  (List.range K.tapDance.length).map .tapDance ++ (List.range K.chorded.length).map (fun i => .chorded (.chorded i)) ++
  (List.range K.chordedAux.length).map (fun i => .chorded (.auxiliary i))

theorem child_nested {K : Keys} {r r' : Ref} (h : Child K r r') : r ∈ K.nested := by
  have hlt : ∀ {α : Type} {l : List α} {i : Nat} {x : α}, l[i]? = some x → i < l.length := by
    intro α l i x h
    exact (List.getElem?_eq_some_iff.1 h).1
  cases h with
  | base h | layer h _ | tap h | hold h | tapDance h _ | chord h _ | passthrough h | aux h =>
    have := hlt h
    simp [Keys.nested, this]

open Classical in
/-- How many keys with entries a key leads to. -/
noncomputable def rank (K : Keys) (r : Ref) : Nat := K.nested.countP (fun x => decide (Leads K r x))

theorem countP_lt {α : Type} {p q : α → Bool} {l : List α} {x : α} (h : ∀ y, p y = true → q y = true) (hx : x ∈ l)
    (hp : p x = false) (hq : q x = true) : l.countP p < l.countP q := by
  induction l with
  | nil => simp at hx
  | cons y l ih =>
    have hle : l.countP p ≤ l.countP q := List.countP_mono_left (fun y _ => h y)
    simp only [List.countP_cons]
    rcases List.mem_cons.1 hx with rfl | hx
    · simp [hp, hq]; omega
    · have := ih hx
      cases hpy : p y with
      | false => simp; omega
      | true => simp [h y hpy]; omega

theorem rank_lt {K : Keys} (hK : Acyclic K) {r r' : Ref} (h : Child K r r') : rank K r' < rank K r := by
  unfold rank
  refine countP_lt (x := r) ?_ (child_nested h) ?_ ?_
  · intro y hy
    simp only [decide_eq_true_eq] at hy ⊢
    exact .step h hy
  · simpa using hK r r' h
  · simpa using Leads.refl r

theorem cascade {K : Keys} (hK : Acyclic K) (refs : List Ref) (S : Search) :
    Cascade ⟨system K, refs, S⟩ (rank K) weight ctxWeight keyWeight where
  npk_ends := newPressedKey_ne_fuel K
  pend_ends := updatePending_ne_fuel K
  state_ends := updateState_ne_fuel K
  ctx_ends := handleEvent_ne_fuel
  output_ends := keyOutput_ne_fuel K
  emits := emits_nonPhys K refs S
  ctx := fun _ _ _ _ hQ h => ctx_weight hQ h
  state := fun _ _ c _ _ _ _ hQ h => state_weight (c := c) hQ h
  weight := by
    intro ev _
    unfold weight ctxWeight keyWeight
    split <;> simp_all [maxPressedKeys]
  wait := fun _ _ _ _ _ _ _ h => wait_weight h
  npk := fun _ _ _ _ _ h => rank_lt hK (npk_child h)
  pend := fun _ _ _ _ _ _ _ _ h => rank_lt hK (pend_child h)

/-! ## The theorems -/

/-- C45. If no key refers back to itself, every call of the keymap, in any state that can be reached, comes to an end:
there is a recursion depth from which on it returns or panics, always with the same result. -/
theorem C45_call (K : Keys) (refs : List Ref) (S : Search) (ctx : Ctx) (hK : Acyclic K) (km : KM Ref Ev Ctx PKS KS)
    (h : Reachable ⟨system K, refs, S⟩ ctx km) (op : Op) :
    ∃ N r, r ≠ .fuel ∧ ∀ n, N ≤ n → step ⟨system K, refs, S⟩ n km op = r := by
  have hi : HaltInv km := (halt_api (cascade hK refs S)).of_reachable
    ⟨by simp [KM.new], (qinv_api NonPhys (emits_nonPhys K refs S)).of_reachable (QInv.new _ _) ⟨0, [], rfl⟩⟩ h
  obtain ⟨r, hr, N, hN⟩ := step_ends (cascade hK refs S) op hi
  exact ⟨N, r, hr, fun n hn => hN n n n hn hn hn⟩

/-- C45, for any sequence of calls from the start. -/
theorem C45_history (K : Keys) (refs : List Ref) (S : Search) (ctx : Ctx) (hK : Acyclic K) (ops : List Op) :
    ∃ N r, r ≠ .fuel ∧ ∀ n, N ≤ n → run ⟨system K, refs, S⟩ n (KM.new ctx) ops = r := by
  have hi : HaltInv (KM.new ctx : KM Ref Ev Ctx PKS KS) :=
    ⟨by simp [KM.new], (qinv_api NonPhys (emits_nonPhys K refs S)).of_reachable (QInv.new _ _) ⟨0, [], rfl⟩⟩
  obtain ⟨r, hr, N, hN⟩ := run_ends (cascade hK refs S) ops hi
  exact ⟨N, r, hr, fun n hn => hN n n n hn hn hn⟩

/-- C45. A result, once found, does not depend on the recursion limit: any larger limit gives the same. So the limits
in the theorems about `run` say nothing about the code. -/
theorem C45_limit (K : Keys) (refs : List Ref) (S : Search) (km : KM Ref Ev Ctx PKS KS) (ops : List Op) (n n' : Nat)
    (hn : n ≤ n') (h : run ⟨system K, refs, S⟩ n km ops ≠ .fuel) :
    run ⟨system K, refs, S⟩ n' km ops = run ⟨system K, refs, S⟩ n km ops := by
  rcases run_below hn km ops with h1 | h1
  · exact absurd h1 h
  · exact h1.symm

/-! ## How to see that there is no cycle -/

/-- In every table entry, `f` is smaller for the keys written there than for the key itself. -/
def Keys.decreasing (K : Keys) (f : Ref → Nat) : Bool :=
  K.layered.zipIdx.all (fun (k, i) => f k.base < f (.layered (.layered i)) &&
    k.layered.all (fun o => o.all (f · < f (.layered (.layered i))))) &&
  K.tapHold.zipIdx.all (fun (k, i) => f k.tap < f (.tapHold i) && f k.hold < f (.tapHold i)) &&
  K.tapDance.zipIdx.all (fun (k, i) => k.definitions.all (fun o => o.all (f · < f (.tapDance i)))) &&
  K.chorded.zipIdx.all (fun (k, i) => f k.passthrough < f (.chorded (.chorded i)) &&
    k.chords.all (fun c => f c.2 < f (.chorded (.chorded i)))) &&
  K.chordedAux.zipIdx.all (fun (r, i) => f r < f (.chorded (.auxiliary i)))

theorem decreasing_child {K : Keys} {f : Ref → Nat} (h : K.decreasing f = true) {r r' : Ref} (hc : Child K r r') :
    f r' < f r := by
  have hz : ∀ {α : Type} {l : List α} {i : Nat} {x : α}, l[i]? = some x → (x, i) ∈ l.zipIdx := by
    intro α l i x h
    exact List.mem_zipIdx_iff_getElem?.2 h
  simp only [Keys.decreasing, Bool.and_eq_true, List.all_eq_true, decide_eq_true_eq] at h
  obtain ⟨⟨⟨⟨h1, h2⟩, h3⟩, h4⟩, h5⟩ := h
  cases hc with
  | base hk => exact (h1 _ (hz hk)).1
  | layer hk hm => simpa using (h1 _ (hz hk)).2 _ hm
  | tap hk => exact (h2 _ (hz hk)).1
  | hold hk => exact (h2 _ (hz hk)).2
  | tapDance hk hm => simpa using h3 _ (hz hk) _ hm
  | chord hk hm => exact (h4 _ (hz hk)).2 _ hm
  | passthrough hk => exact (h4 _ (hz hk)).1
  | aux hk => exact h5 _ (hz hk)

theorem decreasing_acyclic {K : Keys} (f : Ref → Nat) (h : K.decreasing f = true) : Acyclic K := by
  have hl : ∀ {r r'}, Leads K r r' → f r' ≤ f r := by
    intro r r' hl
    induction hl with
    | refl => exact Nat.le_refl _
    | step hc _ ih => exact Nat.le_trans ih (Nat.le_of_lt (decreasing_child h hc))
  intro r r' hc hl'
  have := decreasing_child h hc
  have := hl hl'
  omega

/-- The example keymap has no cycle. -/
theorem ex_acyclic : Acyclic Ex.K := by
  refine decreasing_acyclic (fun r => match r with
    | .layered (.layered _) => 1 | .tapHold _ => 1 | .tapDance _ => 1 | .chorded _ => 1 | _ => 0) ?_
  decide

/-- So that all calls of it end. -/
example (ops : List Op) : ∃ N r, r ≠ .fuel ∧ ∀ n, N ≤ n → run Ex.C n Ex.km0 ops = r :=
  C45_history Ex.K Ex.refs Search.std Ex.ctx ex_acyclic ops

/-- Also with keys inside of keys: a tap-hold key in a tap-dance key on a layer. -/
def nestedK : Keys where
  tapHold := [⟨.keyboard (.keyCode 4), .layered (.modifier 0)⟩]
  layerMods := [.hold 1]
  tapDance := [⟨[some (.tapHold 0), some (.keyboard (.keyCode 5))]⟩]
  layered := [⟨.keyboard (.keyCode 6), [some (.tapDance 0)]⟩]

example : Acyclic nestedK := by
  refine decreasing_acyclic (fun r => match r with
    | .layered (.layered _) => 3 | .tapDance _ => 2 | .tapHold _ => 1 | _ => 0) ?_
  decide

/-- A layered key that stands for itself. -/
def selfK : Keys where
  layered := [⟨.layered (.layered 0), []⟩]

/-- The keymap with that key. -/
def selfC : Cfg Ref Ev Ctx PKS KS := ⟨system selfK, [.layered (.layered 0)], Search.std⟩

theorem self_loop (he : Handler Ref Ev Ctx PKS KS) (m : Nat) (km : KM Ref Ev Ctx PKS KS)
    (hl : km.ctx.layered = Layered.Ctx.new 0) : pressLoop selfC he 0 m km (.layered (.layered 0)) = .fuel := by
  induction m with
  | zero => rfl
  | succ m ih =>
    have h : selfC.sys.newPressedKey 0 km.ctx (.layered (.layered 0)) =
        .ok (.newPressedKey (.key (.layered (.layered 0))), []) := by
      show newPressedKey selfK 0 km.ctx (.layered (.layered 0)) = _
      simp only [newPressedKey, hl]
      rfl
    simp only [pressLoop, h]
    exact ih

/-- C45, why cycles are excluded: pressing a key that stands for itself never ends, whatever the depth. -/
theorem C45_self_reference (n : Nat) :
    run selfC n (KM.new (Ctx.fromConfig { Ex.config with layerCount := 0 })) [.input (.press 0)] = .fuel := by
  have h : ∀ he, processDirect selfC he n { (KM.new (Ctx.fromConfig { Ex.config with layerCount := 0 }) :
      KM Ref Ev Ctx PKS KS) with idle := 0, inq := [], log := [.press 0] } (.press 0) = .fuel := by
    intro he
    exact self_loop he n _ rfl
  simp only [run, step, handleInput, processInputN, processInput, KM.new]
  have h2 := h (handleEvent selfC n)
  simp only [KM.new] at h2
  simp [inputCap, h2]

end Comp

end Verif
