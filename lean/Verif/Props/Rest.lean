import Verif.Lemmas.Rest
import Verif.Props.Down
import Verif.Props.Halt

/-! # The keymap comes to rest -/

namespace Verif.Comp

open _root_.Verif.Spec

namespace Resting

open _root_.Verif.Rest

/-- What one instruction of a macro can lead to, and how long it takes, if no delay is longer than `M`. -/
def unit (M : Nat) : Nat := 27 + 3 * M

/-- What an event can lead to. -/
def wt (M : Nat) : Event Ev → Nat
  | .key _ (.automation (.enqueue x)) => x.length * unit M + 1
  | .key _ (.automation .nextInstruction) => 1
  | .key _ (.automation .executionFinished) => 17
  | .key _ (.capsWord _) => 4
  | .key _ _ => 1
  | .keymap _ => 4
  | .input _ => 3

/-- What the context makes of an event. -/
def ctxWt (M : Nat) : Event Ev → Nat
  | .key _ (.automation (.enqueue x)) => x.length * unit M
  | .key _ (.capsWord _) => 3
  | .keymap _ => 3
  | _ => 0

/-- What the macros make of an event. -/
def autoWt (M : Nat) : Event Ev → Nat
  | .key _ (.automation (.enqueue x)) => x.length * unit M
  | _ => 0

/-- What caps word makes of an event. -/
def capsWt : Event Ev → Nat
  | .key _ (.capsWord _) => 3
  | .keymap _ => 3
  | _ => 0

/-- What a pressed key makes of an event. -/
def keyWt : Event Ev → Nat
  | .key _ (.automation .executionFinished) => 1
  | _ => 0

/-- Waiting macros. -/
def queuePot (M : Nat) (q : List Automation.Execution) : Nat := (q.map (fun x => x.length * unit M)).sum

/-- Waiting macros. -/
def cpot (M : Nat) (c : Ctx) : Nat := queuePot M c.automation.queue

/-- No delay is longer than `M`. -/
structure Good (M : Nat) (c : Ctx) : Prop where
  duration : c.automation.config.duration ≤ M
  wait : ∀ t, .wait t ∈ c.automation.config.instructions → t ≤ M
  chorded : c.chorded.config.timeout ≤ M
  tapDance : c.tapDance.timeout ≤ M
  tapHold : c.tapHold.config.timeout ≤ M

/-- The instructions of all macros. -/
def macros (K : Keys) : Nat := (K.automation.map (fun k => k.onPress.length + k.onRelease.length)).sum

/-- A bound for what a key does when it is pressed, released or decided. -/
def bound (K : Keys) (M : Nat) : Nat := 20 + M + macros K * unit M

theorem cost_append (w : Event Ev → Nat) (p q : KeyEvents Ev) : cost w (p ++ q) = cost w p + cost w q := by
  induction p with
  | nil => simp [cost]
  | cons x p ih => simp only [List.cons_append, cost, ih]; omega

theorem sub_cost {E C : Type} {conv : Ev → Option E} {inj : E → Ev} {h : C → Event E → Res (C × KeyEvents E)}
    {c c' : C} {pke pke' : KeyEvents Ev} {ev : Event Ev} {p : C → Nat} {B : Nat} {w : Event Ev → Nat}
    (hs : sub conv inj h c pke ev = .ok (c', pke'))
    (hB : ∀ e es, ev.tryInto conv = some e → h c e = .ok (c', es) → cost w (KeyEvents.mapEv inj es) + p c' ≤ p c + B) :
    cost w pke' + p c' ≤ cost w pke + p c + B := by
  rcases sub_spec hs with ⟨_, rfl, rfl⟩ | ⟨e, es, he, h1, h2⟩
  · omega
  · rw [(KeyEvents.extend_eq_ok.1 h2).2, cost_append]
    have := hB e es he h1
    omega

section
variable {M : Nat}

theorem put_pot (x : Automation.Execution) (q : List Automation.Execution) :
    queuePot M (Automation.putFirstEmpty x q) ≤ queuePot M q + x.length * unit M := by
  induction q with
  | nil => simp [Automation.putFirstEmpty, queuePot]
  | cons y q ih =>
    unfold Automation.putFirstEmpty
    split
    · simp only [queuePot, List.map_cons, List.sum_cons]; omega
    · simp only [queuePot, List.map_cons, List.sum_cons] at ih ⊢; omega

/-- An instruction of a macro is done: the macro is shorter. -/
theorem executeHead_cost {c c' : Automation.Ctx} {idx : Nat} {es : KeyEvents Automation.Ev}
    (hd : c.config.duration ≤ M) (hw : ∀ t, .wait t ∈ c.config.instructions → t ≤ M)
    (hh : ∀ x, c.queue[0]? = some x → x.isEmpty = false) (h : c.executeHead idx = .ok (c', es)) :
    cost (wt M) (KeyEvents.mapEv Ev.automation es) + queuePot M c'.queue ≤ queuePot M c.queue := by
  unfold Automation.Ctx.executeHead at h
  obtain ⟨head, h0, h⟩ := Res.bind_eq_ok.1 h
  obtain ⟨es1, h1, h⟩ := Res.bind_eq_ok.1 h
  obtain ⟨head', h2, h⟩ := Res.bind_eq_ok.1 h
  have h0 := Res.index_eq_ok.1 h0
  have hne := hh head h0
  simp only [Automation.Execution.isEmpty, decide_eq_false_iff_not] at hne
  have hlen : head'.length + 1 = head.length := by
    unfold Automation.Execution.incr at h2
    split at h2
    · split at h2
      · simp only [Res.ok.injEq] at h2; subst h2; simp only; omega
      · simp at h2
    · omega
  have hc : cost (wt M) (KeyEvents.mapEv Ev.automation es1) ≤ 25 + 2 * M := by
    unfold Automation.keyEventsFor at h1
    obtain ⟨inst, hi, h1⟩ := Res.bind_eq_ok.1 h1
    have hi := Res.index_eq_ok.1 hi
    simp only [Res.pure_eq, Res.ok.injEq] at h1
    subst h1
    have hn : wt M (.key idx (.automation (if head.length > 1 then .nextInstruction else .executionFinished))) ≤ 17 := by
      split <;> simp [wt]
    cases inst <;> simp only [KeyEvents.mapEv, SchEv.map, SchEv.imm, SchEv.after, cost, Event.map, List.map_cons,
      List.map_nil] <;> simp only [wt] at hn ⊢
    case wait => have := hw _ (List.mem_of_getElem? hi); omega
    all_goals omega
  obtain ⟨rest, hq⟩ : ∃ rest, c.queue = head :: rest := by
    cases hx : c.queue with
    | nil => rw [hx] at h0; simp at h0
    | cons a l => rw [hx] at h0; simp at h0; exact ⟨l, by rw [h0]⟩
  have hu : head.length * unit M = head'.length * unit M + unit M := by rw [← hlen, Nat.add_mul, Nat.one_mul]
  split at h
  · rename_i hem
    simp only [Automation.Execution.isEmpty, decide_eq_true_eq] at hem
    rw [hem, Nat.zero_mul] at hu
    have hqp : queuePot M (c.queue.tail ++ [Automation.Execution.empty]) + unit M = queuePot M c.queue := by
      rw [hq]; simp [queuePot, Automation.Execution.empty]; omega
    obtain ⟨next, _, h⟩ := Res.bind_eq_ok.1 h
    split at h
    · simp only [Res.pure_eq, Res.ok.injEq, Prod.mk.injEq] at h
      obtain ⟨rfl, rfl⟩ := h
      simp only [unit] at hqp ⊢
      omega
    · obtain ⟨es2, h3, h⟩ := Res.bind_eq_ok.1 h
      simp only [Res.pure_eq, Res.ok.injEq, Prod.mk.injEq] at h
      obtain ⟨rfl, rfl⟩ := h
      rw [(KeyEvents.push_eq_ok.1 h3).2]
      simp only [KeyEvents.mapEv, List.map_append, cost_append] at hc ⊢
      simp only [SchEv.map, SchEv.after, List.map_cons, List.map_nil, cost, Event.map, wt]
      simp only [unit] at hqp ⊢
      omega
  · simp only [Res.pure_eq, Res.ok.injEq, Prod.mk.injEq] at h
    obtain ⟨rfl, rfl⟩ := h
    rw [hq]
    simp only [queuePot, List.map_cons, List.sum_cons, List.tail_cons]
    simp only [unit] at hu ⊢
    omega

theorem automation_cost {c c' : Automation.Ctx} {ev : Event Automation.Ev} {es : KeyEvents Automation.Ev}
    (hd : c.config.duration ≤ M) (hw : ∀ t, .wait t ∈ c.config.instructions → t ≤ M) (h : c.handleEvent ev = .ok (c', es)) :
    cost (wt M) (KeyEvents.mapEv Ev.automation es) + queuePot M c'.queue ≤
      queuePot M c.queue + (match ev with | .key _ (.enqueue x) => x.length * unit M | _ => 0) := by
  have nil : ∀ {x : Nat}, (.ok (c, []) : Res (Automation.Ctx × KeyEvents Automation.Ev)) = .ok (c', es) →
      cost (wt M) (KeyEvents.mapEv Ev.automation es) + queuePot M c'.queue ≤ queuePot M c.queue + x := by
    intro x h
    simp only [Res.ok.injEq, Prod.mk.injEq] at h
    obtain ⟨rfl, rfl⟩ := h
    simp [KeyEvents.mapEv, cost]
  cases ev with
  | input e => exact nil h
  | keymap e => exact nil h
  | key i e =>
    cases e with
    | executionFinished => exact nil h
    | nextInstruction =>
      simp only [Automation.Ctx.handleEvent] at h
      obtain ⟨head, h0, h⟩ := Res.bind_eq_ok.1 h
      split at h
      · exact nil h
      · rename_i hne
        refine Nat.le_trans (executeHead_cost hd hw ?_ h) (Nat.le_add_right _ _)
        intro x hx
        rw [Res.index_eq_ok.1 h0] at hx
        cases hx
        simpa using hne
    | enqueue x =>
      simp only [Automation.Ctx.handleEvent] at h
      split at h
      · exact nil h
      · rename_i hx
        obtain ⟨head, h0, h⟩ := Res.bind_eq_ok.1 h
        have h0 := Res.index_eq_ok.1 h0
        have hp : queuePot M (c.enqueue x).queue ≤ queuePot M c.queue + x.length * unit M := by
          unfold Automation.Ctx.enqueue
          split
          · omega
          · exact put_pot _ _
        have hcfg : (c.enqueue x).config = c.config := by unfold Automation.Ctx.enqueue; split <;> rfl
        split at h
        · rename_i hem
          refine Nat.le_trans (executeHead_cost (by rw [hcfg]; exact hd) (by rw [hcfg]; exact hw) ?_ h) hp
          intro y hy
          cases hq : c.queue with
          | nil => rw [hq] at h0; simp at h0
          | cons a l =>
            rw [hq] at h0
            simp only [List.getElem?_cons_zero, Option.some.injEq] at h0
            subst h0
            simp only [Automation.Ctx.enqueue, hx, hq, Automation.putFirstEmpty, hem, if_true] at hy
            simp only [Bool.false_eq_true, if_false, List.getElem?_cons_zero, Option.some.injEq] at hy
            subst hy
            simpa using hx
        · simp only [Res.pure_eq, Res.ok.injEq, Prod.mk.injEq] at h
          obtain ⟨rfl, rfl⟩ := h
          simpa [KeyEvents.mapEv, cost] using hp

theorem automation_config {c c' : Automation.Ctx} {ev : Event Automation.Ev} {es : KeyEvents Automation.Ev}
    (h : c.handleEvent ev = .ok (c', es)) : c'.config = c.config := by
  have ex : ∀ {c : Automation.Ctx} {i : Nat}, c.executeHead i = .ok (c', es) → c'.config = c.config := by
    intro c i h
    unfold Automation.Ctx.executeHead at h
    obtain ⟨head, h0, h⟩ := Res.bind_eq_ok.1 h
    obtain ⟨es1, h1, h⟩ := Res.bind_eq_ok.1 h
    obtain ⟨head', h2, h⟩ := Res.bind_eq_ok.1 h
    split at h
    · obtain ⟨next, _, h⟩ := Res.bind_eq_ok.1 h
      split at h
      · simp only [Res.pure_eq, Res.ok.injEq, Prod.mk.injEq] at h
        rw [← h.1]
      · obtain ⟨es2, h3, h⟩ := Res.bind_eq_ok.1 h
        simp only [Res.pure_eq, Res.ok.injEq, Prod.mk.injEq] at h
        rw [← h.1]
    · simp only [Res.pure_eq, Res.ok.injEq, Prod.mk.injEq] at h
      rw [← h.1]
  unfold Automation.Ctx.handleEvent at h
  split at h
  · split at h
    · simp only [Res.ok.injEq, Prod.mk.injEq] at h; rw [← h.1]
    · obtain ⟨head, h0, h⟩ := Res.bind_eq_ok.1 h
      have hcfg : ∀ x, (c.enqueue x).config = c.config := by intro x; unfold Automation.Ctx.enqueue; split <;> rfl
      split at h
      · rw [ex h, hcfg]
      · simp only [Res.pure_eq, Res.ok.injEq, Prod.mk.injEq] at h; rw [← h.1, hcfg]
  · obtain ⟨head, h0, h⟩ := Res.bind_eq_ok.1 h
    split at h
    · simp only [Res.pure_eq, Res.ok.injEq, Prod.mk.injEq] at h; rw [← h.1]
    · exact ex h
  · simp only [Res.ok.injEq, Prod.mk.injEq] at h; rw [← h.1]

theorem chorded_config {c c' : Chorded.Ctx} {ev : Event Chorded.Ev} (h : c.handleEvent ev = .ok c') : c'.config = c.config := by
  unfold Chorded.Ctx.handleEvent at h
  split at h
  · obtain ⟨c1, h1, h⟩ := Res.bind_eq_ok.1 h
    have e1 : c1.config = c.config := by
      unfold Chorded.Ctx.pressIndex at h1
      split at h1
      · simp only [Res.ok.injEq] at h1; rw [h1]
      · obtain ⟨xs, _, h1⟩ := Res.bind_eq_ok.1 h1
        simp only [Res.pure_eq, Res.ok.injEq] at h1; rw [← h1]
    obtain ⟨span, _, h⟩ := Res.bind_eq_ok.1 h
    split at h
    · simp only [Res.pure_eq, Res.ok.injEq] at h; rw [← h]; exact e1
    · split at h
      · obtain ⟨ch, _, h⟩ := Res.bind_eq_ok.1 h
        simp only [Res.pure_eq, Res.ok.injEq] at h; rw [← h]; exact e1
      · simp only [Res.pure_eq, Res.ok.injEq] at h; rw [← h]; exact e1
  · simp only [Res.ok.injEq] at h
    rw [← h]
    simp only [Chorded.Ctx.releaseIndex]
    split <;> rfl
  · split at h
    · simp only [Res.ok.injEq] at h; rw [← h]
    · simp at h
  · simp only [Res.ok.injEq] at h; rw [h]

theorem Good.event {c c' : Ctx} {ev : Event Ev} {es : KeyEvents Ev} (hg : Good M c) (h : c.handleEvent ev = .ok (c', es)) :
    Good M c' := by
  obtain ⟨p1, p2, p3, p4, h1, h2, h3, h4, h5, h6, h7⟩ := handleEvent_parts h
  have a1 : c'.automation.config = c.automation.config := by
    rcases sub_spec h1 with ⟨_, e, _⟩ | ⟨e, es, _, h, _⟩
    · rw [e]
    · exact automation_config h
  have a2 : c'.chorded.config = c.chorded.config := by
    rcases sub_spec h3 with ⟨_, e, _⟩ | ⟨e, es, _, h, _⟩
    · rw [e]
    · exact chorded_config (map_fst_nil h).1
  exact ⟨by rw [a1]; exact hg.duration, by rw [a1]; exact hg.wait, by rw [a2]; exact hg.chorded, by rw [h6]; exact hg.tapDance,
    by rw [h7]; exact hg.tapHold⟩

theorem releaseAll_cost {es es' : KeyEvents Sticky.Ev} {ms : List Byte} (h : Sticky.releaseAll es ms = .ok es') :
    ∃ n, es'.length = es.length + n ∧
      cost (wt M) (KeyEvents.mapEv Ev.sticky es') = cost (wt M) (KeyEvents.mapEv Ev.sticky es) + 3 * n := by
  induction ms generalizing es with
  | nil => simp only [Sticky.releaseAll, Res.ok.injEq] at h; subst h; exact ⟨0, rfl, rfl⟩
  | cons m ms ih =>
    simp only [Sticky.releaseAll, Res.bind_eq_ok] at h
    obtain ⟨es1, h1, h2⟩ := h
    obtain ⟨n, e1, e2⟩ := ih h2
    rw [(KeyEvents.push_eq_ok.1 h1).2] at e1 e2
    refine ⟨n + 1, by rw [e1, List.length_append]; simp; omega, ?_⟩
    rw [e2]
    simp only [KeyEvents.mapEv, List.map_append, cost_append, List.map_cons, List.map_nil, SchEv.map, SchEv.imm, cost, Event.map, wt]
    omega

theorem mapEv_length {A B : Type} (f : A → B) (es : KeyEvents A) : (KeyEvents.mapEv f es).length = es.length := by
  simp [KeyEvents.mapEv]

/-- What the context makes of any event. -/
theorem ctx_cost {c c' : Ctx} {ev : Event Ev} {es : KeyEvents Ev} (hg : Good M c) (h : c.handleEvent ev = .ok (c', es)) :
    cost (wt M) es + cpot M c' ≤ cpot M c + (if Spec.physical ev then 12 else ctxWt M ev) := by
  obtain ⟨p1, p2, p3, p4, h1, h2, h3, h4, h5, _⟩ := handleEvent_parts h
  have e4 := sub_cost (p := fun _ => 0) (B := 0) (w := wt M) h4 (fun e es he hh => by
    rw [(map_fst_nil hh).2]; simp [KeyEvents.mapEv, cost])
  have e3 := sub_cost (p := fun _ => 0) (B := 0) (w := wt M) h3 (fun e es he hh => by
    rw [(map_fst_nil hh).2]; simp [KeyEvents.mapEv, cost])
  have e5 := sub_cost (p := fun _ => 0) (B := if Spec.physical ev then 12 else 0) (w := wt M) h5 (fun e es' he hh => by
    have nil : ∀ {c : Sticky.Ctx} {x : Nat}, (.ok (c, []) : Res (Sticky.Ctx × KeyEvents Sticky.Ev)) = .ok (c'.sticky, es') →
        cost (wt M) (KeyEvents.mapEv Ev.sticky es') + 0 ≤ 0 + x := by
      intro c x h
      simp only [Res.ok.injEq, Prod.mk.injEq] at h
      rw [← h.2]; simp [KeyEvents.mapEv, cost]
    have rel : ∀ {ms : List Byte} {x : KeyEvents Sticky.Ev}, Spec.physical ev = true → Sticky.releaseAll [] ms = .ok x → x = es' →
        cost (wt M) (KeyEvents.mapEv Ev.sticky es') + 0 ≤ 0 + (if Spec.physical ev then 12 else 0) := by
      intro ms x hp hr hx
      subst hx
      obtain ⟨n, e1, e2⟩ := releaseAll_cost (M := M) hr
      have hl : x.length ≤ 4 := by
        rcases sub_spec h5 with ⟨hn, _, _⟩ | ⟨e', es2, he', h6, h7⟩
        · rw [hn] at he; cases he
        · rw [he'] at he
          cases he
          rw [h6] at hh
          simp only [Res.ok.injEq, Prod.mk.injEq, true_and] at hh
          subst hh
          rcases (KeyEvents.extend_eq_ok.1 h7).1 with h8 | h8
          · have h9 := congrArg List.length h8
            rw [mapEv_length, List.length_nil] at h9
            omega
          · rw [mapEv_length] at h8
            simp only [maxKeyEvents] at h8
            omega
      rw [e2, hp]
      simp only [List.length_nil, Nat.zero_add] at e1
      simp [KeyEvents.mapEv, cost]; omega
    cases e with
    | key i e =>
      cases e
      simp only [Sticky.Ctx.handleEvent] at hh
      split at hh <;> exact nil hh
    | keymap e =>
      cases e <;> simp only [Sticky.Ctx.handleEvent] at hh
      · exact nil hh
      · split at hh <;> exact nil hh
    | input e =>
      have hev : ev = .input e := by
        cases ev <;> simp [Event.tryInto] at he
        subst he; rfl
      cases e with
      | vpress ko => exact nil hh
      | vrelease ko => exact nil hh
      | press i =>
        simp only [Sticky.Ctx.handleEvent] at hh
        split at hh
        · obtain ⟨x, hr, hx⟩ := Res.bind_eq_ok.1 hh
          simp only [Res.pure_eq, Res.ok.injEq, Prod.mk.injEq] at hx
          exact rel (by rw [hev]; rfl) hr hx.2
        · exact nil hh
      | release i =>
        simp only [Sticky.Ctx.handleEvent] at hh
        split at hh
        · obtain ⟨x, hr, hx⟩ := Res.bind_eq_ok.1 hh
          simp only [Res.pure_eq, Res.ok.injEq, Prod.mk.injEq] at hx
          exact rel (by rw [hev]; rfl) hr hx.2
        · exact nil hh)
  have e1 := sub_cost (p := fun a : Automation.Ctx => queuePot M a.queue)
    (B := autoWt M ev) (w := wt M) h1 (fun e es he hh => by
    have a := automation_cost hg.duration hg.wait hh
    cases ev with
    | input ie => simp only [Event.tryInto, Option.some.injEq] at he; subst he; exact a
    | keymap ie => simp only [Event.tryInto, Option.some.injEq] at he; subst he; exact a
    | key i x =>
      cases x <;> simp [Event.tryInto, Ev.toAutomation?] at he
      subst he
      rename_i x
      cases x <;> exact a)
  have e2 := sub_cost (p := fun _ => 0)
    (B := capsWt ev) (w := wt M) h2 (fun e es he hh => by
    cases ev with
    | input ie =>
      simp only [Event.tryInto, Option.some.injEq] at he; subst he
      simp only [CapsWord.Ctx.handleEvent, Res.ok.injEq, Prod.mk.injEq] at hh
      rw [← hh.2]; simp [KeyEvents.mapEv, cost]
    | keymap ke =>
      simp only [Event.tryInto, Option.some.injEq] at he; subst he
      cases ke with
      | callback cb =>
        simp only [CapsWord.Ctx.handleEvent, Res.ok.injEq, Prod.mk.injEq] at hh
        rw [← hh.2]; simp [KeyEvents.mapEv, cost]
      | resolved i ko =>
        simp only [CapsWord.Ctx.handleEvent, Res.ok.injEq] at hh
        split at hh
        · split at hh <;> simp only [Prod.mk.injEq] at hh <;> rw [← hh.2] <;>
            simp [KeyEvents.mapEv, SchEv.map, SchEv.imm, cost, Event.map, wt, capsWt]
        · simp only [Prod.mk.injEq] at hh
          rw [← hh.2]; simp [KeyEvents.mapEv, cost]
    | key i x =>
      cases x <;> simp [Event.tryInto, Ev.toCapsWord?] at he
      subst he
      rename_i x
      cases x <;> simp only [CapsWord.Ctx.handleEvent, Res.ok.injEq, Prod.mk.injEq] at hh <;> rw [← hh.2] <;>
        simp [KeyEvents.mapEv, SchEv.map, SchEv.imm, cost, Event.map, wt, capsWt])
  have hw : autoWt M ev + capsWt ev + (if Spec.physical ev then 12 else 0) = if Spec.physical ev then 12 else ctxWt M ev := by
    cases ev with
    | input ie => cases ie <;> simp [Spec.physical, ctxWt, autoWt, capsWt]
    | keymap ke => simp [Spec.physical, ctxWt, autoWt, capsWt]
    | key i x =>
      cases x with
      | automation x => cases x <;> simp [Spec.physical, ctxWt, autoWt, capsWt]
      | _ => simp [Spec.physical, ctxWt, autoWt, capsWt]
  simp only [cost] at e1
  simp only [cpot]
  omega

theorem macro_le {K : Keys} {k : Automation.Key} (hk : k ∈ K.automation) :
    k.onPress.length * unit M + k.onRelease.length * unit M ≤ macros K * unit M := by
  rw [← Nat.add_mul]
  refine Nat.mul_le_mul_right _ ?_
  unfold macros
  generalize K.automation = l at hk
  induction l with
  | nil => cases hk
  | cons a l ih =>
    rcases List.mem_cons.1 hk with rfl | hk
    · simp
    · have := ih hk
      simp only [List.map_cons, List.sum_cons]; omega

/-- What a pressed key makes of an event. -/
theorem state_cost {K : Keys} (hK : ∀ k ∈ K.automation, k.whilePressed.length = 0) {ks ks' : KS} {r : Ref} {c : Ctx} {idx : Nat}
    {ev : Event Ev} {es : KeyEvents Ev} (h : updateState K ks r c idx ev = .ok (ks', es)) :
    cost (wt M) es ≤ if Spec.physical ev then bound K M else keyWt ev := by
  have nil : ∀ {x : Nat} {es1 : KeyEvents Ev}, ([] : KeyEvents Ev) = es1 → cost (wt M) es1 ≤ x := by
    intro x es1 h; subst h; simp [cost]
  unfold updateState at h
  split at h
  · split at h
    · rename_i ev' he
      obtain ⟨es1, h1, h2⟩ := Res.bind_eq_ok.1 h
      simp only [Res.pure_eq, Res.ok.injEq, Prod.mk.injEq] at h2
      rw [← h2.2]
      have nil' : ∀ {x : Nat}, Res.ok ([] : KeyEvents Automation.Ev) = .ok es1 → cost (wt M) (KeyEvents.mapEv Ev.automation es1) ≤ x := by
        intro x h; simp only [Res.ok.injEq] at h; subst h; simp [KeyEvents.mapEv, cost]
      cases ev with
      | input ie =>
        simp only [Event.tryInto, Option.some.injEq] at he
        subst he
        cases ie with
        | press i => exact nil' h1
        | vpress ko => exact nil' h1
        | vrelease ko => exact nil' h1
        | release i =>
          simp only [Automation.sysUpdateState] at h1
          split at h1
          · obtain ⟨k, hk, h1⟩ := Res.bind_eq_ok.1 h1
            simp only [Res.pure_eq, Res.ok.injEq] at h1
            subst h1
            have := macro_le (M := M) (List.mem_of_getElem? (Res.index_eq_ok.1 hk))
            simp only [KeyEvents.mapEv, List.map_cons, List.map_nil, SchEv.map, SchEv.imm, cost, Event.map, wt, Spec.physical,
              if_true, bound]
            omega
          · exact nil' h1
      | keymap ke =>
        simp only [Event.tryInto, Option.some.injEq] at he
        subst he
        exact nil' h1
      | key i e =>
        cases e <;> simp [Event.tryInto, Ev.toAutomation?] at he
        subst he
        rename_i e
        cases e <;> simp only [Automation.sysUpdateState] at h1
        · exact nil' h1
        · exact nil' h1
        · split at h1
          · obtain ⟨k, hk, h1⟩ := Res.bind_eq_ok.1 h1
            simp only [Res.pure_eq, Res.ok.injEq] at h1
            subst h1
            have := hK k (List.mem_of_getElem? (Res.index_eq_ok.1 hk))
            simp [KeyEvents.mapEv, SchEv.map, SchEv.imm, cost, Event.map, wt, keyWt, this, Spec.physical]
          · exact nil' h1
    · simp only [Res.ok.injEq, Prod.mk.injEq] at h
      exact nil h.2
  · split at h
    · rename_i r b _ ev' he
      obtain ⟨⟨b', es1⟩, h1, h2⟩ := Res.bind_eq_ok.1 h
      simp only [Res.pure_eq, Res.ok.injEq, Prod.mk.injEq] at h2
      rw [← h2.2]
      unfold Layered.sysUpdateState at h1
      split at h1
      · obtain ⟨k, _, h1⟩ := Res.bind_eq_ok.1 h1
        simp only [Res.pure_eq, Res.ok.injEq, Prod.mk.injEq] at h1
        rw [← h1.2]
        by_cases hp : Spec.physical ev = true
        · rw [if_pos hp]
          split
          · simp only [KeyEvents.mapEv, List.map_cons, List.map_nil, SchEv.map, SchEv.imm, cost, Event.map, wt, bound]
            omega
          · exact nil rfl
        · have hn : (Layered.handleKeyEvent b idx ev' k).2 = none := by
            cases ev with
            | input ie =>
              simp only [Event.tryInto, Option.some.injEq] at he
              subst he
              cases ie <;> cases k <;> simp_all [Spec.physical, Layered.handleKeyEvent]
            | keymap ke =>
              simp only [Event.tryInto, Option.some.injEq] at he
              subst he
              cases k <;> simp [Layered.handleKeyEvent]
            | key i e =>
              simp only [Event.tryInto] at he
              cases hc : Ev.toLayered? e with
              | none => simp [hc] at he
              | some e' =>
                simp only [hc, Option.map_some, Option.some.injEq] at he
                subst he
                cases k <;> simp [Layered.handleKeyEvent]
          rw [hn]
          exact nil rfl
      · simp only [Res.ok.injEq, Prod.mk.injEq] at h1
        rw [← h1.2]; exact nil rfl
    · simp only [Res.ok.injEq, Prod.mk.injEq] at h
      exact nil h.2
  · split at h
    · rename_i i b _ ev' he
      obtain ⟨⟨b', es1⟩, h1, h2⟩ := Res.bind_eq_ok.1 h
      simp only [Res.pure_eq, Res.ok.injEq, Prod.mk.injEq] at h2
      rw [← h2.2]
      obtain ⟨m, _, h1⟩ := Res.bind_eq_ok.1 h1
      simp only [Res.pure_eq, Res.ok.injEq] at h1
      have h1 : (Sticky.updateState b m idx ev').2 = es1 := by rw [h1]
      rw [← h1]
      cases b with
      | regular => exact nil rfl
      | sticky =>
        cases ev with
        | input ie =>
          simp only [Event.tryInto, Option.some.injEq] at he
          subst he
          cases ie with
          | release k =>
            simp only [Sticky.updateState, Spec.physical, if_true]
            split
            · simp only [KeyEvents.mapEv, List.map_cons, List.map_nil, SchEv.map, SchEv.imm, cost, Event.map, wt, bound]
              omega
            · exact nil rfl
          | _ => exact nil rfl
        | keymap ke =>
          simp only [Event.tryInto, Option.some.injEq] at he
          subst he
          cases ke <;> exact nil rfl
        | key i e =>
          simp only [Event.tryInto] at he
          cases hc : Ev.toSticky? e with
          | none => simp [hc] at he
          | some e' =>
            simp only [hc, Option.map_some, Option.some.injEq] at he
            subst he
            exact nil rfl
    · simp only [Res.ok.injEq, Prod.mk.injEq] at h
      exact nil h.2
  · simp only [Res.ok.injEq, Prod.mk.injEq] at h
    exact nil h.2

/-- What an undecided key makes of an event. -/
theorem pend_cost {K : Keys} {p p' : PKS} {idx : Nat} {c : Ctx} {r : Ref} {ev : Event Ev} {x : Option (NPK Ref)}
    {es : KeyEvents Ev} (hg : Good M c) (h : updatePending K p idx c r ev = .ok (p', x, es)) :
    cost (wt M) es ≤ M + 2 ∧ (Spec.physical ev = false → x = none → cost (wt M) es = 0) := by
  have nil : ∀ {es1 : KeyEvents Ev}, ([] : KeyEvents Ev) = es1 →
      cost (wt M) es1 ≤ M + 2 ∧ (Spec.physical ev = false → x = none → cost (wt M) es1 = 0) := by
    intro es1 h; subst h; simp [cost]
  unfold updatePending at h
  split at h
  · split at h
    · rename_i r p _ ev' _
      obtain ⟨⟨p1, npk, es1⟩, h1, h2⟩ := Res.bind_eq_ok.1 h
      simp only [Res.pure_eq, Res.ok.injEq, Prod.mk.injEq] at h2
      obtain ⟨_, rfl, rfl⟩ := h2
      cases r with
      | chorded i =>
        obtain ⟨k, _, h1⟩ := Res.bind_eq_ok.1 h1
        obtain ⟨⟨p2, x⟩, _, h1⟩ := Res.bind_eq_ok.1 h1
        cases x with
        | some x =>
          obtain ⟨n, _, h1⟩ := Res.bind_eq_ok.1 h1
          simp only [Res.pure_eq, Res.ok.injEq, Prod.mk.injEq] at h1
          obtain ⟨_, rfl, rfl⟩ := h1
          simp [KeyEvents.mapEv, SchEv.map, SchEv.imm, cost, Event.map, wt]
        | none =>
          simp only [Res.pure_eq, Res.ok.injEq, Prod.mk.injEq] at h1
          obtain ⟨_, rfl, rfl⟩ := h1
          exact nil rfl
      | auxiliary i =>
        obtain ⟨k, _, h1⟩ := Res.bind_eq_ok.1 h1
        obtain ⟨⟨p2, x⟩, _, h1⟩ := Res.bind_eq_ok.1 h1
        cases x with
        | some x =>
          simp only [Res.pure_eq, Res.ok.injEq, Prod.mk.injEq] at h1
          obtain ⟨_, rfl, rfl⟩ := h1
          simp [KeyEvents.mapEv, SchEv.map, SchEv.imm, cost, Event.map, wt]
        | none =>
          simp only [Res.pure_eq, Res.ok.injEq, Prod.mk.injEq] at h1
          obtain ⟨_, rfl, rfl⟩ := h1
          exact nil rfl
    · simp only [Res.ok.injEq, Prod.mk.injEq] at h
      exact nil h.2.2
  · split at h
    · rename_i i p _ ev' he
      obtain ⟨⟨p1, npk, es1⟩, h1, h2⟩ := Res.bind_eq_ok.1 h
      simp only [Res.pure_eq, Res.ok.injEq, Prod.mk.injEq] at h2
      obtain ⟨_, rfl, rfl⟩ := h2
      unfold TapDance.updatePending at h1
      obtain ⟨k, _, h1⟩ := Res.bind_eq_ok.1 h1
      obtain ⟨⟨p2, y, es2⟩, h0, h1⟩ := Res.bind_eq_ok.1 h1
      have hw : cost (wt M) (KeyEvents.mapEv Ev.tapDance es2) ≤ M + 2 ∧
          (Spec.physical ev = false → cost (wt M) (KeyEvents.mapEv Ev.tapDance es2) = 0) := by
        unfold TapDance.PKS.handleEvent at h0
        split at h0
        · split at h0 <;> simp only [Res.ok.injEq, Prod.mk.injEq] at h0 <;> rw [← h0.2.2] <;>
            simp [KeyEvents.mapEv, cost]
        · split at h0
          · split at h0
            · simp only [Res.ok.injEq, Prod.mk.injEq] at h0
              rw [← h0.2.2]
              have := hg.tapDance
              constructor
              · simp only [KeyEvents.mapEv, List.map_cons, List.map_nil, SchEv.map, SchEv.after, cost, Event.map, wt]
                omega
              · intro hp
                cases ev with
                | input ie =>
                  simp only [Event.tryInto, Option.some.injEq, Event.input.injEq] at he
                  subst he
                  cases hp
                | keymap ke => simp [Event.tryInto] at he
                | key i e => cases e <;> simp [Event.tryInto, Ev.toTapDance?] at he
            · simp at h0
          · simp only [Res.ok.injEq, Prod.mk.injEq] at h0
            rw [← h0.2.2]; simp [KeyEvents.mapEv, cost]
        · simp only [Res.ok.injEq, Prod.mk.injEq] at h0
          rw [← h0.2.2]; simp [KeyEvents.mapEv, cost]
      have fin : es1 = es2 → cost (wt M) (KeyEvents.mapEv Ev.tapDance es1) ≤ M + 2 ∧
          (Spec.physical ev = false → npk = none → cost (wt M) (KeyEvents.mapEv Ev.tapDance es1) = 0) := by
        intro h; subst h; exact ⟨hw.1, fun hp _ => hw.2 hp⟩
      cases y with
      | some n =>
        obtain ⟨d, _, h1⟩ := Res.bind_eq_ok.1 h1
        obtain ⟨r, _, h1⟩ := Res.bind_eq_ok.1 h1
        simp only [Res.pure_eq, Res.ok.injEq, Prod.mk.injEq] at h1
        exact fin h1.2.2.symm
      | none =>
        simp only at h1
        split at h1
        · simp at h1
        · split at h1
          · obtain ⟨d, _, h1⟩ := Res.bind_eq_ok.1 h1
            obtain ⟨r, _, h1⟩ := Res.bind_eq_ok.1 h1
            simp only [Res.pure_eq, Res.ok.injEq, Prod.mk.injEq] at h1
            exact fin h1.2.2.symm
          · simp only [Res.ok.injEq, Prod.mk.injEq] at h1
            exact fin h1.2.2.symm
    · simp only [Res.ok.injEq, Prod.mk.injEq] at h
      exact nil h.2.2
  · split at h
    · rename_i i p _ ev' _
      obtain ⟨⟨p1, npk, es1⟩, h1, h2⟩ := Res.bind_eq_ok.1 h
      simp only [Res.pure_eq, Res.ok.injEq, Prod.mk.injEq] at h2
      obtain ⟨_, rfl, rfl⟩ := h2
      suffices es1 = [] by subst this; exact nil rfl
      unfold TapHold.updatePending at h1
      generalize TapHold.PKS.handleEvent _ _ _ _ = q at h1
      obtain ⟨q, st⟩ := q
      cases st with
      | none => simp_all
      | some st =>
        obtain ⟨k, _, h1⟩ := Res.bind_eq_ok.1 h1
        simp only [Res.pure_eq, Res.ok.injEq, Prod.mk.injEq] at h1
        exact h1.2.2.symm
    · simp only [Res.ok.injEq, Prod.mk.injEq] at h
      exact nil h.2.2
  · simp at h

/-- What pressing a key leads to. -/
theorem npk_cost {K : Keys} {idx : Nat} {c : Ctx} {r : Ref} {x : PKR Ref PKS KS} {es : KeyEvents Ev} (hg : Good M c)
    (h : newPressedKey K idx c r = .ok (x, es)) : cost (wt M) es ≤ bound K M := by
  have nil : ∀ {es1 : KeyEvents Ev}, ([] : KeyEvents Ev) = es1 → cost (wt M) es1 ≤ bound K M := by
    intro es1 h; subst h; simp [cost]
  cases r with
  | automation i =>
    simp only [newPressedKey, Automation.sysNewPressedKey, Res.bind_eq_ok, Res.pure_eq, Res.ok.injEq, Prod.mk.injEq] at h
    obtain ⟨es1, ⟨k, hk, rfl⟩, _, rfl⟩ := h
    have := macro_le (M := M) (List.mem_of_getElem? (Res.index_eq_ok.1 hk))
    simp only [KeyEvents.mapEv, List.map_cons, List.map_nil, SchEv.map, SchEv.imm, cost, Event.map, bound]
    split <;> simp only [wt] <;> omega
  | callback i =>
    simp only [newPressedKey, CallbackKey.newPressedKey, Res.bind_eq_ok, Res.pure_eq, Res.ok.injEq, Prod.mk.injEq] at h
    obtain ⟨es1, ⟨k, hk, rfl⟩, _, rfl⟩ := h
    simp only [SchEv.imm, cost, wt, bound]; omega
  | capsWord =>
    simp only [newPressedKey, CapsWord.newPressedKey, Res.ok.injEq, Prod.mk.injEq] at h
    rw [← h.2]
    simp only [KeyEvents.mapEv, List.map_cons, List.map_nil, SchEv.map, SchEv.imm, cost, Event.map, wt, bound]; omega
  | chorded r =>
    obtain ⟨⟨p, es1⟩, h1, h2⟩ := Res.bind_eq_ok.1 h
    simp only [Res.pure_eq, Res.ok.injEq, Prod.mk.injEq] at h2
    rw [← h2.2]
    have hg := hg.chorded
    have fin : es1 = [] ∨ es1 = Chorded.timeoutEvents c.chorded idx → cost (wt M) (KeyEvents.mapEv Ev.chorded es1) ≤ bound K M := by
      rintro (rfl | rfl)
      · exact nil rfl
      · simp only [Chorded.timeoutEvents, KeyEvents.mapEv, List.map_cons, List.map_nil, SchEv.map, SchEv.after, cost, Event.map,
          wt, bound]; omega
    cases r with
    | chorded i =>
      simp only [Chorded.sysNewPressedKey, Chorded.Key.newPressedKey, Res.bind_eq_ok] at h1
      obtain ⟨k, _, s, _, h1⟩ := h1
      cases s with
      | inl r =>
        simp only [Res.bind_eq_ok, Res.pure_eq, Res.ok.injEq, Prod.mk.injEq] at h1
        obtain ⟨_, _, _, rfl⟩ := h1
        exact fin (Or.inl rfl)
      | inr p =>
        simp only [Res.pure_eq, Res.ok.injEq, Prod.mk.injEq] at h1
        exact fin (Or.inr h1.2.symm)
    | auxiliary i =>
      simp only [Chorded.sysNewPressedKey, Chorded.auxNewPressedKey, Res.bind_eq_ok] at h1
      obtain ⟨k, _, s, _, h1⟩ := h1
      cases s with
      | inl r =>
        simp only [Res.pure_eq, Res.ok.injEq, Prod.mk.injEq] at h1
        exact fin (Or.inl h1.2.symm)
      | inr p =>
        simp only [Res.pure_eq, Res.ok.injEq, Prod.mk.injEq] at h1
        exact fin (Or.inr h1.2.symm)
  | consumer _ | custom _ | keyboard _ | mouse _ =>
    simp only [newPressedKey, Res.ok.injEq, Prod.mk.injEq] at h
    exact nil h.2
  | layered r =>
    obtain ⟨⟨p, es1⟩, h1, h2⟩ := Res.bind_eq_ok.1 h
    simp only [Res.pure_eq, Res.ok.injEq, Prod.mk.injEq] at h2
    rw [← h2.2]
    cases r with
    | modifier i =>
      simp only [Layered.sysNewPressedKey, Res.bind_eq_ok, Res.pure_eq, Res.ok.injEq, Prod.mk.injEq] at h1
      obtain ⟨k, _, _, rfl⟩ := h1
      simp only [KeyEvents.mapEv, List.map_cons, List.map_nil, SchEv.map, SchEv.imm, cost, Event.map, wt, bound]; omega
    | layered i =>
      simp only [Layered.sysNewPressedKey, Res.bind_eq_ok, Res.pure_eq, Res.ok.injEq, Prod.mk.injEq] at h1
      obtain ⟨k, _, _, _, _, rfl⟩ := h1
      exact nil rfl
  | sticky i =>
    simp only [newPressedKey, Res.bind_eq_ok, Res.pure_eq, Res.ok.injEq, Prod.mk.injEq] at h
    obtain ⟨_, _, _, rfl⟩ := h
    exact nil rfl
  | tapDance i =>
    simp only [newPressedKey, TapDance.newPressedKey, Res.ok.injEq, Prod.mk.injEq] at h
    have hg := hg.tapDance
    rw [← h.2]
    simp only [KeyEvents.mapEv, List.map_cons, List.map_nil, SchEv.map, SchEv.after, cost, Event.map, wt, bound]; omega
  | tapHold i =>
    obtain ⟨⟨p, es1⟩, h1, h2⟩ := Res.bind_eq_ok.1 h
    simp only [Res.pure_eq, Res.ok.injEq, Prod.mk.injEq] at h2
    rw [← h2.2]
    have hg := hg.tapHold
    have fin : es1 = [] ∨ es1 = (TapHold.newPending c.tapHold idx).2 → cost (wt M) (KeyEvents.mapEv Ev.tapHold es1) ≤ bound K M := by
      rintro (rfl | rfl)
      · exact nil rfl
      · simp only [TapHold.newPending, KeyEvents.mapEv, List.map_cons, List.map_nil, SchEv.map, SchEv.after, cost, Event.map,
          wt, bound]; omega
    unfold TapHold.newPressedKey at h1
    split at h1
    · split at h1
      · simp only [Res.ok.injEq, Prod.mk.injEq] at h1
        exact fin (Or.inr h1.2.symm)
      · obtain ⟨k, _, h1⟩ := Res.bind_eq_ok.1 h1
        simp only [Res.pure_eq, Res.ok.injEq, Prod.mk.injEq] at h1
        exact fin (Or.inl h1.2.symm)
    · simp only [Res.ok.injEq, Prod.mk.injEq] at h1
      exact fin (Or.inr h1.2.symm)

theorem tires {K : Keys} (hK : Acyclic K) (hm : ∀ k ∈ K.automation, k.whilePressed.length = 0) (refs : List Ref) (S : Search) :
    Tires ⟨system K, refs, S⟩ (rank K) K.nested.length (bound K M) (wt M) (ctxWt M) keyWt (Good M) (cpot M) where
  emits := emits_nonPhys K refs S
  good := fun _ _ _ _ hg h => hg.event h
  goodSet := fun _ _ _ hg => ⟨hg.1, hg.2, hg.3, hg.4, hg.5⟩
  cpSet := fun _ _ _ => rfl
  ctx := fun _ ev _ _ hg hQ h => by
    have := ctx_cost hg h
    rw [hQ] at this
    simpa using this
  ctxIn := fun _ ie _ _ hg h => by
    have := ctx_cost hg h
    cases ie <;> simp only [Spec.physical, if_true, ctxWt, Bool.false_eq_true, if_false] at this <;> simp only [bound] <;> omega
  state := fun ks r c i ev ks' es hQ h => by
    have := state_cost (M := M) (c := c) hm h
    rw [hQ] at this
    simpa using this
  stateIn := fun ks r c i ie ks' es h => by
    have := state_cost (M := M) (ks := ks) (r := r) (c := c) (idx := i) (ev := .input ie) (es := es) hm h
    cases ie <;> simp only [Spec.physical, if_true, keyWt, Bool.false_eq_true, if_false] at this <;> omega
  weight := by
    intro ev hQ
    cases ev with
    | input ie => simp [wt, ctxWt, keyWt]
    | keymap ke => simp [wt, ctxWt, keyWt]
    | key i e =>
      cases e with
      | automation e => cases e <;> simp [wt, ctxWt, keyWt, maxPressedKeys]
      | _ => simp [wt, ctxWt, keyWt]
  virt := fun _ _ => ⟨Nat.le_refl _, rfl, rfl⟩
  resolved := fun _ _ => by simp only [wt, bound]; omega
  wait := fun p i c r ev p' es hg hQ h => (pend_cost (K := K) (p := p) (idx := i) (c := c) (r := r) (ev := ev) (es := es) hg h).2 hQ rfl
  waitIn := fun p i c r ie p' es hg h => Nat.le_trans
    (pend_cost (K := K) (p := p) (idx := i) (c := c) (r := r) (ev := .input ie) (es := es) hg h).1 (by simp only [bound]; omega)
  decided := fun p i c r ev p' n es hg h => Nat.le_trans
    (pend_cost (K := K) (p := p) (idx := i) (c := c) (r := r) (ev := ev) (es := es) hg h).1 (by simp only [bound]; omega)
  npkCost := fun _ _ _ _ _ hg h => npk_cost hg h
  rank_le := fun _ => List.countP_le_length
  npk := fun _ _ _ _ _ h => rank_lt hK (npk_child h)
  pend := fun _ _ _ _ _ _ _ _ h => rank_lt hK (pend_child h)

/-- The longest delay. -/
def delays (c : Ctx) : Nat :=
  c.automation.config.duration + (c.automation.config.instructions.map (fun | .wait t => t | _ => 0)).sum +
    c.chorded.config.timeout + c.tapDance.timeout + c.tapHold.config.timeout

theorem good_delays (c : Ctx) : Good (delays c) c where
  duration := by unfold delays; omega
  wait := by
    intro t ht
    unfold delays
    suffices t ≤ (c.automation.config.instructions.map (fun | .wait t => t | _ => 0)).sum by omega
    generalize c.automation.config.instructions = l at ht
    induction l with
    | nil => cases ht
    | cons a l ih =>
      rcases List.mem_cons.1 ht with rfl | ht
      · simp
      · have := ih ht
        simp only [List.map_cons, List.sum_cons]; omega
  chorded := by unfold delays; omega
  tapDance := by unfold delays; omega
  tapHold := by unfold delays; omega

end

end Resting

/-! ## The theorems -/

section
variable {K : Keys} {refs : List Ref} {S : Search} {ctx : Ctx}

theorem run_ticks {n k : Nat} {km : KM Ref Ev Ctx PKS KS} :
    run (cfg K refs S) n km (List.replicate k .tick) = ticks (cfg K refs S) n k km := by
  induction k generalizing km with
  | zero => rfl
  | succ k ih =>
    simp only [List.replicate_succ, run, ticks, step]
    congr 1
    funext x
    exact ih

theorem run_split {n : Nat} {km : KM Ref Ev Ctx PKS KS} (ops ops' : List Op) :
    run (cfg K refs S) n km (ops ++ ops') = (do let km ← run (cfg K refs S) n km ops; run (cfg K refs S) n km ops') := by
  induction ops generalizing km with
  | nil => rfl
  | cons op ops ih =>
    simp only [List.cons_append, run]
    cases h : step (cfg K refs S) n km op with
    | ok km1 => exact ih
    | panic k => rfl
    | fuel => rfl

/-- C85. If no key refers back to itself and no macro is repeated while its key is held, the keymap comes to rest: after any
calls, enough ticks without input leave nothing scheduled, whichever keys are held. -/
theorem C85_rests (hK : Acyclic K) (hm : ∀ k ∈ K.automation, k.whilePressed.length = 0) {n : Nat} {ops : List Op}
    {km : KM Ref Ev Ctx PKS KS} (h : run (cfg K refs S) n (KM.new ctx) ops = .ok km) (hms : 0 < km.msPerTick) :
    ∃ N, ∀ k, N ≤ k → ∀ m km', run (cfg K refs S) m km (List.replicate k .tick) = .ok km' → km'.hasScheduledEvents = false := by
  have hT := Resting.tires (M := Resting.delays ctx) hK hm refs S
  have hi : Rest.Inv (Resting.Good (Resting.delays ctx)) km := (Rest.inv_api hT).of_reachable
    ⟨⟨by simp [KM.new], (qinv_api NonPhys (emits_nonPhys K refs S)).of_reachable (QInv.new _ _) ⟨0, [], rfl⟩⟩,
      Resting.good_delays ctx, fun p hp => by simp [KM.new] at hp⟩ ⟨n, ops, h⟩
  refine ⟨_, fun k hk m km' h' => Rest.rests hT m hi hms hk ?_⟩
  rw [run_ticks] at h'
  exact h'

/-- C85. A keymap at rest stays at rest: ticks change neither the pressed keys nor what waits, and leave nothing scheduled. -/
theorem C85_stays {k n : Nat} {km km' : KM Ref Ev Ctx PKS KS} (hr : km.hasScheduledEvents = false)
    (h : run (cfg K refs S) n km (List.replicate k .tick) = .ok km') :
    km'.hasScheduledEvents = false ∧ km'.pressed = km.pressed ∧ km'.pressedKeys (cfg K refs S) = km.pressedKeys (cfg K refs S) := by
  rw [run_ticks] at h
  suffices km'.hasScheduledEvents = false ∧ km'.pressed = km.pressed by
    exact ⟨this.1, this.2, by simp only [KM.pressedKeys, this.2]⟩
  induction k generalizing km with
  | zero => simp only [ticks, Res.ok.injEq] at h; subst h; exact ⟨hr, rfl⟩
  | succ k ih =>
    simp only [ticks, Res.bind_eq_ok] at h
    obtain ⟨c, h1, h2⟩ := h
    have t := Rest.tick_rest hr h1
    have := ih t.1 h2
    exact ⟨this.1, this.2.trans t.2.1⟩

theorem heard_ticks {n k : Nat} {ops : List Op} {km : KM Ref Ev Ctx PKS KS} (h : heard (cfg K refs S) n km ops = true) :
    heard (cfg K refs S) n km (ops ++ List.replicate k .tick) = true := by
  induction ops generalizing km with
  | nil =>
    clear h
    induction k generalizing km with
    | zero => rfl
    | succ k ih =>
      simp only [List.nil_append, List.replicate_succ, heard, Bool.true_and] at ih ⊢
      split
      · exact ih
      · rfl
  | cons op ops ih =>
    simp only [heard, List.cons_append, Bool.and_eq_true] at h ⊢
    refine ⟨h.1, ?_⟩
    have h2 := h.2
    split at h2
    · exact ih h2
    · rfl

theorem down_ticks (i k : Nat) (ops : List Op) : keyDown i (ops ++ List.replicate k .tick) = keyDown i ops := by
  unfold keyDown
  rw [List.foldl_append]
  generalize ops.foldl (opDown i) false = d
  induction k with
  | zero => rfl
  | succ k ih => simpa [List.replicate_succ, opDown] using ih

/-- C83, C85 together: in keymaps whose undecided keys do not become undecided keys, once no key is down any more, after enough
ticks only virtual keys are still reported: whatever the user typed, no key of theirs stays pressed. -/
theorem C83_let_go_partial (hK : Acyclic K) (hm : ∀ k ∈ K.automation, k.whilePressed.length = 0) (hN : Down.NoNesting K refs)
    {n : Nat} {ops : List Op} {km : KM Ref Ev Ctx PKS KS} (hh : heard (cfg K refs S) n (KM.new ctx) ops = true)
    (h : run (cfg K refs S) n (KM.new ctx) ops = .ok km) (hms : 0 < km.msPerTick) (hup : ∀ i, keyDown i ops = false) :
    ∃ N, ∀ k, N ≤ k → ∀ km', run (cfg K refs S) n km (List.replicate k .tick) = .ok km' →
      km'.pressedKeys (cfg K refs S) = .ok (virtuals km'.pressed) := by
  obtain ⟨N, hN'⟩ := C85_rests hK hm h hms
  refine ⟨N, fun k hk km' h' => ?_⟩
  have hr : run (cfg K refs S) n (KM.new ctx) (ops ++ List.replicate k .tick) = .ok km' := by
    rw [run_split, h]; exact h'
  exact C83_no_stuck_keys_partial hN (heard_ticks hh) hr (hN' k hk n km' h') (fun i => by rw [down_ticks]; exact hup i)

/-- C84, C85 together: after enough ticks every key is decided, in any such keymap. -/
theorem C84_decided (hK : Acyclic K) (hm : ∀ k ∈ K.automation, k.whilePressed.length = 0) {n : Nat} {ops : List Op}
    {km : KM Ref Ev Ctx PKS KS} (h : run (cfg K refs S) n (KM.new ctx) ops = .ok km) (hms : 0 < km.msPerTick) :
    ∃ N, ∀ k, N ≤ k → ∀ km', run (cfg K refs S) n km (List.replicate k .tick) = .ok km' → km'.pend = none := by
  obtain ⟨N, hN'⟩ := C85_rests hK hm h hms
  refine ⟨N, fun k hk km' h' => ?_⟩
  have hr : run (cfg K refs S) n (KM.new ctx) (ops ++ List.replicate k .tick) = .ok km' := by
    rw [run_split, h]; exact h'
  exact C84_nothing_undecided hr (hN' k hk n km' h')

end

/-- The example keymap has a macro, on key 8, and all other kinds of keys. It meets the hypotheses. -/
theorem ex_rests {n : Nat} {ops : List Op} {km : KM Ref Ev Ctx PKS KS} (h : run Ex.C n (KM.new Ex.ctx) ops = .ok km)
    (hms : 0 < km.msPerTick) : ∃ N, ∀ k, N ≤ k → ∀ m km', run Ex.C m km (List.replicate k .tick) = .ok km' →
      km'.hasScheduledEvents = false :=
  C85_rests (refs := Ex.refs) (S := Search.std) ex_acyclic (by decide) h hms

/-- Typing on it: a macro is under way, a tap-hold key undecided and a press waiting; after 250 ticks all is at rest. -/
example : ((fun km => (km.hasScheduledEvents, km.pend.isSome, km.inq.length, km.msPerTick)) <$>
      run Ex.C 20 Ex.km0 [.input (.press 8), .tick, .tick, .input (.press 2), .input (.press 0), .input (.release 0)] =
      .ok (true, true, 2, 1)) ∧
    ((fun km => (km.hasScheduledEvents, km.pend.isSome, km.inq.length)) <$>
      run Ex.C 20 Ex.km0 ([.input (.press 8), .tick, .tick, .input (.press 2), .input (.press 0), .input (.release 0)] ++
        List.replicate 250 .tick) = .ok (false, false, 0)) := by
  decide +kernel

end Verif.Comp
