import Verif.Lemmas.TimedSim
import Verif.Spec.VirtLayout

/-!
# The held things of the keyboard and the pressed inputs of the keymap
-/

namespace Verif.Comp

open Virt

/-- The held thing a pressed input stands for. -/
inductive Decodes (K : Keys) (A : Automation.Config) : PressedInput Ref KS → Slot → Prop
  | virt (ko : KeyOutput) : Decodes K A (.virt ko) (.virt ko)
  | cell {i : Nat} {r : Ref} {c : Board.Cell} (h : cellOf K r = some c) : Decodes K A (.key i r (ksOf r)) (.key i (.cell c) false)
  | sticky {i j : Nat} {m : Byte} {b : Sticky.Behavior} (h : K.sticky[j]? = some m) :
    Decodes K A (.key i (.sticky j) (.sticky b)) (.key i (.sticky m) (decide (b = .regular)))
  | caps {i : Nat} : Decodes K A (.key i .capsWord .noOp) (.key i .capsWord false)
  | string {i j : Nat} {k : Automation.Key} {kos : List KeyOutput} (h : K.automation[j]? = some k)
    (h1 : k.whilePressed.length = 0) (h2 : k.onRelease.length = 0)
    (h3 : stringOf A k.onPress = some kos) : Decodes K A (.key i (.automation j) .automation) (.key i (.string kos) false)

/-- The same for all of them, in the same order. -/
inductive Slots (K : Keys) (A : Automation.Config) : List (PressedInput Ref KS) → List Slot → Prop
  | nil : Slots K A [] []
  | cons {p : PressedInput Ref KS} {x : Slot} {ps : List (PressedInput Ref KS)} {xs : List Slot} (h : Decodes K A p x) (hs : Slots K A ps xs) :
    Slots K A (p :: ps) (x :: xs)

variable {K : Keys} {A : Automation.Config} {refs : List Ref} {S : Search}

theorem Slots.append {ps qs : List (PressedInput Ref KS)} {xs ys : List Slot} (h : Slots K A ps xs) (h' : Slots K A qs ys) :
    Slots K A (ps ++ qs) (xs ++ ys) := by
  induction h with
  | nil => exact h'
  | cons h _ ih => exact .cons h ih

theorem Slots.snoc {ps : List (PressedInput Ref KS)} {xs : List Slot} (h : Slots K A ps xs) {p : PressedInput Ref KS} {x : Slot}
    (hx : Decodes K A p x) : Slots K A (ps ++ [p]) (xs ++ [x]) := h.append (.cons hx .nil)

theorem Slots.length {ps : List (PressedInput Ref KS)} {xs : List Slot} (h : Slots K A ps xs) : ps.length = xs.length := by
  induction h with
  | nil => rfl
  | cons _ _ ih => simp [ih]

theorem Slots.hasPressed {ps : List (PressedInput Ref KS)} {xs : List Slot} (h : Slots K A ps xs) (i : Nat) :
    Verif.hasPressed i ps = xs.any (fun x => x.index == some i) := by
  induction h with
  | nil => rfl
  | cons h _ ih => cases h <;> simp [Verif.hasPressed, Slot.index, ih] <;> rfl

theorem Slots.removeVirt {ps : List (PressedInput Ref KS)} {xs : List Slot} (h : Slots K A ps xs) (ko : KeyOutput) :
    Slots K A (Verif.removeVirt ko ps) (xs.erase (.virt ko)) := by
  induction h with
  | nil => exact .nil
  | @cons p x ps xs h hs ih =>
    cases h with
    | virt ko' =>
      simp only [Verif.removeVirt, List.erase_cons]
      by_cases e : ko' = ko
      · subst e; simpa using hs
      · have : (Slot.virt ko' == Slot.virt ko) = false := by simpa using e
        simp only [e, if_false, this]
        exact .cons (.virt ko') ih
    | cell h => exact .cons (.cell h) ih
    | sticky h => exact .cons (.sticky h) ih
    | caps => exact .cons .caps ih
    | string h h1 h2 h3 => exact .cons (.string h h1 h2 h3) ih

theorem Slots.removeKey {ps : List (PressedInput Ref KS)} {xs : List Slot} (h : Slots K A ps xs) (hnd : (xs.filterMap Slot.index).Nodup) (i : Nat) :
    Slots K A (Verif.removeKey i ps) (xs.filter (fun x => x.index != some i)) := by
  induction h with
  | nil => exact .nil
  | @cons p x ps xs h hs ih =>
    have key : ∀ j r ks, p = .key j r ks → x.index = some j →
        Slots K A (Verif.removeKey i (p :: ps)) ((x :: xs).filter (fun x => x.index != some i)) := by
      rintro j r ks rfl hx
      simp only [List.filterMap_cons, hx, List.nodup_cons] at hnd
      simp only [Verif.removeKey]
      by_cases e : j = i
      · subst e
        have hself : (x :: xs).filter (fun x => x.index != some j) = xs := by
          rw [List.filter_cons, if_neg (by simp [hx]), List.filter_eq_self]
          intro y hy
          simp only [bne_iff_ne, ne_eq]
          intro hy'
          exact hnd.1 (List.mem_filterMap.2 ⟨y, hy, hy'⟩)
        rw [if_pos rfl, hself]
        exact hs
      · rw [if_neg e, List.filter_cons, if_pos (by simpa [hx] using e)]
        exact .cons h (ih hnd.2)
    cases h with
    | virt ko =>
      simp only [Verif.removeKey, List.filter_cons, Slot.index]
      simp only [List.filterMap_cons, Slot.index] at hnd
      exact .cons (.virt ko) (ih hnd)
    | cell h => exact key _ _ _ rfl rfl
    | sticky h => exact key _ _ _ rfl rfl
    | caps => exact key _ _ _ rfl rfl
    | string h h1 h2 h3 => exact key _ _ _ rfl rfl

theorem Slots.outputs {ps : List (PressedInput Ref KS)} {xs : List Slot} (h : Slots K A ps xs) :
    pressedOutputs (system K) ps = .ok (xs.filterMap Slot.output) := by
  induction h with
  | nil => rfl
  | @cons p x ps xs h hs ih =>
    cases h with
    | virt ko => simp only [pressedOutputs, ih]; rfl
    | @cell i r c h =>
      simp only [pressedOutputs, ih]
      rw [show (system K).keyOutput r (ksOf r) = keyOutput K r (ksOf r) from rfl, keyOutput_cell h]
      cases c <;> rfl
    | @sticky i j m b h =>
      have hi : Res.index K.sticky j = .ok m := by simpa using h
      simp only [pressedOutputs, ih]
      rw [show (system K).keyOutput (.sticky j) (.sticky b) = keyOutput K (.sticky j) (.sticky b) from rfl]
      simp only [keyOutput, Sticky.sysKeyOutput, hi, Res.ok_bind]
      cases b <;> rfl
    | caps => simp only [pressedOutputs, ih]; rfl
    | string h h1 h2 h3 => simp only [pressedOutputs, ih]; rfl

/-- The events a held thing emits. A macro key asks for an empty macro, `e`. -/
def slotAnswer (e : Automation.Execution) (ev : Event Ev) : Slot → KeyEvents Ev
  | .key i (.cell c) _ => answer i c ev
  | .key i (.sticky m) false =>
    match ev with
    | .input (.release j) =>
      if i = j then [SchEv.imm (.key i (.sticky (.activateModifiers m))), SchEv.imm (.input (.vpress (modKey m)))] else []
    | _ => []
  | .key i (.string _) _ =>
    match ev with
    | .input (.release j) => if i = j then [SchEv.imm (.key i (.automation (.enqueue e)))] else []
    | .key j (.automation .executionFinished) =>
      if i = j then [SchEv.imm (.key i (.automation (.enqueue e)))] else []
    | _ => []
  | _ => []

/-- A held thing after an event. -/
def slotNext (ev : Event Ev) (x : Slot) : Slot :=
  match ev with
  | .keymap (.resolved _ _) => x.interrupt
  | _ => x

theorem updateState_slot {i : Nat} {r : Ref} {ks : KS} {x : Slot} (h : Decodes K A (.key i r ks) x) (ctx : Ctx) (ev : Event Ev) :
    ∃ e ks', e.length = 0 ∧ updateState K ks r ctx i ev = .ok (ks', slotAnswer e ev x) ∧ Decodes K A (.key i r ks') (slotNext ev x) := by
  cases h with
  | @cell _ _ c h =>
    refine ⟨.empty, _, rfl, updateState_cell h ctx i ev, ?_⟩
    have : slotNext ev (.key i (.cell c) false) = .key i (.cell c) false := by unfold slotNext; split <;> rfl
    rw [this]
    exact .cell h
  | @sticky _ j m b h =>
    have hi : Res.index K.sticky j = .ok m := by simpa using h
    cases b with
    | regular =>
      refine ⟨.empty, .sticky .regular, rfl, ?_, ?_⟩
      · simp only [updateState, Sticky.sysUpdateState, hi, Sticky.updateState, Res.ok_bind]
        split <;> rfl
      · have : slotNext ev (.key i (.sticky m) (decide (Sticky.Behavior.regular = .regular))) =
            .key i (.sticky m) (decide (Sticky.Behavior.regular = .regular)) := by unfold slotNext; split <;> rfl
        rw [this]
        exact .sticky h
    | sticky =>
      cases ev with
      | input e =>
        refine ⟨.empty, .sticky .sticky, rfl, ?_, .sticky h⟩
        cases e with
        | release k =>
          simp only [updateState, Event.tryInto, Sticky.sysUpdateState, hi, Sticky.updateState, Res.ok_bind, slotAnswer, reduceCtorEq, decide_false]
          by_cases e : k = i
          · subst e; simp [KeyEvents.mapEv, SchEv.map, SchEv.imm, Event.map]; rfl
          · have : ¬ i = k := fun h => e h.symm
            simp [e, this, KeyEvents.mapEv]
        | _ => simp [updateState, Event.tryInto, Sticky.sysUpdateState, hi, Sticky.updateState, slotAnswer, KeyEvents.mapEv]
      | keymap e =>
        cases e with
        | callback cb =>
          exact ⟨.empty, .sticky .sticky, rfl, by simp [updateState, Event.tryInto, Sticky.sysUpdateState, hi, Sticky.updateState, slotAnswer, KeyEvents.mapEv], .sticky h⟩
        | resolved k ko =>
          exact ⟨.empty, .sticky .regular, rfl, by simp [updateState, Event.tryInto, Sticky.sysUpdateState, hi, Sticky.updateState, slotAnswer, KeyEvents.mapEv], .sticky h⟩
      | key k e =>
        refine ⟨.empty, .sticky .sticky, rfl, ?_, .sticky h⟩
        cases e <;> simp [updateState, Event.tryInto, Ev.toSticky?, Sticky.sysUpdateState, hi, Sticky.updateState, slotAnswer, KeyEvents.mapEv]
  | caps =>
    refine ⟨.empty, .noOp, rfl, rfl, ?_⟩
    have : slotNext ev (.key i .capsWord false) = .key i .capsWord false := by unfold slotNext; split <;> rfl
    rw [this]
    exact .caps
  | @string _ j k kos h h1 h2 h3 =>
    have hi : Res.index K.automation j = .ok k := by simpa using h
    refine ⟨(match ev with | .input _ => k.onRelease | _ => k.whilePressed), .automation, by split <;> assumption, ?_, ?_⟩
    · cases ev with
      | input e =>
        cases e with
        | release q =>
          simp only [updateState, Event.tryInto, Automation.sysUpdateState, slotAnswer]
          by_cases e : i = q
          · subst e; simp [hi, KeyEvents.mapEv, SchEv.map, SchEv.imm, Event.map]
          · simp [e, KeyEvents.mapEv]
        | _ => rfl
      | keymap e => cases e <;> rfl
      | key k e =>
        cases e with
        | automation e =>
          cases e with
          | executionFinished =>
            simp only [updateState, Event.tryInto, Ev.toAutomation?, Automation.sysUpdateState, slotAnswer, Option.map_some]
            by_cases e : i = k
            · subst e; simp [hi, KeyEvents.mapEv, SchEv.map, SchEv.imm, Event.map]
            · simp [e, KeyEvents.mapEv]
          | _ => rfl
        | _ => rfl
    · have : slotNext ev (.key i (.string kos) false) = .key i (.string kos) false := by unfold slotNext; split <;> rfl
      rw [this]
      exact .string h h1 h2 h3

/-- The key an event speaks of. -/
def evTarget : Event Ev → Option Nat
  | .input (.release j) => some j
  | .key j _ => some j
  | _ => none

theorem slotAnswer_indep (e e' : Automation.Execution) {ev : Event Ev} {x : Slot} (h : ∀ j, evTarget ev = some j → x.index ≠ some j) :
    slotAnswer e ev x = slotAnswer e' ev x := by
  cases x with
  | virt ko => rfl
  | key i a u =>
    cases a with
    | string kos =>
      cases ev with
      | input ie =>
        cases ie with
        | release j =>
          have := h j rfl
          simp only [Slot.index, ne_eq, Option.some.injEq] at this
          simp [slotAnswer, this]
        | _ => rfl
      | keymap k => rfl
      | key j k =>
        have := h j rfl
        simp only [Slot.index, ne_eq, Option.some.injEq] at this
        cases k with
        | automation k => cases k <;> simp [slotAnswer, this]
        | _ => rfl
    | cell c => rfl
    | capsWord => rfl
    | sticky m => unfold slotAnswer; split <;> simp_all

theorem Slots.notifyPressed {ps : List (PressedInput Ref KS)} {xs : List Slot} (h : Slots K A ps xs) (hnd : (xs.filterMap Slot.index).Nodup)
    (ctx : Ctx) (ev : Event Ev) :
    ∃ e ps', e.length = 0 ∧ Slots K A ps' (xs.map (slotNext ev)) ∧ ∀ s : Sched Ev,
      Verif.notifyPressed ⟨system K, refs, S⟩ ctx ev ps s = (fun s' => (ps', s')) <$> s.scheduleAll S (xs.flatMap (slotAnswer e ev)) := by
  induction h with
  | nil => exact ⟨.empty, [], rfl, .nil, fun _ => rfl⟩
  | @cons p x ps xs h hs ih =>
    have hnd' : (xs.filterMap Slot.index).Nodup := by
      rw [List.filterMap_cons] at hnd
      split at hnd
      · exact hnd
      · exact (List.nodup_cons.1 hnd).2
    obtain ⟨e2, ps', he2, h4, h3⟩ := ih hnd'
    cases p with
    | key i r ks =>
      obtain ⟨e1, ks', he1, h1, h2⟩ := updateState_slot h ctx ev
      obtain ⟨e, he, hx, hxs⟩ : ∃ e : Automation.Execution, e.length = 0 ∧ slotAnswer e1 ev x = slotAnswer e ev x ∧
          xs.flatMap (slotAnswer e2 ev) = xs.flatMap (slotAnswer e ev) := by
        by_cases ht : ∃ j, evTarget ev = some j ∧ x.index = some j
        · obtain ⟨j, hj, hxj⟩ := ht
          refine ⟨e1, he1, rfl, ?_⟩
          rw [List.filterMap_cons, hxj] at hnd
          have hno := (List.nodup_cons.1 hnd).1
          rw [List.flatMap_def, List.flatMap_def]
          congr 1
          apply List.map_congr_left
          intro y hy
          apply slotAnswer_indep
          intro j' hj' hy'
          rw [hj] at hj'
          cases hj'
          exact hno (List.mem_filterMap.2 ⟨y, hy, hy'⟩)
        · exact ⟨e2, he2, slotAnswer_indep _ _ (fun j hj hx => ht ⟨j, hj, hx⟩), rfl⟩
      refine ⟨e, .key i r ks' :: ps', he, .cons h2 h4, ?_⟩
      intro s
      simp only [Verif.notifyPressed]
      rw [show (system K).updateState ks r ctx i ev = updateState K ks r ctx i ev from rfl, h1]
      simp only [Res.ok_bind, List.flatMap_cons, Sched.scheduleAll_append, ← hx]
      cases s.scheduleAll S (slotAnswer e1 ev x) with
      | ok s1 =>
        simp only [Res.ok_bind, h3, hxs]
        cases s1.scheduleAll S (xs.flatMap (slotAnswer e ev)) <;> rfl
      | panic p => rfl
      | fuel => rfl
    | virt ko =>
      cases h
      have hn : slotNext ev (.virt ko) = .virt ko := by unfold slotNext; split <;> rfl
      have ha : slotAnswer e2 ev (.virt ko) = [] := rfl
      refine ⟨e2, .virt ko :: ps', he2, ?_, ?_⟩
      · rw [List.map_cons, hn]
        exact .cons (.virt ko) h4
      · intro s
        simp only [Verif.notifyPressed, h3, List.flatMap_cons, ha, List.nil_append]
        cases s.scheduleAll S (xs.flatMap (slotAnswer e2 ev)) <;> rfl

/-- The pressed keys and the context learn of an event. -/
theorem Slots.notifyAll {km : CKM} {xs : List Slot} (h : Slots K A km.pressed xs) (hnd : (xs.filterMap Slot.index).Nodup)
    {ev : Event Ev} {ctx : Ctx} {es : KeyEvents Ev} (hc : km.ctx.handleEvent ev = .ok (ctx, es)) :
    ∃ e, e.length = 0 ∧ ∀ sch : Sched Ev, km.sched.scheduleAll S (xs.flatMap (slotAnswer e ev) ++ es) = .ok sch →
      ∃ ps', Verif.notifyAll ⟨system K, refs, S⟩ km ev = .ok { km with pressed := ps', ctx := ctx, sched := sch } ∧
        Slots K A ps' (xs.map (slotNext ev)) := by
  obtain ⟨e, ps', he, h2, h1⟩ := h.notifyPressed (refs := refs) (S := S) hnd km.ctx ev
  refine ⟨e, he, fun sch hs => ⟨ps', ?_, h2⟩⟩
  rw [Sched.scheduleAll_append] at hs
  simp only [Verif.notifyAll, h1]
  cases hs1 : km.sched.scheduleAll S (xs.flatMap (slotAnswer e ev)) with
  | ok s1 =>
    rw [hs1] at hs
    simp only [Res.ok_bind] at hs
    simp only [Res.map_ok, Res.ok_bind]
    rw [show (system K).ctxEvent km.ctx ev = km.ctx.handleEvent ev from rfl, hc]
    simp only [Res.ok_bind, hs, Res.pure_eq]
  | panic p => rw [hs1] at hs; cases hs
  | fuel => rw [hs1] at hs; cases hs

/-- Immediate events are appended to the queue. -/
theorem scheduleAll_imms (S : Search) (s : Sched Ev) (evs : List (Event Ev)) (h : s.pending.length + evs.length ≤ 31) :
    s.scheduleAll S (evs.map SchEv.imm) = .ok { s with pending := s.pending ++ evs.map some } := by
  induction evs generalizing s with
  | nil => simp [Sched.scheduleAll]
  | cons e evs ih =>
    simp only [List.length_cons] at h
    have he : s.scheduleEvent S (SchEv.imm e) = .ok { s with pending := s.pending ++ [some e] } := by
      have hlt : s.pending.length < Sched.pendingCap := by unfold Sched.pendingCap; omega
      simp only [Sched.scheduleEvent, SchEv.imm, Sched.enqueue, pushCap, hlt, if_true, Res.ok_bind, Res.pure_eq]
    simp only [List.map_cons, Sched.scheduleAll, he, Res.ok_bind]
    rw [ih _ (by simp; omega)]
    simp

end Verif.Comp
