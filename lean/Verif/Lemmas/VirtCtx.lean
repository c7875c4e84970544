import Verif.Lemmas.VirtSlots
import Verif.Props.Sticky
import Verif.Props.CapsWord

/-!
# What the contexts do with the events of sticky modifiers, caps word and macros
-/

namespace Verif.Comp

open Virt

/-- The virtual releases of modifiers. -/
def letGoEvents (ms : List Byte) : List (Event Ev) := ms.map fun m => .input (.vrelease (modKey m))

theorem extend_ok (xs es : KeyEvents Ev) (h : xs.length + es.length ≤ 4) : KeyEvents.extend xs es = .ok (xs ++ es) := by
  induction es generalizing xs with
  | nil => simp [KeyEvents.extend]
  | cons e es ih =>
    simp only [List.length_cons] at h
    have hp : KeyEvents.push xs e = .ok (xs ++ [e]) := by
      unfold KeyEvents.push
      rw [pushCap_eq_ok]
      exact ⟨by unfold maxKeyEvents; omega, rfl⟩
    simp only [KeyEvents.extend, hp, Res.ok_bind]
    rw [ih _ (by simp; omega)]
    simp

theorem extend_nil (es : KeyEvents Ev) (h : es.length ≤ 4) : KeyEvents.extend [] es = .ok es := by
  rw [extend_ok [] es (by simpa using h)]
  rfl

theorem extend_empty (pke : KeyEvents Ev) : KeyEvents.extend pke [] = .ok pke := rfl

theorem releases_map (ms : List Byte) : KeyEvents.mapEv Ev.sticky (Sticky.releases ms) = (letGoEvents ms).map SchEv.imm := by
  simp [KeyEvents.mapEv, Sticky.releases, letGoEvents, SchEv.map, SchEv.imm, Event.map, modKey, KeyOutput.fromKeyModifiers]

theorem sub_quiet {E C : Type} {conv : Ev → Option E} {inj : E → Ev} {h : C → Event E → Res (C × KeyEvents E)} {c : C} {ev : Event Ev}
    (pke : KeyEvents Ev) (hq : ∀ e, ev.tryInto conv = some e → h c e = .ok (c, [])) : sub conv inj h c pke ev = .ok (c, pke) := by
  unfold sub
  cases he : ev.tryInto conv with
  | none => rfl
  | some e => simp [hq e he, KeyEvents.mapEv, KeyEvents.extend]

/-- The context when a key is pressed. -/
theorem ctx_press_v {c : Ctx} {ch : Chorded.Ctx} (hl : c.layered.stickyLayer = none) (h4 : c.sticky.active.length ≤ 4) {i : Nat}
    (hch : c.chorded.handleEvent (.input (.press i)) = .ok ch) :
    c.handleEvent (.input (.press i)) =
      .ok (if c.sticky.pressedIdx.isSome ∧ c.sticky.release = .onNextKeyPress then
          ({ c with chorded := ch, sticky := { c.sticky with active := [], pressedIdx := none } }, (letGoEvents c.sticky.active).map SchEv.imm)
        else ({ c with chorded := ch }, [])) := by
  unfold Ctx.handleEvent sub
  simp only [Event.tryInto, Automation.Ctx.handleEvent, CapsWord.Ctx.handleEvent, KeyEvents.mapEv, List.map_nil, KeyEvents.extend,
    Res.ok_bind, Res.pure_eq, hch, Res.map_ok, Layered.Ctx.handleEvent, hl, Sticky.Ctx.handleEvent]
  by_cases hc : c.sticky.pressedIdx.isSome ∧ c.sticky.release = .onNextKeyPress
  · simp only [hc, and_self, if_true]
    rw [Sticky.releaseAll_eq _ _ (by simpa using h4)]
    simp only [Res.ok_bind, List.nil_append]
    have hm : List.map (SchEv.map Ev.sticky) (Sticky.releases c.sticky.active) = (letGoEvents c.sticky.active).map SchEv.imm := releases_map _
    rw [hm, extend_nil _ (by simpa [letGoEvents] using h4)]
    rfl
  · simp only [hc, if_false, Res.ok_bind, List.map_nil]
    rfl

/-- The context when a key is released. -/
theorem ctx_release_v {c : Ctx} {ch : Chorded.Ctx} (hl : c.layered.stickyLayer = none) (h4 : c.sticky.active.length ≤ 4) {i : Nat}
    (hch : c.chorded.handleEvent (.input (.release i)) = .ok ch) :
    c.handleEvent (.input (.release i)) =
      .ok (if some i = c.sticky.pressedIdx ∧ c.sticky.active.length > 0 then
          ({ c with chorded := ch, sticky := { c.sticky with active := [], pressedIdx := none } }, (letGoEvents c.sticky.active).map SchEv.imm)
        else ({ c with chorded := ch }, [])) := by
  unfold Ctx.handleEvent sub
  simp only [Event.tryInto, Automation.Ctx.handleEvent, CapsWord.Ctx.handleEvent, KeyEvents.mapEv, List.map_nil, KeyEvents.extend,
    Res.ok_bind, Res.pure_eq, hch, Res.map_ok, Layered.Ctx.handleEvent, hl, Sticky.Ctx.handleEvent]
  by_cases hc : some i = c.sticky.pressedIdx ∧ c.sticky.active.length > 0
  · simp only [hc, and_self, if_true]
    rw [Sticky.releaseAll_eq _ _ (by simpa using h4)]
    simp only [Res.ok_bind, List.nil_append]
    have hm : List.map (SchEv.map Ev.sticky) (Sticky.releases c.sticky.active) = (letGoEvents c.sticky.active).map SchEv.imm := releases_map _
    rw [hm, extend_nil _ (by simpa [letGoEvents] using h4)]
    rfl
  · simp only [hc, if_false, Res.ok_bind, List.map_nil]
    rfl

theorem ctx_virtual (c : Ctx) (e : InputEvent) (h : ∀ i, e ≠ .press i) (h' : ∀ i, e ≠ .release i) : c.handleEvent (.input e) = .ok (c, []) := by
  unfold Ctx.handleEvent
  cases e with
  | press i => exact absurd rfl (h i)
  | release i => exact absurd rfl (h' i)
  | vpress ko => simp [sub, Event.tryInto, Automation.Ctx.handleEvent, CapsWord.Ctx.handleEvent, KeyEvents.mapEv, KeyEvents.extend, Chorded.Ctx.handleEvent, Layered.Ctx.handleEvent, Sticky.Ctx.handleEvent]
  | vrelease ko => simp [sub, Event.tryInto, Automation.Ctx.handleEvent, CapsWord.Ctx.handleEvent, KeyEvents.mapEv, KeyEvents.extend, Chorded.Ctx.handleEvent, Layered.Ctx.handleEvent, Sticky.Ctx.handleEvent]

theorem ctx_activate (c : Ctx) (i : Nat) (m : Byte) :
    c.handleEvent (.key i (.sticky (.activateModifiers m))) =
      .ok ({ c with sticky := { c.sticky with active := if c.sticky.active.length < 4 then c.sticky.active ++ [m] else c.sticky.active } }, []) := by
  unfold Ctx.handleEvent
  simp only [sub, Event.tryInto, Ev.toAutomation?, Ev.toCapsWord?, Ev.toChorded?, Ev.toLayered?, Ev.toSticky?, Option.map_none, Option.map_some,
    Res.ok_bind, Sticky.Ctx.handleEvent, Sticky.maxStickyModifiers]
  by_cases h : c.sticky.active.length < 4 <;> simp only [h, if_true, if_false] <;> rfl

theorem ctx_capsOn (c : Ctx) (i : Nat) :
    c.handleEvent (.key i (.capsWord .enable)) = .ok ({ c with capsWord := ⟨true⟩ }, [SchEv.imm (.input (.vpress shiftKey))]) := rfl

theorem ctx_capsOff (c : Ctx) (i : Nat) :
    c.handleEvent (.key i (.capsWord .disable)) = .ok ({ c with capsWord := ⟨false⟩ }, [SchEv.imm (.input (.vrelease shiftKey))]) := rfl

theorem ctx_enqueue_empty (c : Ctx) (i : Nat) {e : Automation.Execution} (he : e.length = 0) :
    c.handleEvent (.key i (.automation (.enqueue e))) = .ok (c, []) := by
  obtain ⟨a, b⟩ := e
  subst he
  rfl

theorem wordKey_iff (kc mods : Byte) : wordKey kc mods = true ↔ CapsWord.WordKey kc mods := by
  simp only [wordKey, CapsWord.WordKey, Bool.or_eq_true, decide_eq_true_eq, or_assoc]

theorem exits_eq (kc mods : Byte) : CapsWord.exits kc mods = !wordKey kc mods := by
  have h1 := CapsWord.exits_iff kc mods
  rw [← wordKey_iff] at h1
  cases h : CapsWord.exits kc mods <;> cases h' : wordKey kc mods <;> simp_all

/-- The context when a key is typed. -/
theorem ctx_resolved_v (c : Ctx) (i : Nat) (ko : KeyOutput) :
    c.handleEvent (.keymap (.resolved i ko)) =
      .ok ({ c with
          capsWord := if c.capsWord.active ∧ endsWord ko then ⟨false⟩ else c.capsWord
          sticky := { c.sticky with pressedIdx := if c.sticky.active = [] then c.sticky.pressedIdx else some i } },
        if c.capsWord.active ∧ endsWord ko then [SchEv.imm (.input (.vrelease shiftKey))] else []) := by
  have hcaps : CapsWord.Ctx.handleEvent c.capsWord (.keymap (.resolved i ko)) =
      if c.capsWord.active ∧ endsWord ko then (⟨false⟩, [SchEv.imm (.input (.vrelease shiftKey))]) else (c.capsWord, []) := by
    obtain ⟨u, md⟩ := ko
    generalize c.capsWord = cw
    obtain ⟨act⟩ := cw
    cases u with
    | keyboard kc =>
      cases act with
      | true =>
        simp only [CapsWord.Ctx.handleEvent, endsWord, exits_eq]
        cases wordKey kc md <;> rfl
      | false => simp [CapsWord.Ctx.handleEvent]
    | _ => simp [CapsWord.Ctx.handleEvent, endsWord]
  have hst : Sticky.Ctx.handleEvent c.sticky (.keymap (.resolved i ko)) =
      .ok ({ c.sticky with pressedIdx := if c.sticky.active = [] then c.sticky.pressedIdx else some i }, []) := by
    simp only [Sticky.Ctx.handleEvent]
    by_cases h : c.sticky.active = []
    · have hl : ¬ c.sticky.active.length > 0 := by simp [h]
      simp only [hl, if_false, if_pos h]
    · have hl : c.sticky.active.length > 0 := List.length_pos_iff.2 h
      simp only [hl, if_true, if_neg h]
  unfold Ctx.handleEvent sub
  simp only [Event.tryInto, Automation.Ctx.handleEvent, hcaps, Chorded.Ctx.handleEvent, Layered.Ctx.handleEvent, hst, KeyEvents.mapEv, List.map_nil,
    KeyEvents.extend, Res.ok_bind, Res.pure_eq, Res.map_ok]
  by_cases hc : c.capsWord.active ∧ endsWord ko
  · simp only [hc, and_self, if_true]
    rfl
  · simp only [hc, if_false]
    rfl

end Verif.Comp
