import Verif.Lemmas.Settled
import Verif.Lemmas.ChordIdx
import Verif.Lemmas.BoardLayers

/-!
# The keymap simulates the board

Between two calls, a keymap of plain keys and layer keys has nothing pending, and its state is that of
the board.
-/

namespace Verif.Comp

open Board

/-- Nothing sticky is active, caps word is off. -/
structure Quiet (c : Ctx) : Prop where
  active : c.sticky.active = []
  pressedIdx : c.sticky.pressedIdx = none
  caps : c.capsWord.active = false
  layer : c.layered.stickyLayer = none

theorem ctx_press {c : Ctx} (q : Quiet c) (i : Nat) :
    c.handleEvent (.input (.press i)) = (fun ch => ({ c with chorded := ch }, [])) <$> c.chorded.handleEvent (.input (.press i)) := by
  unfold Ctx.handleEvent sub
  simp only [Event.tryInto, Automation.Ctx.handleEvent, CapsWord.Ctx.handleEvent, KeyEvents.mapEv, List.map_nil, KeyEvents.extend,
    Res.ok_bind, Res.pure_eq]
  cases h : c.chorded.handleEvent (.input (.press i)) with
  | ok ch =>
    simp only [Res.map_ok, Res.ok_bind, Layered.Ctx.handleEvent, q.layer, Sticky.Ctx.handleEvent, q.pressedIdx, Option.isSome_none,
      Bool.false_eq_true, false_and, if_false, List.map_nil, KeyEvents.extend]
  | panic p => rfl
  | fuel => rfl

theorem ctx_release {c : Ctx} (q : Quiet c) (i : Nat) :
    c.handleEvent (.input (.release i)) = (fun ch => ({ c with chorded := ch }, [])) <$> c.chorded.handleEvent (.input (.release i)) := by
  unfold Ctx.handleEvent sub
  simp only [Event.tryInto, Automation.Ctx.handleEvent, CapsWord.Ctx.handleEvent, KeyEvents.mapEv, List.map_nil, KeyEvents.extend,
    Res.ok_bind, Res.pure_eq]
  cases h : c.chorded.handleEvent (.input (.release i)) with
  | ok ch =>
    simp only [Res.map_ok, Res.ok_bind, Layered.Ctx.handleEvent, q.layer, Sticky.Ctx.handleEvent, q.pressedIdx, reduceCtorEq, false_and,
      if_false, List.map_nil, KeyEvents.extend]
  | panic p => rfl
  | fuel => rfl

theorem ctx_resolved {c : Ctx} (q : Quiet c) (i : Nat) (ko : KeyOutput) : c.handleEvent (.keymap (.resolved i ko)) = .ok (c, []) := by
  unfold Ctx.handleEvent sub
  have hc : CapsWord.Ctx.handleEvent c.capsWord (.keymap (.resolved i ko)) = (c.capsWord, []) := by
    simp only [CapsWord.Ctx.handleEvent, q.caps]
    cases ko.usage <;> rfl
  simp only [Event.tryInto, Automation.Ctx.handleEvent, hc, KeyEvents.mapEv, List.map_nil, KeyEvents.extend,
    Res.ok_bind, Res.pure_eq, Chorded.Ctx.handleEvent, Layered.Ctx.handleEvent, Res.map_ok, Sticky.Ctx.handleEvent, q.active,
    List.length_nil, Nat.lt_irrefl, gt_iff_lt, if_false]

theorem ctx_callback (c : Ctx) (cb : Callback) : c.handleEvent (.keymap (.callback cb)) = .ok (c, []) := by
  unfold Ctx.handleEvent sub
  simp only [Event.tryInto, Automation.Ctx.handleEvent, CapsWord.Ctx.handleEvent, KeyEvents.mapEv, List.map_nil, KeyEvents.extend,
    Res.ok_bind, Res.pure_eq, Chorded.Ctx.handleEvent, Layered.Ctx.handleEvent, Res.map_ok, Sticky.Ctx.handleEvent]

theorem ctx_layered (c : Ctx) (i : Nat) (e : Layered.Ev) :
    c.handleEvent (.key i (.layered e)) = (fun l => ({ c with layered := l }, [])) <$> c.layered.handleLayerEvent e := by
  unfold Ctx.handleEvent sub
  simp only [Event.tryInto, Ev.toAutomation?, Ev.toCapsWord?, Ev.toChorded?, Ev.toLayered?, Ev.toSticky?, Option.map_none, Option.map_some,
    Res.ok_bind, Layered.Ctx.handleEvent]
  cases c.layered.handleLayerEvent e with
  | ok l => simp [KeyEvents.mapEv, KeyEvents.extend]
  | panic p => rfl
  | fuel => rfl

/-- The state of a pressed key. -/
def ksOf : Ref → KS
  | .keyboard _ => .keyboard
  | .consumer _ => .consumer
  | .custom _ => .custom
  | .mouse _ => .mouse
  | .layered _ => .layerModifier .regular
  | _ => .noOp

/-- What a held key does: a key of a chord that is held for another key of the chord does nothing. -/
def heldAs (K : Keys) : Ref → Option Cell
  | .chorded _ => some .nothing
  | r => cellOf K r

theorem heldAs_cell {K : Keys} {r : Ref} {c : Cell} (h : cellOf K r = some c) : heldAs K r = some c := by
  cases r <;> first | exact h | simp [cellOf] at h

/-- The held key a pressed input stands for. -/
def decode (K : Keys) : PressedInput Ref KS → Option (Nat × Cell)
  | .key i r ks => if ks = ksOf r then (heldAs K r).map (fun c => (i, c)) else none
  | .virt _ => none

/-- The events a held key emits. -/
def answer (i : Nat) (c : Cell) : Event Ev → KeyEvents Ev
  | .input (.release j) =>
    match c with
    | .hold l => if i = j then [SchEv.imm (.key i (.layered (.deactivated l)))] else []
    | .default l => if i = j then [SchEv.imm (.key i (.layered (.setDefault l)))] else []
    | _ => []
  | _ => []

theorem updateState_cell {K : Keys} {r : Ref} {c : Cell} (h : cellOf K r = some c) (ctx : Ctx) (i : Nat) (ev : Event Ev) :
    updateState K (ksOf r) r ctx i ev = .ok (ksOf r, answer i c ev) := by
  have nothing : ∀ c : Cell, (∀ l, c ≠ .hold l) → (∀ l, c ≠ .default l) → answer i c ev = [] := by
    intro c h1 h2
    unfold answer
    split
    · split
      · rename_i l; exact absurd rfl (h1 l)
      · rename_i l; exact absurd rfl (h2 l)
      · rfl
    · rfl
  cases r with
  | keyboard r =>
    simp only [cellOf] at h
    split at h
    · cases h; simp [updateState, ksOf, nothing]
    · cases h
  | mouse r =>
    simp only [cellOf] at h
    split at h
    · cases h; simp [updateState, ksOf, nothing]
    · cases h
  | consumer u => simp only [cellOf, Option.some.injEq] at h; subst h; simp [updateState, ksOf, nothing]
  | custom u => simp only [cellOf, Option.some.injEq] at h; subst h; simp [updateState, ksOf, nothing]
  | callback j =>
    simp only [cellOf, Option.map_eq_some_iff] at h
    obtain ⟨_, _, rfl⟩ := h
    simp [updateState, ksOf, nothing]
  | layered r =>
    cases r with
    | layered j => simp [cellOf] at h
    | modifier j =>
      simp only [cellOf] at h
      split at h
      · rename_i l hm
        cases h
        have hi : Res.index K.layerMods j = .ok (.hold l) := by simpa using hm
        cases ev with
        | input e =>
          cases e with
          | release k => by_cases e : i = k <;> simp [updateState, ksOf, Event.tryInto, Layered.sysUpdateState, hi, Layered.handleKeyEvent, answer, e, KeyEvents.mapEv, SchEv.map, SchEv.imm, Event.map]
          | _ => simp [updateState, ksOf, Event.tryInto, Layered.sysUpdateState, hi, Layered.handleKeyEvent, answer, KeyEvents.mapEv]
        | keymap e => simp [updateState, ksOf, Event.tryInto, Layered.sysUpdateState, hi, Layered.handleKeyEvent, answer, KeyEvents.mapEv]
        | key k e =>
          cases e <;> simp [updateState, ksOf, Event.tryInto, Ev.toLayered?, Layered.sysUpdateState, hi, Layered.handleKeyEvent, answer, KeyEvents.mapEv]
      · rename_i l hm
        cases h
        have hi : Res.index K.layerMods j = .ok (.toggle l) := by simpa using hm
        rw [nothing _ (by simp) (by simp)]
        simp only [updateState, ksOf, Layered.sysUpdateState, hi, Layered.handleKeyEvent, Res.ok_bind]
        split <;> rfl
      · rename_i l hm
        cases h
        have hi : Res.index K.layerMods j = .ok (.setActiveLayers l) := by simpa using hm
        rw [nothing _ (by simp) (by simp)]
        simp only [updateState, ksOf, Layered.sysUpdateState, hi, Layered.handleKeyEvent, Res.ok_bind]
        split <;> rfl
      · rename_i l hm
        cases h
        have hi : Res.index K.layerMods j = .ok (.default l) := by simpa using hm
        cases ev with
        | input e =>
          cases e with
          | release k => by_cases e : i = k <;> simp [updateState, ksOf, Event.tryInto, Layered.sysUpdateState, hi, Layered.handleKeyEvent, answer, e, KeyEvents.mapEv, SchEv.map, SchEv.imm, Event.map]
          | _ => simp [updateState, ksOf, Event.tryInto, Layered.sysUpdateState, hi, Layered.handleKeyEvent, answer, KeyEvents.mapEv]
        | keymap e => simp [updateState, ksOf, Event.tryInto, Layered.sysUpdateState, hi, Layered.handleKeyEvent, answer, KeyEvents.mapEv]
        | key k e =>
          cases e <;> simp [updateState, ksOf, Event.tryInto, Ev.toLayered?, Layered.sysUpdateState, hi, Layered.handleKeyEvent, answer, KeyEvents.mapEv]
      · cases h
  | _ => simp [cellOf] at h

theorem keyOutput_cell {K : Keys} {r : Ref} {c : Cell} (h : cellOf K r = some c) :
    keyOutput K r (ksOf r) = .ok c.output := by
  cases r with
  | keyboard r =>
    simp only [cellOf] at h
    split at h
    · rename_i ko hk; cases h; simp [keyOutput, ksOf, hk, Cell.output]
    · cases h
  | mouse r =>
    simp only [cellOf] at h
    split at h
    · rename_i ko hk; cases h; simp [keyOutput, ksOf, hk, Cell.output]
    · cases h
  | consumer u => simp only [cellOf, Option.some.injEq] at h; subst h; simp [keyOutput, ksOf, Consumer.keyOutput, Cell.output]
  | custom u => simp only [cellOf, Option.some.injEq] at h; subst h; simp [keyOutput, ksOf, Custom.keyOutput, Cell.output]
  | callback j =>
    simp only [cellOf, Option.map_eq_some_iff] at h
    obtain ⟨_, _, rfl⟩ := h
    simp [keyOutput, ksOf, Cell.output]
  | layered r =>
    cases r with
    | layered j => simp [cellOf] at h
    | modifier j =>
      simp only [cellOf] at h
      split at h <;> first | (cases h; done) | (cases h; simp [keyOutput, ksOf, Cell.output])
  | _ => simp [cellOf] at h

theorem updateState_heldAs {K : Keys} {r : Ref} {c : Cell} (h : heldAs K r = some c) (ctx : Ctx) (i : Nat) (ev : Event Ev) :
    updateState K (ksOf r) r ctx i ev = .ok (ksOf r, answer i c ev) := by
  cases r with
  | chorded r =>
    cases h
    have : answer i .nothing ev = [] := by unfold answer; split <;> rfl
    simp [updateState, ksOf, this]
  | _ => exact updateState_cell (K := K) (c := c) (by simpa only [heldAs] using h) ctx i ev

theorem keyOutput_heldAs {K : Keys} {r : Ref} {c : Cell} (h : heldAs K r = some c) : keyOutput K r (ksOf r) = .ok c.output := by
  cases r with
  | chorded r => cases h; rfl
  | _ => exact keyOutput_cell (K := K) (c := c) (by simpa only [heldAs] using h)

/-- The event pressing a key emits. -/
def PressEvents (K : Keys) (i : Nat) (r : Ref) (c : Cell) (es : KeyEvents Ev) : Prop :=
  match c with
  | .out _ => es = []
  | .nothing => ∃ cb, es = [SchEv.imm (.keymap (.callback cb))]
  | c => ∃ m : Layered.ModifierKey, es = [SchEv.imm (.key i (.layered m.newPressedKey.2))] ∧
      ((∃ l, m = .hold l ∧ c = .hold l) ∨ (∃ l, m = .toggle l ∧ c = .toggle l) ∨ (∃ b, m = .setActiveLayers b ∧ c = .setLayers b) ∨
        (∃ l, m = .default l ∧ c = .default l))

theorem newPressedKey_cell {K : Keys} {r : Ref} {c : Cell} (h : cellOf K r = some c) (ctx : Ctx) (i : Nat) :
    ∃ pkr es, newPressedKey K i ctx r = .ok (pkr, es) ∧ PressEvents K i r c es ∧
      (pkr = .resolved (ksOf r) ∨ (pkr = .newPressedKey .noOp ∧ ksOf r = .noOp ∧ c = .nothing)) := by
  cases r with
  | keyboard r =>
    simp only [cellOf] at h
    split at h
    · cases h; exact ⟨_, _, rfl, rfl, .inl rfl⟩
    · cases h
  | mouse r =>
    simp only [cellOf] at h
    split at h
    · cases h; exact ⟨_, _, rfl, rfl, .inl rfl⟩
    · cases h
  | consumer u => simp only [cellOf, Option.some.injEq] at h; subst h; exact ⟨_, _, rfl, rfl, .inl rfl⟩
  | custom u => simp only [cellOf, Option.some.injEq] at h; subst h; exact ⟨_, _, rfl, rfl, .inl rfl⟩
  | callback j =>
    simp only [cellOf, Option.map_eq_some_iff] at h
    obtain ⟨cb, hcb, rfl⟩ := h
    have hi : Res.index K.callback j = .ok cb := by simpa using hcb
    refine ⟨.newPressedKey .noOp, [SchEv.imm (.keymap (.callback cb))], ?_, ⟨cb, rfl⟩, .inr ⟨rfl, rfl, rfl⟩⟩
    simp only [newPressedKey, CallbackKey.newPressedKey, hi, Res.ok_bind, Res.pure_eq]
  | layered r =>
    cases r with
    | layered j => simp [cellOf] at h
    | modifier j =>
      have go : ∀ m : Layered.ModifierKey, K.layerMods[j]? = some m → m.newPressedKey.1 = .regular →
          newPressedKey K i ctx (.layered (.modifier j)) =
            .ok (.resolved (ksOf (.layered (.modifier j))), [SchEv.imm (.key i (.layered m.newPressedKey.2))]) := by
        intro m hm hb
        have hi : Res.index K.layerMods j = .ok m := by simpa using hm
        simp only [newPressedKey, Layered.sysNewPressedKey, hi, Res.ok_bind, Res.pure_eq, ksOf, hb, KeyEvents.mapEv, List.map_cons,
          List.map_nil, SchEv.map, SchEv.imm, Event.map]
      simp only [cellOf] at h
      split at h
      · rename_i l hm; cases h
        exact ⟨_, _, go _ hm rfl, ⟨_, rfl, .inl ⟨l, rfl, rfl⟩⟩, .inl rfl⟩
      · rename_i l hm; cases h
        exact ⟨_, _, go _ hm rfl, ⟨_, rfl, .inr (.inl ⟨l, rfl, rfl⟩)⟩, .inl rfl⟩
      · rename_i l hm; cases h
        exact ⟨_, _, go _ hm rfl, ⟨_, rfl, .inr (.inr (.inl ⟨l, rfl, rfl⟩))⟩, .inl rfl⟩
      · rename_i l hm; cases h
        exact ⟨_, _, go _ hm rfl, ⟨_, rfl, .inr (.inr (.inr ⟨l, rfl, rfl⟩))⟩, .inl rfl⟩
      · cases h
  | _ => simp [cellOf] at h

end Verif.Comp
