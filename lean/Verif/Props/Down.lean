import Verif.Lemmas.Down
import Verif.Lemmas.Timer
import Verif.Example

/-!
# C83: the keys that count as pressed are those that are down; C84: a key never waits for ever
-/

namespace Verif.Comp

open _root_.Verif.Spec

section

variable {K : Keys} {refs : List Ref} {S : Search} {ctx : Ctx}

/-! ## C84 -/

/-- The event that ends the wait of a key. -/
def timer (idx : Nat) : PKS → Event Ev
  | .tapHold _ => .key idx (.tapHold .timeout)
  | .tapDance p => .key idx (.tapDance (.nextPressTimeout p.pressCount))
  | .chorded _ => .key idx (.chorded .timeout)

theorem hasTimer (K : Keys) (refs : List Ref) (S : Search) : Timer.HasTimer (cfg K refs S) timer where
  press := by
    intro idx c r pks es h
    replace h : newPressedKey K idx c r = .ok (.pending pks, es) := h
    cases r with
    | tapHold j =>
      simp only [newPressedKey, Res.bind_eq_ok, Res.pure_eq, Res.ok.injEq, Prod.mk.injEq] at h
      obtain ⟨⟨p, es'⟩, h1, h2, rfl⟩ := h
      cases p with
      | key r2 => simp at h2
      | pending p =>
        simp only [PKR.pending.injEq] at h2; subst h2
        have he : es' = (TapHold.newPending c.tapHold idx).2 := by
          unfold TapHold.newPressedKey at h1
          split at h1
          · split at h1
            · simp only [Res.ok.injEq, Prod.mk.injEq] at h1; exact h1.2.symm
            · simp only [Res.bind_eq_ok, Res.pure_eq, Res.ok.injEq, Prod.mk.injEq] at h1
              obtain ⟨_, _, h, _⟩ := h1
              cases h
          · simp only [Res.ok.injEq, Prod.mk.injEq] at h1; exact h1.2.symm
        subst he
        exact ⟨_, List.mem_singleton.2 rfl, rfl⟩
    | chorded l =>
      simp only [newPressedKey, Res.bind_eq_ok, Res.pure_eq, Res.ok.injEq, Prod.mk.injEq] at h
      obtain ⟨⟨p, es'⟩, h1, h2, rfl⟩ := h
      cases p with
      | npk n => simp at h2
      | pending p =>
        simp only [PKR.pending.injEq] at h2; subst h2
        have he : es' = Chorded.timeoutEvents c.chorded idx := by
          cases l with
          | chorded i =>
            simp only [Chorded.sysNewPressedKey, Chorded.Key.newPressedKey, Res.bind_eq_ok] at h1
            obtain ⟨k, _, x, _, h1⟩ := h1
            cases x with
            | inl x =>
              simp only [Res.bind_eq_ok, Res.pure_eq, Res.ok.injEq, Prod.mk.injEq] at h1
              obtain ⟨_, _, h, _⟩ := h1
              cases h
            | inr x => simp only [Res.pure_eq, Res.ok.injEq, Prod.mk.injEq] at h1; exact h1.2.symm
          | auxiliary i =>
            simp only [Chorded.sysNewPressedKey, Chorded.auxNewPressedKey, Res.bind_eq_ok] at h1
            obtain ⟨k, _, x, _, h1⟩ := h1
            cases x with
            | inl x =>
              simp only [Res.pure_eq, Res.ok.injEq, Prod.mk.injEq] at h1
              cases h1.1
            | inr x => simp only [Res.pure_eq, Res.ok.injEq, Prod.mk.injEq] at h1; exact h1.2.symm
        subst he
        exact ⟨_, List.mem_singleton.2 rfl, rfl⟩
    | tapDance j =>
      simp only [newPressedKey, Res.ok.injEq, Prod.mk.injEq, PKR.pending.injEq] at h
      obtain ⟨rfl, rfl⟩ := h
      exact ⟨_, List.mem_singleton.2 rfl, rfl⟩
    | _ =>
      rcases npk_pending (idx := idx) (c := c) (es := es) h with ⟨_, _, h, _⟩ | ⟨_, _, h, _⟩ | ⟨_, _, h, _⟩ <;> cases h
  due := by
    intro idx c r pks pks' es h
    replace h : updatePending K pks idx c r (timer idx pks) = .ok (pks', none, es) := h
    unfold updatePending at h
    split at h
    · rename_i l p
      simp only [timer, Event.tryInto, Ev.toChorded?, Option.map_some, Res.bind_eq_ok, Res.pure_eq, Res.ok.injEq, Prod.mk.injEq] at h
      obtain ⟨⟨p', n, es'⟩, h1, _, rfl, _⟩ := h
      cases l <;>
        simp [Chorded.sysUpdatePending, Chorded.Key.updatePending, Chorded.auxUpdatePending, Chorded.PKS.handleEvent, Res.bind_eq_ok] at h1
    · rename_i i p
      simp only [timer, Event.tryInto, Ev.toTapDance?, Option.map_some, Res.bind_eq_ok, Res.pure_eq, Res.ok.injEq, Prod.mk.injEq] at h
      obtain ⟨⟨p', n, es'⟩, h1, _, rfl, _⟩ := h
      simp [TapDance.updatePending, TapDance.PKS.handleEvent, Res.bind_eq_ok] at h1
    · rename_i i p
      simp only [timer, Event.tryInto, Ev.toTapHold?, Option.map_some, Res.bind_eq_ok, Res.pure_eq, Res.ok.injEq, Prod.mk.injEq] at h
      obtain ⟨⟨p', n, es'⟩, h1, _, rfl, _⟩ := h
      simp only [TapHold.updatePending, TapHold.PKS.handleEvent, TapHold.PKS.holdResolution] at h1
      cases hi : c.tapHold.config.interruptResponse <;> simp [hi, Res.bind_eq_ok] at h1
    · cases h
  keep := by
    intro idx c r pks ev pks' es h
    replace h : updatePending K pks idx c r ev = .ok (pks', none, es) := h
    unfold updatePending at h
    split at h
    · split at h
      · simp only [Res.bind_eq_ok, Res.pure_eq, Res.ok.injEq, Prod.mk.injEq] at h
        obtain ⟨⟨p', n, es'⟩, h1, rfl, rfl, _⟩ := h
        exact Or.inl rfl
      · simp only [Res.ok.injEq, Prod.mk.injEq] at h; rw [← h.1]; exact Or.inl rfl
    · split at h
      · rename_i i p _ ev' _
        simp only [Res.bind_eq_ok, Res.pure_eq, Res.ok.injEq, Prod.mk.injEq] at h
        obtain ⟨⟨p', n, es'⟩, h1, rfl, rfl, rfl⟩ := h
        simp only [TapDance.updatePending, Res.bind_eq_ok] at h1
        obtain ⟨k, _, ⟨p2, x, es2⟩, h2, h3⟩ := h1
        have he : p2 = p' ∧ es2 = es' := by
          cases x with
          | some n =>
            simp only [Res.bind_eq_ok, Res.pure_eq, Res.ok.injEq, Prod.mk.injEq] at h3
            obtain ⟨_, _, _, _, h, _⟩ := h3
            exact ⟨h, by simp_all⟩
          | none =>
            simp only at h3
            split at h3
            · simp at h3
            · split at h3
              · simp only [Res.bind_eq_ok, Res.pure_eq, Res.ok.injEq, Prod.mk.injEq] at h3
                obtain ⟨_, _, _, _, _, h, _⟩ := h3
                cases h
              · simp only [Res.ok.injEq, Prod.mk.injEq] at h3; exact ⟨h3.1, h3.2.2⟩
        obtain ⟨rfl, rfl⟩ := he
        unfold TapDance.PKS.handleEvent at h2
        split at h2
        · split at h2 <;> simp only [Res.ok.injEq, Prod.mk.injEq] at h2 <;> rw [← h2.1] <;> exact Or.inl rfl
        · split at h2
          · split at h2
            · simp only [Res.ok.injEq, Prod.mk.injEq] at h2
              obtain ⟨rfl, _, rfl⟩ := h2
              exact Or.inr ⟨_, List.mem_singleton.2 rfl, rfl⟩
            · simp at h2
          · simp only [Res.ok.injEq, Prod.mk.injEq] at h2; rw [← h2.1]; exact Or.inl rfl
        · simp only [Res.ok.injEq, Prod.mk.injEq] at h2; rw [← h2.1]; exact Or.inl rfl
      · simp only [Res.ok.injEq, Prod.mk.injEq] at h; rw [← h.1]; exact Or.inl rfl
    · split at h
      · simp only [Res.bind_eq_ok, Res.pure_eq, Res.ok.injEq, Prod.mk.injEq] at h
        obtain ⟨⟨p', n, es'⟩, h1, rfl, rfl, _⟩ := h
        exact Or.inl rfl
      · simp only [Res.ok.injEq, Prod.mk.injEq] at h; rw [← h.1]; exact Or.inl rfl
    · cases h

/-- C84: while a key is undecided, the event that decides it is queued, or scheduled and not cancelled. Every keymap,
whatever its keys become, and every sequence of calls. -/
theorem C84_timer {n : Nat} {ops : List Op} {km : KM Ref Ev Ctx PKS KS}
    (h : run (cfg K refs S) n (KM.new ctx) ops = .ok km) {p : Pending Ref Ev PKS} (hp : km.pend = some p) :
    ∃ e, (some e ∈ km.sched.pending ∨ ∃ t ∈ km.sched.scheduled, t.event = e ∧ t.live = true) ∧
      ∀ c pks' es, updatePending K p.pks p.idx c p.ref e ≠ .ok (pks', none, es) :=
  ⟨timer p.idx p.pks, Timer.run_ticks (hasTimer K refs S) (.of_none rfl) h p hp,
    fun c pks' es => (hasTimer K refs S).due p.idx c p.ref p.pks pks' es⟩

/-- C84, as a firmware sees it: when nothing is scheduled, no key is undecided. -/
theorem C84_nothing_undecided {n : Nat} {ops : List Op} {km : KM Ref Ev Ctx PKS KS}
    (h : run (cfg K refs S) n (KM.new ctx) ops = .ok km) (hs : km.hasScheduledEvents = false) : km.pend = none := by
  cases hp : km.pend with
  | none => rfl
  | some p =>
    obtain ⟨e, he, _⟩ := C84_timer h hp
    simp only [KM.hasScheduledEvents, Bool.or_eq_false_iff, Bool.not_eq_false', List.isEmpty_iff] at hs
    rcases he with he | ⟨t, ht, _⟩
    · rw [hs.1.1] at he; cases he
    · rw [hs.1.2] at ht; cases ht

/-- A tap-hold key of the example keymap is pressed and waits: something is scheduled, and is not any more once the key
is decided. -/
example : ((fun km => (km.pend.isSome, km.hasScheduledEvents)) <$> run Ex.C 9 Ex.km0 [.input (.press 2)]) = .ok (true, true) ∧
    ((fun km => (km.pend.isSome, km.hasScheduledEvents)) <$> run Ex.C 9 Ex.km0
      [.input (.press 2), .tick, .tick, .input (.release 2), .tick, .tick, .tick]) = .ok (false, true) ∧
    ((fun km => (km.pend.isSome, km.hasScheduledEvents)) <$> run Ex.C 9 Ex.km0
      ([.input (.press 2), .tick, .tick, .input (.release 2)] ++ List.replicate 202 .tick)) = .ok (false, false) := by
  decide +kernel

/-! ## C83 -/

/-- C83, the full claim: when nothing is scheduled, the keys that count as pressed are those that are down. -/
def C83_full : Prop :=
  ∀ (K : Keys) (refs : List Ref) (S : Search) (ctx : Ctx) (n : Nat) (ops : List Op) (km : KM Ref Ev Ctx PKS KS),
    heard (cfg K refs S) n (KM.new ctx) ops = true → run (cfg K refs S) n (KM.new ctx) ops = .ok km →
    km.hasScheduledEvents = false → ∀ i, i ∈ indices km.pressed ↔ keyDown i ops = true

/-- C83 at any time: whatever still waits, every key will be pressed or not as its last event says. -/
theorem C83_in_the_end_partial (hN : Down.NoNesting K refs) {n : Nat} {ops : List Op} {km : KM Ref Ev Ctx PKS KS}
    (hh : heard (cfg K refs S) n (KM.new ctx) ops = true) (h : run (cfg K refs S) n (KM.new ctx) ops = .ok km) (i : Nat) :
    (Down.pendIn km ++ km.inq).foldl (evDown i)
      (decide (i ∈ indices km.pressed) || decide (km.pend.map (·.idx) = some i)) = keyDown i ops :=
  (Down.run_fine hN (Down.Fine.new ctx) hh h).2 i

/-- C83 for keymaps whose undecided keys do not become undecided keys, of any kinds of keys. -/
theorem C83_pressed_iff_down_partial (hN : Down.NoNesting K refs) {n : Nat} {ops : List Op} {km : KM Ref Ev Ctx PKS KS}
    (hh : heard (cfg K refs S) n (KM.new ctx) ops = true) (h : run (cfg K refs S) n (KM.new ctx) ops = .ok km)
    (hs : km.hasScheduledEvents = false) (i : Nat) : i ∈ indices km.pressed ↔ keyDown i ops = true := by
  have hp := C84_nothing_undecided h hs
  have key := C83_in_the_end_partial hN hh h i
  simp only [KM.hasScheduledEvents, Bool.or_eq_false_iff, Bool.not_eq_false', List.isEmpty_iff] at hs
  simp only [Down.pendIn, hp, hs.2, List.append_nil, List.foldl_nil, Option.map_none] at key
  simpa using congrArg (· = true) key

/-- C83, no stuck keys: when all keys are up and nothing is scheduled, all that is reported are virtual keys. -/
theorem C83_no_stuck_keys_partial (hN : Down.NoNesting K refs) {n : Nat} {ops : List Op} {km : KM Ref Ev Ctx PKS KS}
    (hh : heard (cfg K refs S) n (KM.new ctx) ops = true) (h : run (cfg K refs S) n (KM.new ctx) ops = .ok km)
    (hs : km.hasScheduledEvents = false) (hup : ∀ i, keyDown i ops = false) :
    km.pressedKeys (cfg K refs S) = .ok (virtuals km.pressed) := by
  have hi : ∀ i, i ∉ indices km.pressed := fun i hi => by
    have := (C83_pressed_iff_down_partial hN hh h hs i).1 hi
    rw [hup] at this; cases this
  unfold KM.pressedKeys
  generalize km.pressed = ps at hi
  induction ps with
  | nil => rfl
  | cons x ps ih =>
    cases x with
    | key j r ks => exact absurd (hi j) (by simp)
    | virt ko =>
      have := ih (fun i h => hi i (by simpa using h))
      simp only [pressedOutputs, this]
      rfl

end

/-- In the example keymap, which has keys of every kind, every key that another one can become is a plain one. -/
theorem exChild {r c : Ref} (h : Child Ex.K r c) : ∃ u, c = .keyboard u := by
  cases h with
  | @base i k h => rcases i with _ | i <;> simp [Ex.K] at h; subst h; exact ⟨_, rfl⟩
  | @layer i k r h hm => rcases i with _ | i <;> simp [Ex.K] at h; subst h; simp at hm; exact ⟨_, hm⟩
  | @tap i k h => rcases i with _ | i <;> simp [Ex.K] at h; subst h; exact ⟨_, rfl⟩
  | @hold i k h => rcases i with _ | i <;> simp [Ex.K] at h; subst h; exact ⟨_, rfl⟩
  | @tapDance i k r h hm =>
    rcases i with _ | i <;> simp [Ex.K] at h; subst h; simp at hm; rcases hm with h | h <;> exact ⟨_, h⟩
  | @chord i k id r h hm => rcases i with _ | i <;> simp [Ex.K] at h; subst h; simp at hm; exact ⟨_, hm.2⟩
  | @passthrough i k h => rcases i with _ | i <;> simp [Ex.K] at h; subst h; exact ⟨_, rfl⟩
  | @aux i r h => rcases i with _ | i <;> simp [Ex.K] at h; subst h; exact ⟨_, rfl⟩

/-- So it meets the hypothesis of C83. -/
theorem exNoNesting : Down.NoNesting Ex.K Ex.refs := by
  intro r _ r' _
  refine Or.inr fun c hc r2 hl => ?_
  obtain ⟨u, rfl⟩ := exChild hc
  cases hl with
  | refl => rfl
  | step c _ => cases c

/-- Typing on the example keymap: the tap-hold key 2 down, A pressed meanwhile, 2 up; a chord of 10 and 11; the
tap-dance key 7 tapped. A is still down at the end, and it alone counts as pressed. -/
def exOps : List Op :=
  [.input (.press 2), .tick, .input (.press 0), .tick, .input (.release 2), .tick, .input (.press 10), .tick,
   .input (.press 11), .tick, .tick, .input (.release 11), .tick, .input (.release 10), .tick, .input (.press 7), .tick,
   .input (.release 7)] ++ List.replicate 210 .tick

example : heard Ex.C 20 Ex.km0 exOps = true ∧
    ((fun km => (km.hasScheduledEvents, indices km.pressed)) <$> run Ex.C 20 Ex.km0 exOps) = .ok (false, [0]) ∧
    (List.range 16).map (keyDown · exOps) = true :: List.replicate 15 false := by
  decide +kernel

namespace Nest

/-- A chord of three keys, the first of which is a tap-hold key otherwise. -/
def K : Keys where
  chorded := [⟨[(0, .keyboard (.keyCode 10))], .tapHold 0⟩]
  chordedAux := [.keyboard (.keyCode 12), .keyboard (.keyCode 13)]
  tapHold := [⟨.keyboard (.keyCode 14), .keyboard (.keyCode 0xE0)⟩]

/-- Its three keys. -/
def refs : List Ref := [.chorded (.chorded 0), .chorded (.auxiliary 0), .chorded (.auxiliary 1)]

/-- Timeouts of 5 ms, to keep the counterexample short. -/
def config : Config := { Ex.config with chorded := ⟨5, [[0, 1, 2]], none, 3, 4⟩, tapHold := ⟨5, .ignore, none⟩ }

/-- The first two keys are pressed one after the other and released in the other order, within the timeout of the
chord; then nothing for 40 ms. -/
def ops : List Op :=
  [.input (.press 0), .tick, .input (.press 1), .tick, .input (.release 1), .tick, .input (.release 0)] ++ List.replicate 40 .tick

/-- Nothing is left to happen, and the second key counts as pressed. -/
theorem stuck : ((fun km => (km.hasScheduledEvents, indices km.pressed)) <$>
      run (cfg K refs Search.std) 20 (KM.new (Ctx.fromConfig config)) ops) = .ok (false, [1]) ∧
    heard (cfg K refs Search.std) 20 (KM.new (Ctx.fromConfig config)) ops = true ∧ keyDown 1 ops = false := by
  decide +kernel

end Nest

/-- C83, full claim, is false: when an undecided key becomes another undecided key, the events that were kept meanwhile
are queued again in the opposite order, and the release of a key comes before its press: the key stays pressed. -/
theorem C83_refuted : ¬ C83_full := by
  intro h
  obtain ⟨h1, h2, h3⟩ := Nest.stuck
  obtain ⟨km, hk, e⟩ := Res.map_eq_ok.1 h1
  simp only [Prod.mk.injEq] at e
  have := (h Nest.K Nest.refs Search.std _ 20 Nest.ops km h2 hk e.1 1).1 (by rw [e.2]; exact List.mem_cons_self)
  rw [h3] at this; cases this

end Verif.Comp
