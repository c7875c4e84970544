import Verif.Composite
import Verif.Example
import Verif.StdSearch

/-!
# C30 and C31: sticky modifier keys
-/

namespace Verif.Sticky

/-! ## C31: a sticky modifier key while it is held -/

/-- Everything a sticky modifier key emits while it is held during the events `evs`, and its state after
them. -/
def held (mods : Byte) (idx : Nat) : Behavior → List (Event Ev) → Behavior × KeyEvents Ev
  | b, [] => (b, [])
  | b, e :: es =>
    let r := updateState b mods idx e
    let rest := held mods idx r.1 es
    (rest.1, r.2 ++ rest.2)

/-- Some key was resolved (became a key with an output) during the events. -/
def Interrupted (evs : List (Event Ev)) : Prop := ∃ i ko, Event.keymap (.resolved i ko) ∈ evs

theorem held_append (mods : Byte) (idx : Nat) (b : Behavior) (es fs : List (Event Ev)) :
    held mods idx b (es ++ fs) =
      ((held mods idx (held mods idx b es).1 fs).1, (held mods idx b es).2 ++ (held mods idx (held mods idx b es).1 fs).2) := by
  induction es generalizing b with
  | nil => rfl
  | cons e es ih => simp only [List.cons_append, held, ih, List.append_assoc]

theorem held_regular (mods : Byte) (idx : Nat) (es : List (Event Ev)) : held mods idx .regular es = (.regular, []) := by
  induction es with
  | nil => rfl
  | cons e es ih => simp [held, updateState, ih]

theorem held_before (mods : Byte) (idx : Nat) (evs : List (Event Ev)) (h : .input (.release idx) ∉ evs) :
    (held mods idx .sticky evs).2 = [] ∧ ((held mods idx .sticky evs).1 = .regular ↔ Interrupted evs) := by
  induction evs with
  | nil => simp [held, Interrupted]
  | cons e es ih =>
    have hes : .input (.release idx) ∉ es := fun hm => h (List.mem_cons_of_mem _ hm)
    obtain ⟨h1, h2⟩ := ih hes
    have plain : updateState .sticky mods idx e = (.sticky, []) → (∀ i ko, e ≠ .keymap (.resolved i ko)) →
        (held mods idx .sticky (e :: es)).2 = [] ∧ ((held mods idx .sticky (e :: es)).1 = .regular ↔ Interrupted (e :: es)) := by
      intro hu hne
      simp only [held, hu, List.nil_append]
      refine ⟨h1, h2.trans ?_⟩
      constructor
      · rintro ⟨i, ko, hm⟩; exact ⟨i, ko, List.mem_cons_of_mem _ hm⟩
      · rintro ⟨i, ko, hm⟩
        rcases List.mem_cons.1 hm with rfl | hm
        · exact absurd rfl (hne i ko)
        · exact ⟨i, ko, hm⟩
    rcases e with (k | k | k | k) | ⟨k, x⟩ | k
    · exact plain rfl (by simp)
    · refine plain ?_ (by simp)
      have : k ≠ idx := fun hk => h (by rw [hk]; exact List.mem_cons_self)
      simp [updateState, this]
    · exact plain rfl (by simp)
    · exact plain rfl (by simp)
    · exact plain rfl (by simp)
    · cases k with
      | callback c => exact plain rfl (by simp)
      | resolved i ko =>
        have : held mods idx .sticky (.keymap (.resolved i ko) :: es) = (.regular, []) := by
          simp [held, updateState, held_regular]
        rw [this]
        exact ⟨rfl, ⟨fun _ => ⟨i, ko, List.mem_cons_self⟩, fun _ => rfl⟩⟩

/-- C31, tapped: if no key was resolved while the sticky key was held, its release activates the one-shot
modifiers and presses them as a virtual key; before that the key has no output and emits nothing. -/
theorem C31_tapped (mods : Byte) (idx : Nat) (evs : List (Event Ev)) (h : .input (.release idx) ∉ evs) (hi : ¬ Interrupted evs) :
    keyOutput (held mods idx .sticky evs).1 mods = none ∧
    (held mods idx .sticky evs).2 = [] ∧
    (held mods idx .sticky (evs ++ [.input (.release idx)])).2 =
      [SchEv.imm (.key idx (.activateModifiers mods)), SchEv.imm (.input (.vpress (KeyOutput.fromKeyModifiers mods)))] := by
  obtain ⟨h1, h2⟩ := held_before mods idx evs h
  have hs : (held mods idx .sticky evs).1 = .sticky := by
    cases hb : (held mods idx .sticky evs).1 with
    | sticky => rfl
    | regular => exact absurd (h2.1 hb) hi
  refine ⟨by rw [hs]; rfl, h1, ?_⟩
  rw [held_append, h1, hs]
  simp [held, updateState]

/-- C31, interrupted: if a key was resolved while the sticky key was held, the key is an ordinary modifier
from then on, and nothing at all is left behind by its release. -/
theorem C31_interrupted (mods : Byte) (idx : Nat) (evs : List (Event Ev)) (h : .input (.release idx) ∉ evs) (hi : Interrupted evs) :
    keyOutput (held mods idx .sticky evs).1 mods = some (KeyOutput.fromKeyModifiers mods) ∧
    (held mods idx .sticky (evs ++ [.input (.release idx)])).2 = [] := by
  obtain ⟨h1, h2⟩ := held_before mods idx evs h
  have hs := h2.2 hi
  refine ⟨by rw [hs]; rfl, ?_⟩
  rw [held_append, h1, hs]
  simp [held, updateState]

/-! ## C30: every virtual modifier press is matched by a release -/

/-- The context after some events, and all it emitted. -/
def feed (c : Ctx) : List (Event Ev) → Res (Ctx × KeyEvents Ev)
  | [] => .ok (c, [])
  | e :: es => do
    let (c, out) ← c.handleEvent e
    let (c, rest) ← feed c es
    pure (c, out ++ rest)

/-- The modifiers activated by sticky taps among the events, in order. Each activation comes with one
virtual press of the same modifiers (`C31_tapped`). -/
def activated : List (Event Ev) → List Byte
  | [] => []
  | .key _ (.activateModifiers m) :: es => m :: activated es
  | _ :: es => activated es

/-- The virtual releases of the modifiers `ms`. -/
def releases (ms : List Byte) : KeyEvents Ev := ms.map fun m => SchEv.imm (.input (.vrelease (KeyOutput.fromKeyModifiers m)))

/-- No sticky tap comes while four modifiers are active. -/
def Room (c : Ctx) : List (Event Ev) → Prop
  | [] => True
  | e :: es => ((∃ i m, e = .key i (.activateModifiers m)) → c.active.length < 4) ∧
      ∀ c' out, c.handleEvent e = .ok (c', out) → Room c' es

theorem releaseAll_eq (ms : List Byte) (es : KeyEvents Ev) (h : es.length + ms.length ≤ 4) : releaseAll es ms = .ok (es ++ releases ms) := by
  induction ms generalizing es with
  | nil => simp [releaseAll, releases]
  | cons m ms ih =>
    simp only [List.length_cons] at h
    have hp : KeyEvents.push es (SchEv.imm (.input (.vrelease (KeyOutput.fromKeyModifiers m)))) =
        .ok (es ++ [SchEv.imm (.input (.vrelease (KeyOutput.fromKeyModifiers m)))]) := by
      unfold KeyEvents.push
      rw [pushCap_eq_ok]
      exact ⟨by unfold maxKeyEvents; omega, rfl⟩
    simp only [releaseAll, hp, Res.ok_bind]
    rw [ih _ (by simp; omega)]
    simp [releases]

/-- One event, with at most four active modifiers: no panic, and what is emitted are the releases of all
active modifiers, or nothing. -/
theorem handleEvent_spec (c : Ctx) (h4 : c.active.length ≤ 4) (e : Event Ev) :
    ∃ c' out, c.handleEvent e = .ok (c', out) ∧ c'.active.length ≤ 4 ∧ c'.release = c.release ∧
      ((out = releases c.active ∧ c'.active = [] ∧ c'.pressedIdx = none ∧ activated [e] = [] ∧
          (e = .input (.release (c.pressedIdx.getD 0)) ∨ ∃ i, e = .input (.press i)) ∧ c.pressedIdx.isSome) ∨
       (out = [] ∧ c'.active = c.active ++ activated [e] ∧ activated [e] ≠ []) ∨
       (out = [] ∧ c'.active = c.active ∧ (activated [e] = [] ∨ c.active.length = 4))) := by
  rcases e with (k | k | k | k) | ⟨k, ⟨m⟩⟩ | (k | ⟨i, ko⟩)
  · by_cases hp : c.pressedIdx.isSome ∧ c.release = .onNextKeyPress
    · refine ⟨{ c with active := [], pressedIdx := none }, releases c.active, ?_, by simp, rfl, ?_⟩
      · simp only [Ctx.handleEvent]
        rw [if_pos hp, releaseAll_eq _ _ (by simpa using h4)]
        simp
      · exact Or.inl ⟨rfl, rfl, rfl, rfl, Or.inr ⟨k, rfl⟩, hp.1⟩
    · refine ⟨c, [], ?_, h4, rfl, Or.inr (Or.inr ⟨rfl, rfl, Or.inl rfl⟩)⟩
      simp only [Ctx.handleEvent]
      rw [if_neg hp]
  · by_cases hp : some k = c.pressedIdx ∧ c.active.length > 0
    · refine ⟨{ c with active := [], pressedIdx := none }, releases c.active, ?_, by simp, rfl, ?_⟩
      · simp only [Ctx.handleEvent]
        rw [if_pos hp, releaseAll_eq _ _ (by simpa using h4)]
        simp
      · exact Or.inl ⟨rfl, rfl, rfl, rfl, Or.inl (by rw [← hp.1]; rfl), by rw [← hp.1]; rfl⟩
    · refine ⟨c, [], ?_, h4, rfl, Or.inr (Or.inr ⟨rfl, rfl, Or.inl rfl⟩)⟩
      simp only [Ctx.handleEvent]
      rw [if_neg hp]
  · exact ⟨c, [], rfl, h4, rfl, Or.inr (Or.inr ⟨rfl, rfl, Or.inl rfl⟩)⟩
  · exact ⟨c, [], rfl, h4, rfl, Or.inr (Or.inr ⟨rfl, rfl, Or.inl rfl⟩)⟩
  · by_cases hl : c.active.length < maxStickyModifiers
    · refine ⟨{ c with active := c.active ++ [m] }, [], ?_, ?_, rfl, Or.inr (Or.inl ⟨rfl, rfl, by simp [activated]⟩)⟩
      · simp only [Ctx.handleEvent]; rw [if_pos hl]
      · unfold maxStickyModifiers at hl; simp; omega
    · refine ⟨c, [], ?_, h4, rfl, Or.inr (Or.inr ⟨rfl, rfl, Or.inr ?_⟩)⟩
      · simp only [Ctx.handleEvent]; rw [if_neg hl]
      · unfold maxStickyModifiers at hl; omega
  · exact ⟨c, [], rfl, h4, rfl, Or.inr (Or.inr ⟨rfl, rfl, Or.inl rfl⟩)⟩
  · by_cases hl : c.active.length > 0
    · refine ⟨{ c with pressedIdx := some i }, [], ?_, h4, rfl, Or.inr (Or.inr ⟨rfl, rfl, Or.inl rfl⟩)⟩
      simp only [Ctx.handleEvent]; rw [if_pos hl]
    · refine ⟨c, [], ?_, h4, rfl, Or.inr (Or.inr ⟨rfl, rfl, Or.inl rfl⟩)⟩
      simp only [Ctx.handleEvent]; rw [if_neg hl]

theorem activated_cons (e : Event Ev) (es : List (Event Ev)) : activated (e :: es) = activated [e] ++ activated es := by
  rcases e with _ | ⟨k, ⟨m⟩⟩ | _ <;> simp [activated]

/-- C30: the context never panics, whatever events it gets. -/
theorem C30_total (c : Ctx) (h4 : c.active.length ≤ 4) (evs : List (Event Ev)) :
    ∃ c' out, feed c evs = .ok (c', out) ∧ c'.active.length ≤ 4 := by
  induction evs generalizing c with
  | nil => exact ⟨c, [], rfl, h4⟩
  | cons e es ih =>
    obtain ⟨c1, out, h1, h2, _, _⟩ := handleEvent_spec c h4 e
    obtain ⟨c2, out2, h3, h5⟩ := ih c1 h2
    exact ⟨c2, out ++ out2, by simp [feed, h1, h3], h5⟩

/-- C30: as long as at most four sticky modifiers are active at a time, the virtual releases emitted so
far, followed by the modifiers still active, are exactly the modifiers activated, in order: each is
released once, and none is forgotten. -/
theorem C30_balance_partial (c : Ctx) (h0 : c.active = []) (evs : List (Event Ev)) (hroom : Room c evs)
    {c' : Ctx} {out : KeyEvents Ev} (h : feed c evs = .ok (c', out)) :
    ∃ rel, out = releases rel ∧ activated evs = rel ++ c'.active := by
  have key : ∀ (evs : List (Event Ev)) (c : Ctx), c.active.length ≤ 4 → Room c evs → ∀ c' out, feed c evs = .ok (c', out) →
      ∃ rel, out = releases rel ∧ c.active ++ activated evs = rel ++ c'.active := by
    intro evs
    induction evs with
    | nil =>
      intro c _ _ c' out h
      simp only [feed, Res.ok.injEq, Prod.mk.injEq] at h
      obtain ⟨rfl, rfl⟩ := h
      exact ⟨[], rfl, by simp [activated]⟩
    | cons e es ih =>
      intro c h4 hr c' out h
      obtain ⟨c1, o1, h1, h2, _, hcase⟩ := handleEvent_spec c h4 e
      simp only [feed, h1, Res.ok_bind, Res.bind_eq_ok, Res.pure_eq, Res.ok.injEq, Prod.mk.injEq] at h
      obtain ⟨⟨c2, o2⟩, h3, rfl, rfl⟩ := h
      obtain ⟨rel, hrel, hact⟩ := ih c1 h2 (hr.2 _ _ h1) _ _ h3
      rw [activated_cons]
      rcases hcase with ⟨rfl, ha, _, he, _⟩ | ⟨rfl, ha, _⟩ | ⟨rfl, ha, hfull⟩
      · refine ⟨c.active ++ rel, by rw [hrel]; simp [releases], ?_⟩
        rw [ha] at hact
        rw [he]
        simp only [List.nil_append] at hact ⊢
        rw [hact, List.append_assoc]
      · refine ⟨rel, by rw [hrel]; simp, ?_⟩
        rw [ha] at hact
        rw [← List.append_assoc, hact]
      · refine ⟨rel, by rw [hrel]; simp, ?_⟩
        have he : activated [e] = [] := by
          rcases hfull with he | h4'
          · exact he
          · rcases e with _ | ⟨k, ⟨m⟩⟩ | _
            · rfl
            · have := hr.1 ⟨k, m, rfl⟩; omega
            · rfl
        rw [ha] at hact
        rw [he]
        simpa using hact
  have := key evs c (by rw [h0]; simp) hroom c' out h
  rw [h0] at this
  simpa using this

/-- C30: the modifiers stay pressed until the key they modify (the key resolved last) is released — or, if
so configured, until the next key press — and all are released then. -/
theorem C30_when (c : Ctx) (h4 : c.active.length ≤ 4) (hact : c.active ≠ []) (k : Nat) (hp : c.pressedIdx = some k)
    (evs : List (Event Ev)) (hr : .input (.release k) ∉ evs)
    (hn : c.release = .onNextKeyPress → ∀ i, .input (.press i) ∉ evs)
    (hres : ¬ Interrupted evs) (hno : ∀ i m, .key i (.activateModifiers m) ∉ evs)
    (e : Event Ev) (he : e = .input (.release k) ∨ (c.release = .onNextKeyPress ∧ ∃ i, e = .input (.press i))) :
    feed c evs = .ok (c, []) ∧
    feed c (evs ++ [e]) = .ok ({ c with active := [], pressedIdx := none }, releases c.active) := by
  have f1 : feed c evs = .ok (c, []) := by
    induction evs with
    | nil => rfl
    | cons x xs ih =>
      have hx : c.handleEvent x = .ok (c, []) := by
        rcases x with (j | j | j | j) | ⟨j, ⟨m⟩⟩ | (j | ⟨i, ko⟩)
        · simp only [Ctx.handleEvent]
          rw [if_neg]
          rintro ⟨_, h⟩
          exact hn h j List.mem_cons_self
        · simp only [Ctx.handleEvent]
          rw [if_neg]
          rintro ⟨h, _⟩
          rw [hp] at h
          cases h
          exact hr List.mem_cons_self
        · rfl
        · rfl
        · exact absurd List.mem_cons_self (hno j m)
        · rfl
        · exact absurd ⟨i, ko, List.mem_cons_self⟩ hres
      have := ih (fun h => hr (List.mem_cons_of_mem _ h)) (fun h i hm => hn h i (List.mem_cons_of_mem _ hm))
        (fun ⟨i, ko, hm⟩ => hres ⟨i, ko, List.mem_cons_of_mem _ hm⟩) (fun i m hm => hno i m (List.mem_cons_of_mem _ hm))
      simp [feed, hx, this]
  refine ⟨f1, ?_⟩
  have step : c.handleEvent e = .ok ({ c with active := [], pressedIdx := none }, releases c.active) := by
    have hpos : c.active.length > 0 := by
      cases h : c.active with
      | nil => exact absurd h hact
      | cons _ _ => simp
    rcases he with rfl | ⟨hc, i, rfl⟩
    · simp only [Ctx.handleEvent]
      rw [if_pos ⟨hp.symm, hpos⟩, releaseAll_eq _ _ (by simpa using h4)]
      simp
    · simp only [Ctx.handleEvent]
      rw [if_pos ⟨by rw [hp]; rfl, hc⟩, releaseAll_eq _ _ (by simpa using h4)]
      simp
  have gen : ∀ (xs : List (Event Ev)) (c1 c2 : Ctx) (o : KeyEvents Ev), feed c1 xs = .ok (c2, o) →
      feed c1 (xs ++ [e]) = (feed c2 [e] >>= fun r => .ok (r.1, o ++ r.2)) := by
    intro xs
    induction xs with
    | nil =>
      intro c1 c2 o h
      simp only [feed, Res.ok.injEq, Prod.mk.injEq] at h
      obtain ⟨rfl, rfl⟩ := h
      simp only [List.nil_append]
      cases feed c1 [e] <;> rfl
    | cons x xs ih =>
      intro c1 c2 o h
      simp only [feed, Res.bind_eq_ok, Res.pure_eq, Res.ok.injEq, Prod.mk.injEq] at h
      obtain ⟨⟨c3, o3⟩, h1, ⟨c4, o4⟩, h2, rfl, rfl⟩ := h
      have := ih c3 c4 o4 h2
      simp only [List.cons_append, feed, h1, Res.ok_bind] at this ⊢
      rw [this]
      cases hce : c4.handleEvent e <;> simp
  rw [gen _ _ _ _ f1]
  simp [feed, step]

/-! ## Examples and counterexamples -/

/-- Two sticky taps, then key 7 is pressed and released. -/
example : feed (Ctx.fromConfig .onModifiedKeyRelease)
    [.key 1 (.activateModifiers 2), .key 2 (.activateModifiers 1), .input (.press 7), .keymap (.resolved 7 (KeyOutput.fromKeyCode 4)), .input (.release 7)] =
      .ok (Ctx.fromConfig .onModifiedKeyRelease, releases [2, 1]) := by decide

namespace Demo
open Comp

/-- Five sticky modifier keys, then the keys A and B. -/
def K : Keys where
  sticky := [0x01, 0x02, 0x04, 0x08, 0x10]

/-- The keymap. -/
def C : Cfg Ref Comp.Ev Comp.Ctx PKS KS :=
  ⟨system K, [.sticky 0, .sticky 1, .sticky 2, .sticky 3, .sticky 4, .keyboard (.keyCode 4), .keyboard (.keyCode 5)], Search.std⟩

/-- The pressed outputs after some calls. -/
def out (ops : List Op) : Res (List KeyOutput) := run C 9 (KM.new Ex.ctx) ops >>= fun km => km.pressedKeys C

/-- A tap of a key. -/
def tap (i : Nat) : List Op := [.input (.press i), .tick, .input (.release i), .tick]

end Demo

/-- C30, end to end, for four sticky modifiers: they modify the next key and are gone after it. -/
example : Demo.out (Demo.tap 0 ++ Demo.tap 1 ++ Demo.tap 2 ++ Demo.tap 3 ++ [.input (.press 5)]) =
      .ok [⟨.keyboard 0, 1⟩, ⟨.keyboard 0, 2⟩, ⟨.keyboard 0, 4⟩, ⟨.keyboard 0, 8⟩, KeyOutput.fromKeyCode 4] ∧
    Demo.out (Demo.tap 0 ++ Demo.tap 1 ++ Demo.tap 2 ++ Demo.tap 3 ++ Demo.tap 5) = .ok [] := by decide +kernel

/-- C30, full claim, is false: the fifth sticky modifier stays pressed forever; no key is down. -/
theorem C30_fifth_refuted :
    Demo.out (Demo.tap 0 ++ Demo.tap 1 ++ Demo.tap 2 ++ Demo.tap 3 ++ Demo.tap 4 ++ Demo.tap 5) = .ok [⟨.keyboard 0, 0x10⟩] := by
  decide +kernel

/-- C30, full claim, is false for rolled keys: when B is pressed before A is released, the modifier tapped
for A is still pressed after A is released. -/
theorem C30_roll_refuted :
    Demo.out (Demo.tap 1 ++ [.input (.press 5), .tick, .input (.press 6), .tick, .input (.release 5), .tick]) =
      .ok [⟨.keyboard 0, 2⟩, KeyOutput.fromKeyCode 5] := by decide +kernel

/-- C31, end to end: a sticky key held while A is pressed and released leaves nothing behind. -/
example : Demo.out ([.input (.press 1), .tick] ++ [.input (.press 5), .tick]) = .ok [⟨.keyboard 0, 2⟩, KeyOutput.fromKeyCode 4] ∧
    Demo.out ([.input (.press 1), .tick] ++ Demo.tap 5 ++ [.input (.release 1), .tick]) = .ok [] := by decide +kernel

end Verif.Sticky
