import Verif.Lemmas.VirtPress
import Verif.Lemmas.OneShotSim

/-!
# One input event on the keymap and on the keyboard with sticky layers
-/

namespace Verif.OneShot

theorem use_held (s : State) (i : Nat) : (s.use i).held = s.held := by
  unfold State.use State.turn; split; rfl; split <;> rfl

theorem used_held (s : State) (i : Nat) : (s.used i).held = s.held := by
  unfold State.used State.turn; split; rfl; split <;> rfl

theorem use_dflt (s : State) (i : Nat) : (s.use i).dflt = s.dflt := by
  unfold State.use State.turn; split; rfl; split <;> rfl

theorem used_dflt (s : State) (i : Nat) : (s.used i).dflt = s.dflt := by
  unfold State.used State.turn; split; rfl; split <;> rfl

theorem use_length (s : State) (i : Nat) : (s.use i).layers.length = s.layers.length := by
  unfold State.use State.turn; split; rfl; split <;> simp

theorem used_length (s : State) (i : Nat) : (s.used i).layers.length = s.layers.length := by
  unfold State.used State.turn; split; rfl; split <;> simp

theorem act_press_held (a : Act) (s : State) : (a.press s).held = s.held := by
  unfold Act.press State.turn; split <;> rfl

theorem act_release_held (a : Act) (s : State) : (a.release s).held = s.held := by
  unfold Act.release State.turn; split <;> rfl

theorem act_press_length (a : Act) (s : State) : (a.press s).layers.length = s.layers.length := by
  unfold Act.press State.turn; split <;> simp

theorem act_release_length (a : Act) (s : State) : (a.release s).layers.length = s.layers.length := by
  unfold Act.release State.turn; split <;> simp

theorem act_press_dflt {a : Act} {s : State} {n : Nat} (hf : a.Fits n) (h : ∀ d, s.dflt = some d → 0 < d ∧ d ≤ n) :
    ∀ d, (a.press s).dflt = some d → 0 < d ∧ d ≤ n := by
  unfold Act.press State.turn
  split <;> first | exact h | skip
  intro d hd
  simp only at hd
  split at hd
  · cases hd
  · cases hd; simp only [Act.Fits, Board.Cell.Fits] at hf; omega

theorem act_release_dflt {a : Act} {s : State} {n : Nat} (hf : a.Fits n) (h : ∀ d, s.dflt = some d → 0 < d ∧ d ≤ n) :
    ∀ d, (a.release s).dflt = some d → 0 < d ∧ d ≤ n := by
  unfold Act.release State.turn
  split <;> first | exact h | skip
  intro d hd
  simp only at hd
  split at hd
  · cases hd
  · cases hd; simp only [Act.Fits, Board.Cell.Fits] at hf; omega

theorem holdAll_with (s : State) (ps hs : List (Nat × Act)) : ({ s with held := hs }).holdAll ps = { s.holdAll ps with held := hs } := by
  induction ps generalizing s with
  | nil => rfl
  | cons p ps ih =>
    obtain ⟨i, a⟩ := p
    cases a with
    | cell c => exact ih s
    | oneShot l => exact ih (s.turn l .on)

theorem act_interrupt_fits {a : Act} {n : Nat} (h : a.Fits n) : a.interrupt.Fits n := by cases a <;> exact h

theorem map_fst_interrupt (ps : List (Nat × Act)) : (ps.map fun p => (p.1, p.2.interrupt)).map Prod.fst = ps.map Prod.fst := by
  rw [List.map_map]; rfl

theorem map_fst_filter (ps : List (Nat × Act)) (i : Nat) : (ps.filter (fun p => p.1 != i)).map Prod.fst = (ps.map Prod.fst).filter (fun j => j != i) := by
  rw [List.filter_map]; rfl

theorem oholds_iff {s : State} {i : Nat} : s.holds i = true ↔ i ∈ s.held.map Prod.fst := by
  simp [State.holds]

end Verif.OneShot

namespace Verif.Comp

open OneShot

variable {K : Keys} {refs : List Ref} {S : Search} {count : Nat} {is : List Nat}

/-- The context and the pressed inputs are those of the keyboard; `is` are the indices in the chord
bookkeeping. -/
structure ORel (K : Keys) (count : Nat) (ctx : Ctx) (ps : List (PressedInput Ref KS)) (s : State) (is : List Nat) : Prop where
  held : Stand K ps s.held
  nodup : (s.held.map Prod.fst).Nodup
  len : s.held.length ≤ 16
  active : ctx.sticky.active = []
  modified : ctx.sticky.pressedIdx = none
  caps : ctx.capsWord.active = false
  layers : Layered.LRel ctx.layered s
  layerCount : s.layers.length = count
  dfltOk : ∀ d, s.dflt = some d → 0 < d ∧ d ≤ count
  fits : ∀ p ∈ s.held, p.2.Fits count
  idle : Chorded.Idle ctx.chorded is

/-- The context when a key is pressed. -/
theorem ctx_press_o {c : Ctx} {ch : Chorded.Ctx} {l : Layered.Ctx} {i : Nat} (hs : c.sticky.pressedIdx = none)
    (hch : c.chorded.handleEvent (.input (.press i)) = .ok ch) (hl : c.layered.handleEvent (.input (.press i)) = .ok l) :
    c.handleEvent (.input (.press i)) = .ok ({ c with chorded := ch, layered := l }, []) := by
  unfold Ctx.handleEvent sub
  simp only [Event.tryInto, Automation.Ctx.handleEvent, CapsWord.Ctx.handleEvent, KeyEvents.mapEv, List.map_nil, KeyEvents.extend,
    Res.ok_bind, Res.pure_eq, hch, Res.map_ok, hl, Sticky.Ctx.handleEvent, hs]
  rfl

/-- The context when a key is released. -/
theorem ctx_release_o {c : Ctx} {ch : Chorded.Ctx} {l : Layered.Ctx} {i : Nat} (hs : c.sticky.pressedIdx = none)
    (hch : c.chorded.handleEvent (.input (.release i)) = .ok ch) (hl : c.layered.handleEvent (.input (.release i)) = .ok l) :
    c.handleEvent (.input (.release i)) = .ok ({ c with chorded := ch, layered := l }, []) := by
  unfold Ctx.handleEvent sub
  simp only [Event.tryInto, Automation.Ctx.handleEvent, CapsWord.Ctx.handleEvent, KeyEvents.mapEv, List.map_nil, KeyEvents.extend,
    Res.ok_bind, Res.pure_eq, hch, Res.map_ok, hl, Sticky.Ctx.handleEvent, hs]
  rfl

/-! ## The immediate events -/

theorem onceAnswer_nil {ev : Event Ev} (h : ∀ ie, ev ≠ .input ie) (xs : List (Nat × Act)) : xs.flatMap (onceAnswer ev) = [] := by
  rw [List.flatMap_eq_nil_iff]
  rintro ⟨i, a⟩ _
  cases a with
  | cell c => exact answer_other (fun j => h _)
  | oneShot l =>
    cases ev with
    | input ie => exact absurd rfl (h ie)
    | _ => rfl

theorem onceNext_id {ev : Event Ev} (h : ∀ j, ev ≠ .input (.press j)) (xs : List (Nat × Act)) : xs.map (onceNext ev) = xs := by
  have : onceNext ev = id := by
    funext x
    unfold onceNext
    split
    · rename_i j; exact absurd rfl (h j)
    · rfl
  rw [this, List.map_id]

/-- An event that only concerns the context. -/
theorem ORel.event {km : CKM} {s s' : State} {ev : Event Ev} {ctx : Ctx} {q : List (Option (Event Ev))} (h : ORel K count km.ctx km.pressed s is)
    (hp : km.pend = none) (hq : km.sched.pending = some ev :: q) (h1 : ∀ ie, ev ≠ .input ie) (hc : km.ctx.handleEvent ev = .ok (ctx, []))
    (hth : ctx.tapHold = km.ctx.tapHold) (hau : ctx.automation = km.ctx.automation)
    (hr : ∀ ps', Stand K ps' s.held → ORel K count ctx ps' s' is) :
    ∃ km1, Handles ⟨system K, refs, S⟩ 1 km km1 ∧ km1.sched.pending = q ∧ ORel K count km1.ctx km1.pressed s' is := by
  have hf : ∃ f, ({ km with sched := { km.sched with pending := q } } : CKM).fire ev = { km with fired := f, sched := { km.sched with pending := q } } := by
    unfold KM.fire
    split
    · split <;> exact ⟨_, rfl⟩
    · exact ⟨_, rfl⟩
  obtain ⟨f, hf⟩ := hf
  obtain ⟨ps1, n1, s1⟩ := Stand.notifyAll (refs := refs) (S := S) (km := { km with fired := f, sched := { km.sched with pending := q } }) h.held hc
    (sch := { km.sched with pending := q }) (by rw [onceAnswer_nil h1]; rfl)
  rw [onceNext_id (fun j => h1 _)] at s1
  refine ⟨_, ⟨⟨ctx, ps1, f, q, rfl, hth, hau⟩, ?_⟩, rfl, hr ps1 s1⟩
  intro d km' hd
  exact .other hq h1 hp (by rw [hf]; exact n1) hd

theorem ORel.layer {km : CKM} {s s' : State} {i : Nat} {e : Layered.Ev} {l : Layered.Ctx} {q : List (Option (Event Ev))}
    (h : ORel K count km.ctx km.pressed s is) (hp : km.pend = none) (hq : km.sched.pending = some (.key i (.layered e)) :: q)
    (hl : km.ctx.layered.handleLayerEvent e = .ok l) (h1 : Layered.LRel l s') (h2 : s'.held = s.held) (h3 : s'.layers.length = count)
    (h4 : ∀ d, s'.dflt = some d → 0 < d ∧ d ≤ count) :
    ∃ km1, Handles ⟨system K, refs, S⟩ 1 km km1 ∧ km1.sched.pending = q ∧ ORel K count km1.ctx km1.pressed s' is :=
  h.event (ctx := { km.ctx with layered := l }) hp hq (by simp) (by rw [ctx_layered, hl]; rfl) rfl rfl
    (fun ps' hps => { held := h2 ▸ hps, nodup := h2 ▸ h.nodup, len := h2 ▸ h.len, active := h.active, modified := h.modified, caps := h.caps,
                      layers := h1, layerCount := h3, dfltOk := h4, fits := h2 ▸ h.fits, idle := h.idle })

theorem ORel.callback {km : CKM} {s : State} {cb : Callback} {q : List (Option (Event Ev))} (h : ORel K count km.ctx km.pressed s is)
    (hp : km.pend = none) (hq : km.sched.pending = some (.keymap (.callback cb)) :: q) :
    ∃ km1, Handles ⟨system K, refs, S⟩ 1 km km1 ∧ km1.sched.pending = q ∧ ORel K count km1.ctx km1.pressed s is :=
  h.event (ctx := km.ctx) hp hq (by simp) (ctx_callback _ _) rfl rfl (fun ps' hps => { h with held := hps })

/-- The events of the held sticky layer keys when another key is pressed. -/
def heldEvents (ps : List (Nat × Act)) : List (Event Ev) :=
  ps.flatMap fun
    | (i, .oneShot l) => [.key i (.layered (.activated l))]
    | _ => []

theorem heldEvents_length (ps : List (Nat × Act)) : (heldEvents ps).length ≤ ps.length := by
  induction ps with
  | nil => simp [heldEvents]
  | cons p ps ih =>
    simp only [heldEvents] at ih
    obtain ⟨i, a⟩ := p
    cases a with
    | cell c => simp only [heldEvents, List.flatMap_cons, List.nil_append, List.length_cons]; omega
    | oneShot l => simp only [heldEvents, List.flatMap_cons, List.length_append, List.length_cons, List.length_nil]; omega

theorem flatMap_press (ps : List (Nat × Act)) (i : Nat) : ps.flatMap (onceAnswer (.input (.press i))) = (heldEvents ps).map SchEv.imm := by
  induction ps with
  | nil => rfl
  | cons p ps ih =>
    obtain ⟨j, a⟩ := p
    simp only [heldEvents] at ih
    cases a with
    | cell c =>
      have hn : onceAnswer (.input (.press i)) (j, .cell c) = [] := answer_other (i := j) (c := c) (ev := .input (.press i)) (by simp)
      rw [List.flatMap_cons, ih, hn]
      rfl
    | oneShot l => rw [List.flatMap_cons, ih]; rfl

theorem ORel.holdAll (ps : List (Nat × Act)) {km : CKM} {s : State} {q : List (Option (Event Ev))} (h : ORel K count km.ctx km.pressed s is)
    (hp : km.pend = none) (hq : km.sched.pending = (heldEvents ps).map some ++ q) (hf : ∀ p ∈ ps, p.2.Fits count) :
    ∃ km1, Handles ⟨system K, refs, S⟩ (heldEvents ps).length km km1 ∧ km1.sched.pending = q ∧
      ORel K count km1.ctx km1.pressed (s.holdAll ps) is := by
  induction ps generalizing km s with
  | nil => exact ⟨km, .refl _ km, hq, h⟩
  | cons p ps ih =>
    obtain ⟨i, a⟩ := p
    have hf' : ∀ p ∈ ps, p.2.Fits count := fun p hp => hf p (List.mem_cons_of_mem _ hp)
    cases a with
    | cell c => exact ih h hp hq hf'
    | oneShot l =>
      have hfl : 0 < l ∧ l ≤ count := hf (i, .oneShot l) List.mem_cons_self
      obtain ⟨c', hc1, hc2⟩ := h.layers.activated hfl.1 (by rw [h.layerCount]; exact hfl.2)
      obtain ⟨km1, a1, a2, a3⟩ := h.layer (refs := refs) (S := S) (i := i) (q := (heldEvents ps).map some ++ q) hp hq hc1 hc2 rfl
        (by simp only [State.turn, List.length_set]; exact h.layerCount) h.dfltOk
      obtain ⟨km2, b1, b2, b3⟩ := ih a3 (by rw [a1.1.pend]; exact hp) a2 hf'
      refine ⟨km2, ?_, b2, b3⟩
      have := a1.trans b1
      rw [Nat.add_comm] at this
      exact this

/-! ## Release -/

/-- The keymap takes an event as the keyboard does. -/
def OTakes (K : Keys) (count : Nat) (km : CKM) (s' : State) (x : Res CKM) : Prop :=
  ∃ km', x = .ok km' ∧ Frame km km' ∧ km'.sched.pending = [] ∧ ORel K count km'.ctx km'.pressed s' (s'.held.map Prod.fst)

/-- The events a released key emits. -/
def onceReleased (i : Nat) : Act → List (Event Ev)
  | .cell (.hold l) => [.key i (.layered (.deactivated l))]
  | .cell (.default l) => [.key i (.layered (.setDefault l))]
  | _ => []

theorem onceAnswer_own (i : Nat) (a : Act) : onceAnswer (.input (.release i)) (i, a) = (onceReleased i a).map SchEv.imm := by
  cases a with
  | cell c => cases c <;> simp [onceAnswer, answer, onceReleased]
  | oneShot l => rfl

theorem onceAnswer_foreign {x : Nat × Act} {i : Nat} (h : x.1 ≠ i) : onceAnswer (.input (.release i)) x = [] := by
  obtain ⟨j, a⟩ := x
  simp only at h
  cases a with
  | cell c => cases c <;> simp [onceAnswer, answer, h]
  | oneShot l => rfl

theorem flatMap_release_o (xs : List (Nat × Act)) (hnd : (xs.map Prod.fst).Nodup) (i : Nat) :
    xs.flatMap (onceAnswer (.input (.release i))) =
      (match xs.find? (fun x : Nat × Act => x.1 == i) with | some x => onceReleased i x.2 | none => []).map SchEv.imm := by
  induction xs with
  | nil => rfl
  | cons x xs ih =>
    simp only [List.map_cons, List.nodup_cons] at hnd
    simp only [List.flatMap_cons, List.find?_cons]
    by_cases h : x.1 = i
    · have h' : (x.1 == i) = true := by simpa using h
      simp only [h']
      obtain ⟨j, a⟩ := x
      simp only at h
      subst h
      rw [onceAnswer_own]
      have hrest : xs.flatMap (onceAnswer (.input (.release j))) = [] := by
        rw [List.flatMap_eq_nil_iff]
        intro y hy
        apply onceAnswer_foreign
        intro hy'
        exact hnd.1 (List.mem_map.2 ⟨y, hy, hy'⟩)
      rw [hrest, List.append_nil]
    · have h' : (x.1 == i) = false := by simpa using h
      simp only [h']
      rw [onceAnswer_foreign h, List.nil_append]
      exact ih hnd.2

theorem oprocess_release {n : Nat} {km : CKM} {s : State} (h : ORel K count km.ctx km.pressed s (s.held.map Prod.fst))
    (hp : km.pend = none) (hq : km.sched.pending = []) (i : Nat) :
    OTakes K count km (s.release i) (processInputN ⟨system K, refs, S⟩ (n + 2) km (.release i)) := by
  obtain ⟨ch, hch, hidle⟩ := h.idle.release (i := i) h.nodup
  obtain ⟨l1, hl1, hl2⟩ := h.layers.used i
  have hctx := ctx_release_o h.modified hch hl1
  obtain ⟨E, hE⟩ : ∃ E : List (Event Ev), E = (match s.held.find? (fun x : Nat × Act => x.1 == i) with | some x => onceReleased i x.2 | none => []) := ⟨_, rfl⟩
  have hE1 : E.length ≤ 1 := by
    rw [hE]
    split
    · unfold onceReleased
      split <;> simp
    · simp
  have hsch := scheduleAll_imms S km.sched E (by rw [hq]; simp; omega)
  rw [hq, List.nil_append] at hsch
  obtain ⟨ps1, n1, s1⟩ := h.held.notifyAll (refs := refs) (S := S) hctx (sch := { km.sched with pending := E.map some }) (by rw [flatMap_release_o _ h.nodup, ← hE, List.append_nil]; exact hsch)
  rw [onceNext_id (by simp)] at s1
  obtain ⟨km0, hkm0⟩ : ∃ km0 : CKM, km0 = { km with
        pressed := removeKey i ps1
        ctx := { km.ctx with chorded := ch, layered := l1 }
        sched := { km.sched with pending := E.map some } } := ⟨_, rfl⟩
  have hproc : processInputN ⟨system K, refs, S⟩ (n + 2) km (.release i) = drain (handleEvent ⟨system K, refs, S⟩ (n + 2)) (n + 2) km0 := by
    simp only [processInputN, processInput_none _ hp, processDirect, n1, Res.ok_bind, hkm0]
    rfl
  have hf0 : Frame km km0 := by rw [hkm0]; exact ⟨_, _, _, _, rfl, rfl, rfl⟩
  have hp0 : km0.pend = none := by rw [hkm0]; exact hp
  have hq0 : km0.sched.pending = E.map some := by rw [hkm0]
  obtain ⟨sr, hsr⟩ : ∃ sr : State, sr = { s.used i with held := s.held.filter (fun p => p.1 != i) } := ⟨_, rfl⟩
  have hr0 : ORel K count km0.ctx km0.pressed sr (sr.held.map Prod.fst) := by
    rw [hkm0, hsr]
    exact
      { held := s1.removeKey h.nodup i
        nodup := by rw [map_fst_filter]; exact h.nodup.filter _
        len := Nat.le_trans (List.length_filter_le _ _) h.len
        active := h.active
        modified := h.modified
        caps := h.caps
        layers := ⟨hl2.layers, hl2.user, hl2.dflt⟩
        layerCount := by show (s.used i).layers.length = _; rw [used_length]; exact h.layerCount
        dfltOk := by show ∀ d, (s.used i).dflt = some d → _; rw [used_dflt]; exact h.dfltOk
        fits := fun p hp => h.fits p (List.mem_filter.1 hp).1
        idle := by rw [map_fst_filter]; exact hidle }
  have nothing : ∀ s', E = [] → s' = sr → OTakes K count km s' (processInputN ⟨system K, refs, S⟩ (n + 2) km (.release i)) := by
    rintro s' rfl rfl
    refine ⟨km0, ?_, hf0, hq0, hr0⟩
    rw [hproc]
    exact (Drains.done hq0).sound.2 _ _ (by omega) (by omega)
  cases hfind : s.held.find? (fun x => x.1 == i) with
  | none =>
    rw [hfind] at hE
    refine nothing _ hE ?_
    have hni : ∀ p ∈ s.held, (p.1 != i) = true := by
      intro p hp
      have := List.find?_eq_none.1 hfind p hp
      simpa using this
    simp only [State.release, hfind, hsr, List.filter_eq_self.2 hni]
    rw [← used_held s i]
  | some x =>
    rw [hfind] at hE
    have hmem : x ∈ s.held := List.mem_of_find?_eq_some hfind
    have hrel : s.release i = x.2.release sr := by simp only [State.release, hfind, hsr]
    obtain ⟨j, a⟩ := x
    have hfit : a.Fits count := h.fits _ hmem
    have layer : ∀ e : Layered.Ev, E = [.key i (.layered e)] →
        ((∃ l, e = .deactivated l ∧ a = .cell (.hold l)) ∨ (∃ l, e = .setDefault l ∧ a = .cell (.default l))) →
        OTakes K count km (s.release i) (processInputN ⟨system K, refs, S⟩ (n + 2) km (.release i)) := by
      intro e hEe hcase
      obtain ⟨c', hc1, hc2⟩ := hr0.layers.release hcase (by rw [hr0.layerCount]; exact hfit)
      obtain ⟨km1, a1, a2, a3⟩ := hr0.layer (refs := refs) (S := S) (i := i) (q := []) hp0 (by rw [hq0, hEe]; rfl) hc1 hc2 (act_release_held _ _)
        (by rw [act_release_length]; exact hr0.layerCount) (act_release_dflt hfit hr0.dfltOk)
      refine ⟨km1, ?_, hf0.trans a1.1, a2, ?_⟩
      · rw [hproc]
        exact (a1.2 0 km1 (.done a2)).sound.2 _ _ (by omega) (by omega)
      · rw [hrel, act_release_held]
        exact a3
    cases a with
    | oneShot l => exact nothing _ hE hrel
    | cell c =>
      cases c with
      | hold l => exact layer _ hE (.inl ⟨l, rfl, rfl⟩)
      | default l => exact layer _ hE (.inr ⟨l, rfl, rfl⟩)
      | _ => exact nothing _ hE hrel

end Verif.Comp
