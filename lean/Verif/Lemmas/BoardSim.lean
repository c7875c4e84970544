import Verif.Lemmas.Board

/-!
# One input event on the keymap and on the board
-/

namespace Verif.Chorded

theorem pressedFrom_none (chords : List Chord) (i : Nat) {bs : List Bool} (h : ∀ b ∈ bs, b = false) : pressedFrom chords i bs = .ok [] := by
  induction bs generalizing i with
  | nil => rfl
  | cons b bs ih =>
    have := h b (by simp)
    subst this
    exact ih (i + 1) (fun b hb => h b (by simp [hb]))

theorem clearChords_none (idx : Nat) (chs : List Chord) {bs : List Bool} (h : ∀ b ∈ bs, b = false) : ∀ b ∈ clearChords idx chs bs, b = false := by
  induction chs generalizing bs with
  | nil => cases bs <;> exact h
  | cons ch chs ih =>
    cases bs with
    | nil => exact h
    | cons b bs =>
      intro x hx
      simp only [clearChords, List.mem_cons] at hx
      rcases hx with rfl | hx
      · split
        · rfl
        · exact h b (by simp)
      · exact ih (fun b hb => h b (by simp [hb])) x hx

/-- No chord is pressed, and the array holds the indices of the held keys. -/
structure Idle (c : Ctx) (is : List Nat) : Prop where
  chords : ∀ b ∈ c.pressedChords, b = false
  latest : c.latest = none
  idx : IdxOk c.pressedIndices is

theorem span_none {c : Ctx} (h : ∀ b ∈ c.pressedChords, b = false) : c.span = .ok [] := by
  unfold Ctx.span Ctx.pressed
  rw [pressedFrom_none _ _ h]
  rfl

theorem Idle.after_press {c : Ctx} {i : Nat} (hl : c.latest = none) {c1 : Ctx} (h1 : c.pressIndex i = .ok c1)
    (hb : ∀ b ∈ c1.pressedChords, b = false) (hl1 : c1.latest = none) :
    c.handleEvent (.input (.press i)) = .ok { c1 with ignoreIdle := false, latest := none } := by
  simp only [Ctx.handleEvent, h1, Res.ok_bind, span_none hb, List.contains_nil, Bool.false_eq_true, if_false, hl1, Res.pure_eq]

theorem Idle.press {c : Ctx} {is : List Nat} {i : Nat} (h : Idle c is) (hn : i ∉ is) (hi : i < 65535) (hl : is.length < 16) :
    ∃ c', c.handleEvent (.input (.press i)) = .ok c' ∧ Idle c' (is ++ [i]) := by
  obtain ⟨hf, xs, hx, ho⟩ := h.idx.press hn hi hl
  have h1 : c.pressIndex i = .ok { c with pressedIndices := xs } := by
    simp only [Ctx.pressIndex, hf, Bool.false_eq_true, if_false, hx, Res.ok_bind, Res.pure_eq]
  exact ⟨_, Idle.after_press h.latest h1 h.chords h.latest, h.chords, rfl, ho⟩

theorem Idle.press_held {c : Ctx} {is : List Nat} {i : Nat} (h : Idle c is) (hm : i ∈ is) :
    ∃ c', c.handleEvent (.input (.press i)) = .ok c' ∧ Idle c' is := by
  have h1 : c.pressIndex i = .ok c := by
    rcases h.idx.found hm with hf | hf
    · simp only [Ctx.pressIndex, hf, if_true]
    · have : isFound i c.pressedIndices = false := by rw [hf]; simp [isFound, findPos]
      have hi : insertPressed (findPos i c.pressedIndices) i c.pressedIndices = .ok c.pressedIndices := by rw [hf]; rfl
      simp only [Ctx.pressIndex, this, Bool.false_eq_true, if_false, hi, Res.ok_bind, Res.pure_eq]
  exact ⟨_, Idle.after_press h.latest h1 h.chords h.latest, h.chords, rfl, h.idx⟩

theorem Idle.release {c : Ctx} {is : List Nat} {i : Nat} (h : Idle c is) (hnd : is.Nodup) :
    ∃ c', c.handleEvent (.input (.release i)) = .ok c' ∧ Idle c' (is.filter (fun j => j != i)) := by
  refine ⟨_, rfl, ?_, ?_, ?_⟩
  · apply clearChords_none
    unfold Ctx.releaseIndex
    split <;> exact h.chords
  · unfold Ctx.releaseIndex
    split <;> exact h.latest
  · have := h.idx.release (idx := i) hnd
    simp only [Ctx.releaseIndex]
    split
    · rename_i hf; rw [if_pos hf] at this; exact this
    · rename_i hf; rw [if_neg hf] at this; exact this

theorem Idle.setIdle {c : Ctx} {is : List Nat} (h : Idle c is) (t : Nat) : Idle (c.setIdle t) is := ⟨h.chords, h.latest, h.idx⟩

end Verif.Chorded

namespace Verif.Comp

open Board

abbrev CKM := KM Ref Ev Ctx PKS KS

/-- The keymap is between two events, in the state of the board; the chord bookkeeping satisfies `J`. -/
structure SimWith (K : Keys) (count : Nat) (J : Chorded.Ctx → Prop) (km : CKM) (s : State) : Prop where
  pend : km.pend = none
  pending : km.sched.pending = []
  held : km.pressed.map (decode K) = s.held.map some
  nodup : (s.held.map Prod.fst).Nodup
  len : s.held.length ≤ 16
  active : km.ctx.sticky.active = []
  pressedIdx : km.ctx.sticky.pressedIdx = none
  caps : km.ctx.capsWord.active = false
  layers : km.ctx.layered.layers = s.on.map Layered.act
  dflt : km.ctx.layered.defaultLayer = s.dflt
  layerCount : s.on.length = count
  dfltOk : ∀ d, s.dflt = some d → 0 < d ∧ d ≤ count
  fits : ∀ p ∈ s.held, p.2.Fits count
  idle : J km.ctx.chorded

/-- The keymap is between two events, in the state of the board; no chord is pressed. -/
abbrev Sim (K : Keys) (count : Nat) (km : CKM) (s : State) : Prop :=
  SimWith K count (fun c => Chorded.Idle c (s.held.map Prod.fst)) km s

theorem SimWith.quiet {K : Keys} {n : Nat} {J : Chorded.Ctx → Prop} {km : CKM} {s : State} (h : SimWith K n J km s) : Quiet km.ctx :=
  ⟨h.active, h.pressedIdx, h.caps, Layered.act_noSticky h.layers⟩

theorem decode_eq {K : Keys} {p : PressedInput Ref KS} {i : Nat} {c : Cell} (h : decode K p = some (i, c)) :
    ∃ r, p = .key i r (ksOf r) ∧ heldAs K r = some c := by
  cases p with
  | virt ko => simp [decode] at h
  | key j r ks =>
    simp only [decode] at h
    split at h
    · rename_i hk
      subst hk
      simp only [Option.map_eq_some_iff, Prod.mk.injEq] at h
      obtain ⟨c', hc, rfl, rfl⟩ := h
      exact ⟨r, rfl, hc⟩
    · cases h

theorem decode_heldAs {K : Keys} {i : Nat} {r : Ref} {c : Cell} (h : heldAs K r = some c) : decode K (.key i r (ksOf r)) = some (i, c) := by
  simp [decode, h]

theorem decode_key {K : Keys} {i : Nat} {r : Ref} {c : Cell} (h : cellOf K r = some c) : decode K (.key i r (ksOf r)) = some (i, c) :=
  decode_heldAs (heldAs_cell h)

/-- The events of the pressed keys. -/
def answers (K : Keys) (ev : Event Ev) (i : Nat) (r : Ref) (_ : KS) : KeyEvents Ev :=
  match heldAs K r with
  | some c => answer i c ev
  | none => []

theorem updateState_pressed {K : Keys} {ps : List (PressedInput Ref KS)} {hs : List (Nat × Cell)} (h : ps.map (decode K) = hs.map some)
    (ctx : Ctx) (ev : Event Ev) (i : Nat) (r : Ref) (ks : KS) (hm : PressedInput.key i r ks ∈ ps) :
    updateState K ks r ctx i ev = .ok (ks, answers K ev i r ks) := by
  have : decode K (.key i r ks) ∈ hs.map some := by rw [← h]; exact List.mem_map_of_mem hm
  obtain ⟨⟨j, c⟩, _, hc⟩ := List.mem_map.1 this
  obtain ⟨r', hp, hr⟩ := decode_eq hc.symm
  cases hp
  rw [updateState_heldAs hr]
  simp only [answers, hr]

theorem answer_other {i : Nat} {c : Cell} {ev : Event Ev} (h : ∀ j, ev ≠ .input (.release j)) : answer i c ev = [] := by
  unfold answer
  split
  · rename_i j; exact absurd rfl (h j)
  · rfl

theorem updateState_quiet {K : Keys} {ps : List (PressedInput Ref KS)} {hs : List (Nat × Cell)} (h : ps.map (decode K) = hs.map some)
    (ctx : Ctx) (ev : Event Ev) (hev : ∀ j, ev ≠ .input (.release j)) (i : Nat) (r : Ref) (ks : KS) (hm : PressedInput.key i r ks ∈ ps) :
    updateState K ks r ctx i ev = .ok (ks, []) := by
  rw [updateState_pressed h ctx ev i r ks hm]
  unfold answers
  split
  · rw [answer_other hev]
  · rfl

theorem eventsOf_release {K : Keys} {ps : List (PressedInput Ref KS)} {hs : List (Nat × Cell)} (h : ps.map (decode K) = hs.map some)
    (hnd : (hs.map Prod.fst).Nodup) (j : Nat) :
    eventsOf (answers K (.input (.release j))) ps =
      match hs.find? (fun p => p.1 == j) with | some p => answer j p.2 (.input (.release j)) | none => [] := by
  induction hs generalizing ps with
  | nil =>
    simp only [List.map_nil, List.map_eq_nil_iff] at h
    subst h; rfl
  | cons x hs ih =>
    cases ps with
    | nil => simp at h
    | cons p ps =>
      simp only [List.map_cons, List.cons.injEq] at h
      obtain ⟨i, c⟩ := x
      obtain ⟨r, rfl, hr⟩ := decode_eq h.1
      simp only [List.map_cons, List.nodup_cons] at hnd
      have ih' := ih h.2 hnd.2
      have hcons : eventsOf (answers K (.input (.release j))) (.key i r (ksOf r) :: ps) =
          answer i c (.input (.release j)) ++ eventsOf (answers K (.input (.release j))) ps := by
        simp only [eventsOf, List.flatMap_cons, answers, hr]
      rw [hcons, ih', List.find?_cons]
      by_cases e : i = j
      · subst e
        have hnone : hs.find? (fun p => p.1 == i) = none := by
          rw [List.find?_eq_none]
          intro p hp
          simp only [beq_iff_eq]
          intro he
          exact hnd.1 (List.mem_map.2 ⟨p, hp, he⟩)
        simp only [hnone, beq_self_eq_true, List.append_nil]
      · have h0 : answer i c (.input (.release j)) = [] := by cases c <;> simp [answer, e]
        have h1 : (i == j) = false := by simpa using e
        simp only [h0, h1, List.nil_append]

theorem removeKey_held {K : Keys} {ps : List (PressedInput Ref KS)} {hs : List (Nat × Cell)} (h : ps.map (decode K) = hs.map some)
    (hnd : (hs.map Prod.fst).Nodup) (j : Nat) : (removeKey j ps).map (decode K) = (hs.filter (fun p => p.1 != j)).map some := by
  induction hs generalizing ps with
  | nil =>
    simp only [List.map_nil, List.map_eq_nil_iff] at h
    subst h; rfl
  | cons x hs ih =>
    cases ps with
    | nil => simp at h
    | cons p ps =>
      simp only [List.map_cons, List.cons.injEq] at h
      obtain ⟨i, c⟩ := x
      obtain ⟨r, rfl, hr⟩ := decode_eq h.1
      simp only [List.map_cons, List.nodup_cons] at hnd
      simp only [removeKey]
      by_cases e : i = j
      · subst e
        rw [if_pos rfl, h.2]
        simp only [List.filter_cons, bne_self_eq_false, Bool.false_eq_true, if_false]
        congr 1
        symm
        rw [List.filter_eq_self]
        intro p hp
        simp only [bne_iff_ne, ne_eq]
        intro he
        exact hnd.1 (List.mem_map.2 ⟨p, hp, he⟩)
      · rw [if_neg e]
        have h1 : (i != j) = true := by simpa using e
        simp only [List.map_cons, List.filter_cons, h1, if_true, decode_heldAs hr, ih h.2 hnd.2]

theorem hasPressed_held {K : Keys} {ps : List (PressedInput Ref KS)} {hs : List (Nat × Cell)} (h : ps.map (decode K) = hs.map some)
    (j : Nat) : hasPressed j ps = hs.any (fun p => p.1 == j) := by
  induction hs generalizing ps with
  | nil =>
    simp only [List.map_nil, List.map_eq_nil_iff] at h
    subst h; rfl
  | cons x hs ih =>
    cases ps with
    | nil => simp at h
    | cons p ps =>
      simp only [List.map_cons, List.cons.injEq] at h
      obtain ⟨i, c⟩ := x
      obtain ⟨r, rfl, hr⟩ := decode_eq h.1
      simp only [hasPressed, List.any_cons, ih h.2]
      by_cases e : i = j <;> simp [e]

theorem pressedOutputs_held {K : Keys} {ps : List (PressedInput Ref KS)} {hs : List (Nat × Cell)} (h : ps.map (decode K) = hs.map some) :
    pressedOutputs (system K) ps = .ok (hs.filterMap fun p => p.2.output) := by
  induction hs generalizing ps with
  | nil =>
    simp only [List.map_nil, List.map_eq_nil_iff] at h
    subst h; rfl
  | cons x hs ih =>
    cases ps with
    | nil => simp at h
    | cons p ps =>
      simp only [List.map_cons, List.cons.injEq] at h
      obtain ⟨i, c⟩ := x
      obtain ⟨r, rfl, hr⟩ := decode_eq h.1
      simp only [pressedOutputs, ih h.2]
      rw [show (system K).keyOutput r (ksOf r) = keyOutput K r (ksOf r) from rfl, keyOutput_heldAs hr]
      cases c <;> rfl

/-- The layer part of the context after an event, and the rest as before. -/
theorem layered_event {K : Keys} {refs : List Ref} {S : Search} {n m : Nat} {km : CKM} {hs : List (Nat × Cell)} {i : Nat} {e : Layered.Ev}
    {l : Layered.Ctx} (hp : km.pend = none) (hh : km.pressed.map (decode K) = hs.map some) (hq : km.sched.pending = [])
    (hl : km.ctx.layered.handleLayerEvent e = .ok l) :
    (drain (handleEvent ⟨system K, refs, S⟩ (n + 1)) (m + 2) { km with sched := { km.sched with pending := [some (.key i (.layered e))] } }) =
      .ok { km with ctx := { km.ctx with layered := l } } := by
  rw [drain_one (ev := .key i (.layered e)) (q := []) rfl]
  have hx := handleEvent_quiet (C := ⟨system K, refs, S⟩) (n := n) (km := { km with sched := { km.sched with pending := [] } })
    (ev := .key i (.layered e)) (ctx := { km.ctx with layered := l }) hp (by intro ie; simp)
    (fun j r ks hm => updateState_quiet hh km.ctx (.key i (.layered e)) (by intro j; simp) j r ks hm)
    (by show km.ctx.handleEvent _ = _; rw [ctx_layered, hl]; rfl)
  simp only at hx ⊢
  rw [hx]
  simp only [Res.ok_bind]
  rw [drain_empty (by rfl)]
  simp only [KM.fire]
  rw [← hq]

theorem callback_event {K : Keys} {refs : List Ref} {S : Search} {n m : Nat} {km : CKM} {hs : List (Nat × Cell)} {cb : Callback}
    (hp : km.pend = none) (hh : km.pressed.map (decode K) = hs.map some) (hq : km.sched.pending = []) :
    ∃ f, (drain (handleEvent ⟨system K, refs, S⟩ (n + 1)) (m + 2) { km with sched := { km.sched with pending := [some (.keymap (.callback cb))] } }) =
      .ok { km with fired := f } := by
  rw [drain_one (ev := .keymap (.callback cb)) (q := []) rfl]
  have hx := handleEvent_quiet (C := ⟨system K, refs, S⟩) (n := n) (km := { km with sched := { km.sched with pending := [] } })
    (ev := .keymap (.callback cb)) (ctx := km.ctx) hp (by intro ie; simp)
    (fun j r ks hm => updateState_quiet hh km.ctx (.keymap (.callback cb)) (by intro j; simp) j r ks hm) (ctx_callback km.ctx cb)
  simp only at hx ⊢
  rw [hx]
  simp only [Res.ok_bind]
  have hs' : ({ km.sched with pending := [] } : Sched Ev) = km.sched := by rw [← hq]
  cases hcb : lookupCallback cb km.callbacks with
  | none =>
    refine ⟨km.fired, ?_⟩
    simp only [KM.fire, hcb]
    rw [drain_empty (by rfl), hs']
  | some f =>
    refine ⟨km.fired ++ [(cb, f)], ?_⟩
    simp only [KM.fire, hcb]
    rw [drain_empty (by rfl), hs']

end Verif.Comp
