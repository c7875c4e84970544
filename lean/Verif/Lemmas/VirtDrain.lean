import Verif.Lemmas.VirtCtx

/-!
# Handling the immediate events, one after the other

An input event held by the firmware is handled by a nested call of `process_input`, which handles the
rest of the queue. `Drains` describes the same sequence of events without nesting.
-/

namespace Verif

section

variable {R Ev Ctx PKS KS : Type}

/-- The queue of immediate events is handled in `d` steps, without a waiting key. -/
inductive Drains (C : Cfg R Ev Ctx PKS KS) : Nat → KM R Ev Ctx PKS KS → KM R Ev Ctx PKS KS → Prop
  | done {km : KM R Ev Ctx PKS KS} (h : km.sched.pending = []) : Drains C 0 km km
  | other {km km1 km' : KM R Ev Ctx PKS KS} {ev : Event Ev} {q : List (Option (Event Ev))} {d : Nat} (h : km.sched.pending = some ev :: q)
    (hev : ∀ ie, ev ≠ .input ie) (hp : km.pend = none)
    (hn : notifyAll C ({ km with sched := { km.sched with pending := q } }.fire ev) ev = .ok km1) (hd : Drains C d km1 km') :
    Drains C (d + 1) km km'
  | vpress {km km1 km2 km' : KM R Ev Ctx PKS KS} {ko : KeyOutput} {q : List (Option (Event Ev))} {d : Nat}
    (h : km.sched.pending = some (.input (.vpress ko)) :: q) (hp : km.pend = none)
    (hn : notifyAll C { km with sched := { km.sched with pending := q } } (.input (.vpress ko)) = .ok km1) (hp1 : km1.pend = none)
    (hn2 : notifyAll C km1 (.input (.vpress ko)) = .ok km2) (hl : km2.pressed.length < 16)
    (hd : Drains C d { km2 with pressed := km2.pressed ++ [.virt ko] } km') : Drains C (d + 1) km km'
  | vrelease {km km1 km2 km' : KM R Ev Ctx PKS KS} {ko : KeyOutput} {q : List (Option (Event Ev))} {d : Nat}
    (h : km.sched.pending = some (.input (.vrelease ko)) :: q) (hp : km.pend = none)
    (hn : notifyAll C { km with sched := { km.sched with pending := q } } (.input (.vrelease ko)) = .ok km1) (hp1 : km1.pend = none)
    (hn2 : notifyAll C km1 (.input (.vrelease ko)) = .ok km2)
    (hd : Drains C d { km2 with pressed := removeVirt ko km2.pressed } km') : Drains C (d + 1) km km'

theorem updatePending_none {C : Cfg R Ev Ctx PKS KS} {he : Handler R Ev Ctx PKS KS} {n : Nat} {km : KM R Ev Ctx PKS KS} {ev : Event Ev}
    (h : km.pend = none) : updatePending C he n km ev = .ok km := by
  unfold updatePending
  rw [h]
  rfl

theorem Drains.sound {C : Cfg R Ev Ctx PKS KS} {d : Nat} {km km' : KM R Ev Ctx PKS KS} (h : Drains C d km km') :
    km'.sched.pending = [] ∧ ∀ n m, d < n → d < m → drain (handleEvent C n) m km = .ok km' := by
  induction h with
  | done h =>
    refine ⟨h, ?_⟩
    intro n m _ hm
    obtain ⟨m, rfl⟩ : ∃ k, m = k + 1 := ⟨m - 1, by omega⟩
    exact drain_empty h
  | @other km km1 km' ev q d h hev hp hn hd ih =>
    refine ⟨ih.1, ?_⟩
    intro n m hn' hm
    obtain ⟨m, rfl⟩ : ∃ k, m = k + 1 := ⟨m - 1, by omega⟩
    obtain ⟨n, rfl⟩ : ∃ k, n = k + 1 := ⟨n - 1, by omega⟩
    rw [drain_one h]
    have : handleEvent C (n + 1) { km with sched := { km.sched with pending := q } } ev = .ok km1 := by
      simp only [handleEvent, handleBody]
      have hp' : ({ km with sched := { km.sched with pending := q } }.fire ev).pend = none := by rw [fire_pend]; exact hp
      rw [updatePending_none hp']
      simp only [Res.ok_bind, hn]
      cases ev with
      | input ie => exact absurd rfl (hev ie)
      | _ => rfl
    rw [this]
    exact ih.2 (n + 1) m (by omega) (by omega)
  | @vpress km km1 km2 km' ko q d h hp hn hp1 hn2 hl hd ih =>
    refine ⟨ih.1, ?_⟩
    intro n m hn' hm
    obtain ⟨m, rfl⟩ : ∃ k, m = k + 1 := ⟨m - 1, by omega⟩
    obtain ⟨n, rfl⟩ : ∃ k, n = k + 1 := ⟨n - 1, by omega⟩
    rw [drain_one h]
    have : handleEvent C (n + 1) { km with sched := { km.sched with pending := q } } (.input (.vpress ko)) = .ok km' := by
      simp only [handleEvent, handleBody, KM.fire]
      rw [updatePending_none (km := { km with sched := { km.sched with pending := q } }) hp]
      simp only [Res.ok_bind, hn, processInput_none _ hp1, processDirect, hn2]
      have : pushCap maxPressedKeys km2.pressed (.virt ko) = .ok (km2.pressed ++ [.virt ko]) := by
        rw [pushCap_eq_ok]; exact ⟨hl, rfl⟩
      simp only [this, Res.ok_bind]
      exact ih.2 n n (by omega) (by omega)
    rw [this]
    simp only [Res.ok_bind]
    obtain ⟨m, rfl⟩ : ∃ k, m = k + 1 := ⟨m - 1, by omega⟩
    exact drain_empty ih.1
  | @vrelease km km1 km2 km' ko q d h hp hn hp1 hn2 hd ih =>
    refine ⟨ih.1, ?_⟩
    intro n m hn' hm
    obtain ⟨m, rfl⟩ : ∃ k, m = k + 1 := ⟨m - 1, by omega⟩
    obtain ⟨n, rfl⟩ : ∃ k, n = k + 1 := ⟨n - 1, by omega⟩
    rw [drain_one h]
    have : handleEvent C (n + 1) { km with sched := { km.sched with pending := q } } (.input (.vrelease ko)) = .ok km' := by
      simp only [handleEvent, handleBody, KM.fire]
      rw [updatePending_none (km := { km with sched := { km.sched with pending := q } }) hp]
      simp only [Res.ok_bind, hn, processInput_none _ hp1, processDirect, hn2]
      exact ih.2 n n (by omega) (by omega)
    rw [this]
    simp only [Res.ok_bind]
    obtain ⟨m, rfl⟩ : ∃ k, m = k + 1 := ⟨m - 1, by omega⟩
    exact drain_empty ih.1

end

end Verif

namespace Verif.Comp

open Virt

/-- Only the context, the pressed inputs, the callback trace and the queue of immediate events differ; of
the context, not the tap-hold and macro parts. -/
def Frame (km km' : CKM) : Prop :=
  ∃ ctx ps f q, km' = { km with ctx := ctx, pressed := ps, fired := f, sched := { km.sched with pending := q } } ∧
    ctx.tapHold = km.ctx.tapHold ∧ ctx.automation = km.ctx.automation

theorem Frame.refl (km : CKM) : Frame km km := ⟨km.ctx, km.pressed, km.fired, km.sched.pending, rfl, rfl, rfl⟩

theorem Frame.trans {a b c : CKM} (h : Frame a b) (h' : Frame b c) : Frame a c := by
  obtain ⟨ctx, ps, f, q, rfl, h1, h2⟩ := h
  obtain ⟨ctx', ps', f', q', rfl, h1', h2'⟩ := h'
  exact ⟨ctx', ps', f', q', rfl, h1'.trans h1, h2'.trans h2⟩

theorem Frame.pend {a b : CKM} (h : Frame a b) : b.pend = a.pend := by obtain ⟨_, _, _, _, rfl, _⟩ := h; rfl

/-- The context and the pressed inputs are those of the keyboard; `is` are the indices in the chord
bookkeeping. -/
structure VRel (K : Keys) (A : Automation.Config) (count : Nat) (mode : Mode) (ctx : Ctx) (ps : List (PressedInput Ref KS)) (s : State)
    (is : List Nat) : Prop where
  held : Slots K A ps s.held
  nodup : (s.held.filterMap Slot.index).Nodup
  len : s.held.length ≤ 16
  active : ctx.sticky.active = s.active
  modified : ctx.sticky.pressedIdx = s.modified
  mode : modeOf ctx.sticky.release = mode
  four : s.active.length ≤ 4
  caps : ctx.capsWord.active = s.caps
  layers : ctx.layered.layers = s.on.map Layered.act
  dflt : ctx.layered.defaultLayer = s.dflt
  layerCount : s.on.length = count
  dfltOk : ∀ d, s.dflt = some d → 0 < d ∧ d ≤ count
  fits : ∀ i c u, .key i (.cell c) u ∈ s.held → c.Fits count
  idle : Chorded.Idle ctx.chorded is

variable {K : Keys} {A : Automation.Config} {refs : List Ref} {S : Search} {count : Nat} {mode : Mode} {is : List Nat}

theorem VRel.noSticky {ctx : Ctx} {ps : List (PressedInput Ref KS)} {s : State} (h : VRel K A count mode ctx ps s is) :
    ctx.layered.stickyLayer = none := Layered.act_noSticky h.layers

theorem index_erase (l : List Slot) (ko : KeyOutput) : (l.erase (.virt ko)).filterMap Slot.index = l.filterMap Slot.index := by
  induction l with
  | nil => rfl
  | cons x l ih =>
    rw [List.erase_cons]
    split
    · rename_i h
      have : x = .virt ko := by simpa using h
      subst this
      rfl
    · simp only [List.filterMap_cons, ih]

theorem slotAnswer_nil {ev : Event Ev} (h1 : ∀ j, ev ≠ .input (.release j)) (h2 : ∀ j, ev ≠ .key j (.automation .executionFinished)) (e : Automation.Execution)
    (xs : List Slot) : xs.flatMap (slotAnswer e ev) = [] := by
  rw [List.flatMap_eq_nil_iff]
  intro x _
  cases x with
  | virt ko => rfl
  | key i a u =>
    cases a with
    | cell c => exact answer_other h1
    | sticky m =>
      cases u with
      | true => rfl
      | false =>
        simp only [slotAnswer]
    | capsWord => rfl
    | string kos =>
      simp only [slotAnswer]

theorem slotNext_id {ev : Event Ev} (h : ∀ i ko, ev ≠ .keymap (.resolved i ko)) (xs : List Slot) : xs.map (slotNext ev) = xs := by
  have : slotNext ev = id := by
    funext x
    unfold slotNext
    split
    · rename_i i ko; exact absurd rfl (h i ko)
    · rfl
  rw [this, List.map_id]

/-- An event the held things do not answer. -/
theorem VRel.notify {km : CKM} {s : State} (h : VRel K A count mode km.ctx km.pressed s is) {ev : Event Ev} {ctx : Ctx} {evs : List (Event Ev)}
    (h1 : ∀ j, ev ≠ .input (.release j)) (h2 : ∀ j, ev ≠ .key j (.automation .executionFinished)) (h3 : ∀ i ko, ev ≠ .keymap (.resolved i ko))
    (hc : km.ctx.handleEvent ev = .ok (ctx, evs.map SchEv.imm)) (hlen : km.sched.pending.length + evs.length ≤ 31) :
    ∃ ps', notifyAll ⟨system K, refs, S⟩ km ev =
        .ok { km with pressed := ps', ctx := ctx, sched := { km.sched with pending := km.sched.pending ++ evs.map some } } ∧
      Slots K A ps' s.held := by
  have hs := scheduleAll_imms S km.sched evs hlen
  obtain ⟨e, _, hn⟩ := h.held.notifyAll (refs := refs) (S := S) (ev := ev) (ctx := ctx) h.nodup hc
  obtain ⟨ps', h4, h5⟩ := hn { km.sched with pending := km.sched.pending ++ evs.map some } (by rw [slotAnswer_nil h1 h2]; exact hs)
  rw [slotNext_id h3] at h5
  exact ⟨ps', h4, h5⟩

/-- One immediate event is handled; the rest of the queue can be handled as before. -/
def Handles (C : Cfg Ref Ev Ctx PKS KS) (k : Nat) (km km1 : CKM) : Prop :=
  Frame km km1 ∧ ∀ d km', Drains C d km1 km' → Drains C (d + k) km km'

theorem Handles.refl (C : Cfg Ref Ev Ctx PKS KS) (km : CKM) : Handles C 0 km km := ⟨.refl km, fun _ _ h => h⟩

theorem Handles.trans {C : Cfg Ref Ev Ctx PKS KS} {k l : Nat} {a b c : CKM} (h : Handles C k a b) (h' : Handles C l b c) :
    Handles C (k + l) a c := by
  refine ⟨h.1.trans h'.1, ?_⟩
  intro d km' hd
  have := h.2 _ _ (h'.2 _ _ hd)
  rw [show d + (k + l) = d + l + k by omega]
  exact this

/-- The firmware releases an output it holds. -/
theorem VRel.vrelease {km : CKM} {s : State} {ko : KeyOutput} {q : List (Option (Event Ev))} (h : VRel K A count mode km.ctx km.pressed s is)
    (hp : km.pend = none) (hq : km.sched.pending = some (.input (.vrelease ko)) :: q) (hlen : q.length ≤ 30) :
    ∃ km1, Handles ⟨system K, refs, S⟩ 1 km km1 ∧ km1.sched.pending = q ∧
      VRel K A count mode km1.ctx km1.pressed { s with held := s.held.erase (.virt ko) } is := by
  obtain ⟨ps1, n1, s1⟩ := VRel.notify (refs := refs) (S := S) (km := { km with sched := { km.sched with pending := q } }) h
    (ev := .input (.vrelease ko)) (evs := []) (by simp) (by simp) (by simp) (ctx_virtual _ _ (by simp) (by simp)) (by simpa using Nat.le_succ_of_le hlen)
  simp only [List.map_nil, List.append_nil] at n1
  have h' : VRel K A count mode km.ctx ps1 s is := { h with held := s1 }
  obtain ⟨ps2, n2, s2⟩ := VRel.notify (refs := refs) (S := S) (km := { km with pressed := ps1, sched := { km.sched with pending := q } }) h'
    (ev := .input (.vrelease ko)) (evs := []) (by simp) (by simp) (by simp) (ctx_virtual _ _ (by simp) (by simp)) (by simpa using Nat.le_succ_of_le hlen)
  simp only [List.map_nil, List.append_nil] at n2
  refine ⟨{ km with pressed := removeVirt ko ps2, sched := { km.sched with pending := q } },
    ⟨⟨km.ctx, removeVirt ko ps2, km.fired, q, rfl, rfl, rfl⟩, ?_⟩, rfl, ?_⟩
  · intro d km' hd
    exact .vrelease hq hp n1 hp n2 hd
  · exact { h with
      held := s2.removeVirt ko
      nodup := by rw [index_erase]; exact h.nodup
      len := Nat.le_trans List.length_erase_le h.len
      fits := fun i c u hm => h.fits i c u (List.mem_of_mem_erase hm) }

/-- The firmware presses an output. -/
theorem VRel.vpress {km : CKM} {s : State} {ko : KeyOutput} {q : List (Option (Event Ev))} (h : VRel K A count mode km.ctx km.pressed s is)
    (hp : km.pend = none) (hq : km.sched.pending = some (.input (.vpress ko)) :: q) (hlen : q.length ≤ 30) (h16 : s.held.length < 16) :
    ∃ km1, Handles ⟨system K, refs, S⟩ 1 km km1 ∧ km1.sched.pending = q ∧
      VRel K A count mode km1.ctx km1.pressed { s with held := s.held ++ [.virt ko] } is := by
  obtain ⟨ps1, n1, s1⟩ := VRel.notify (refs := refs) (S := S) (km := { km with sched := { km.sched with pending := q } }) h
    (ev := .input (.vpress ko)) (evs := []) (by simp) (by simp) (by simp) (ctx_virtual _ _ (by simp) (by simp)) (by simpa using Nat.le_succ_of_le hlen)
  simp only [List.map_nil, List.append_nil] at n1
  have h' : VRel K A count mode km.ctx ps1 s is := { h with held := s1 }
  obtain ⟨ps2, n2, s2⟩ := VRel.notify (refs := refs) (S := S) (km := { km with pressed := ps1, sched := { km.sched with pending := q } }) h'
    (ev := .input (.vpress ko)) (evs := []) (by simp) (by simp) (by simp) (ctx_virtual _ _ (by simp) (by simp)) (by simpa using Nat.le_succ_of_le hlen)
  simp only [List.map_nil, List.append_nil] at n2
  refine ⟨{ km with pressed := ps2 ++ [.virt ko], sched := { km.sched with pending := q } },
    ⟨⟨km.ctx, ps2 ++ [.virt ko], km.fired, q, rfl, rfl, rfl⟩, ?_⟩, rfl, ?_⟩
  · intro d km' hd
    exact .vpress hq hp n1 hp n2 (by rw [s2.length]; exact h16) hd
  · exact { h with
      held := s2.snoc (.virt ko)
      nodup := by rw [List.filterMap_append, show [Slot.virt ko].filterMap Slot.index = [] from rfl, List.append_nil]; exact h.nodup
      len := by simp only [List.length_append, List.length_cons, List.length_nil]; omega
      fits := fun i c u hm => h.fits i c u (by simpa using hm) }

/-- An event that only concerns the context. -/
theorem VRel.event {km : CKM} {s s' : State} {ev : Event Ev} {ctx : Ctx} {evs : List (Event Ev)} {q : List (Option (Event Ev))}
    (h : VRel K A count mode km.ctx km.pressed s is) (hp : km.pend = none) (hq : km.sched.pending = some ev :: q)
    (h1 : ∀ ie, ev ≠ .input ie) (h2 : ∀ j, ev ≠ .key j (.automation .executionFinished)) (h3 : ∀ i ko, ev ≠ .keymap (.resolved i ko))
    (hc : km.ctx.handleEvent ev = .ok (ctx, evs.map SchEv.imm)) (hlen : q.length + evs.length ≤ 31)
    (hth : ctx.tapHold = km.ctx.tapHold) (hau : ctx.automation = km.ctx.automation) (hs : s'.held = s.held)
    (hr : ∀ ps', Slots K A ps' s.held → VRel K A count mode ctx ps' s' is) :
    ∃ km1, Handles ⟨system K, refs, S⟩ 1 km km1 ∧ km1.sched.pending = q ++ evs.map some ∧
      VRel K A count mode km1.ctx km1.pressed s' is := by
  have hf : ∃ f, ({ km with sched := { km.sched with pending := q } } : CKM).fire ev = { km with fired := f, sched := { km.sched with pending := q } } := by
    unfold KM.fire
    split
    · split <;> exact ⟨_, rfl⟩
    · exact ⟨_, rfl⟩
  obtain ⟨f, hf⟩ := hf
  obtain ⟨ps1, n1, s1⟩ := VRel.notify (refs := refs) (S := S) (km := { km with fired := f, sched := { km.sched with pending := q } }) h
    (ev := ev) (evs := evs) (by intro j; exact h1 _) h2 h3 hc hlen
  refine ⟨_, ⟨⟨ctx, ps1, f, q ++ evs.map some, rfl, hth, hau⟩, ?_⟩, rfl, hr ps1 s1⟩
  intro d km' hd
  exact .other hq h1 hp (by rw [hf]; exact n1) hd

end Verif.Comp
