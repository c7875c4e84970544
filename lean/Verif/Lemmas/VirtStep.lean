import Verif.Lemmas.VirtDrain

/-!
# One input event on the keymap and on the keyboard with sticky modifiers and caps word
-/

namespace Verif.Comp

open Virt

variable {K : Keys} {A : Automation.Config} {refs : List Ref} {S : Search} {count : Nat} {mode : Mode} {is : List Nat}

/-! ## The immediate events -/

theorem VRel.letGo {km : CKM} {s : State} (ms : List Byte) {q : List (Option (Event Ev))} (h : VRel K A count mode km.ctx km.pressed s is)
    (hp : km.pend = none) (hq : km.sched.pending = (letGoEvents ms).map some ++ q) (hlen : ms.length + q.length ≤ 31) :
    ∃ km1, Handles ⟨system K, refs, S⟩ ms.length km km1 ∧ km1.sched.pending = q ∧
      VRel K A count mode km1.ctx km1.pressed { s with held := Virt.letGo ms s.held } is := by
  induction ms generalizing km s with
  | nil => exact ⟨km, .refl _ km, hq, h⟩
  | cons m ms ih =>
    simp only [List.length_cons] at hlen
    obtain ⟨km1, a1, a2, a3⟩ := h.vrelease (refs := refs) (S := S) (ko := modKey m) (q := (letGoEvents ms).map some ++ q) hp hq
      (by simp [letGoEvents]; omega)
    obtain ⟨km2, b1, b2, b3⟩ := ih a3 (by rw [a1.1.pend]; exact hp) a2 (by omega)
    refine ⟨km2, ?_, b2, b3⟩
    have := a1.trans b1
    rw [List.length_cons, Nat.add_comm]
    exact this

theorem VRel.layer {km : CKM} {s : State} {i : Nat} {e : Layered.Ev} {l : Layered.Ctx} {on : List Bool} {dflt : Option Nat}
    {q : List (Option (Event Ev))} (h : VRel K A count mode km.ctx km.pressed s is)
    (hp : km.pend = none) (hq : km.sched.pending = some (.key i (.layered e)) :: q) (hlen : q.length ≤ 31)
    (hl : km.ctx.layered.handleLayerEvent e = .ok l) (h1 : l.layers = on.map Layered.act) (h2 : l.defaultLayer = dflt) (h3 : on.length = count)
    (h4 : ∀ d, dflt = some d → 0 < d ∧ d ≤ count) :
    ∃ km1, Handles ⟨system K, refs, S⟩ 1 km km1 ∧ km1.sched.pending = q ∧
      VRel K A count mode km1.ctx km1.pressed { s with on := on, dflt := dflt } is := by
  obtain ⟨km1, a1, a2, a3⟩ := h.event (refs := refs) (S := S) (s' := { s with on := on, dflt := dflt }) (evs := [])
    (ctx := { km.ctx with layered := l }) hp hq (by simp) (by simp) (by simp) (by rw [ctx_layered, hl]; rfl) (by simpa using hlen) rfl rfl rfl
    (fun ps' hps => { h with held := hps, layers := h1, dflt := h2, layerCount := h3, dfltOk := h4 })
  exact ⟨km1, a1, by simpa using a2, a3⟩

theorem VRel.callback {km : CKM} {s : State} {cb : Callback} {q : List (Option (Event Ev))} (h : VRel K A count mode km.ctx km.pressed s is)
    (hp : km.pend = none) (hq : km.sched.pending = some (.keymap (.callback cb)) :: q) (hlen : q.length ≤ 31) :
    ∃ km1, Handles ⟨system K, refs, S⟩ 1 km km1 ∧ km1.sched.pending = q ∧ VRel K A count mode km1.ctx km1.pressed s is := by
  obtain ⟨km1, a1, a2, a3⟩ := h.event (refs := refs) (S := S) (s' := s) (evs := []) (ctx := km.ctx) hp hq (by simp) (by simp) (by simp)
    (ctx_callback _ _) (by simpa using hlen) rfl rfl rfl (fun ps' hps => { h with held := hps })
  exact ⟨km1, a1, by simpa using a2, a3⟩

theorem VRel.enqueueEmpty {km : CKM} {s : State} {i : Nat} {e : Automation.Execution} (he : e.length = 0) {q : List (Option (Event Ev))} (h : VRel K A count mode km.ctx km.pressed s is)
    (hp : km.pend = none) (hq : km.sched.pending = some (.key i (.automation (.enqueue e))) :: q) (hlen : q.length ≤ 31) :
    ∃ km1, Handles ⟨system K, refs, S⟩ 1 km km1 ∧ km1.sched.pending = q ∧ VRel K A count mode km1.ctx km1.pressed s is := by
  obtain ⟨km1, a1, a2, a3⟩ := h.event (refs := refs) (S := S) (s' := s) (evs := []) (ctx := km.ctx) hp hq (by simp) (by simp) (by simp)
    (ctx_enqueue_empty _ _ he) (by simpa using hlen) rfl rfl rfl (fun ps' hps => { h with held := hps })
  exact ⟨km1, a1, by simpa using a2, a3⟩

theorem VRel.activate {km : CKM} {s : State} {i : Nat} {m : Byte} {q : List (Option (Event Ev))} (h : VRel K A count mode km.ctx km.pressed s is)
    (hp : km.pend = none) (hq : km.sched.pending = some (.key i (.sticky (.activateModifiers m))) :: q) (hlen : q.length ≤ 31) :
    ∃ km1, Handles ⟨system K, refs, S⟩ 1 km km1 ∧ km1.sched.pending = q ∧
      VRel K A count mode km1.ctx km1.pressed { s with active := if s.active.length < 4 then s.active ++ [m] else s.active } is := by
  obtain ⟨km1, a1, a2, a3⟩ := h.event (refs := refs) (S := S)
    (s' := { s with active := if s.active.length < 4 then s.active ++ [m] else s.active }) (evs := []) hp hq (by simp) (by simp) (by simp)
    (ctx_activate _ _ _) (by simpa using hlen) rfl rfl rfl
    (fun ps' hps => { h with
      held := hps
      active := by show (if _ then _ else _) = _; rw [h.active]
      four := by
        show (if _ then _ else _ : List Byte).length ≤ 4
        split
        · rw [List.length_append]; simp only [List.length_cons, List.length_nil]; omega
        · exact h.four })
  exact ⟨km1, a1, by simpa using a2, a3⟩

theorem VRel.capsOn {km : CKM} {s : State} {i : Nat} {q : List (Option (Event Ev))} (h : VRel K A count mode km.ctx km.pressed s is)
    (hp : km.pend = none) (hq : km.sched.pending = some (.key i (.capsWord .enable)) :: q) (hlen : q.length ≤ 30) :
    ∃ km1, Handles ⟨system K, refs, S⟩ 1 km km1 ∧ km1.sched.pending = q ++ [some (.input (.vpress shiftKey))] ∧
      VRel K A count mode km1.ctx km1.pressed { s with caps := true } is :=
  h.event (refs := refs) (S := S) (s' := { s with caps := true }) (evs := [.input (.vpress shiftKey)]) hp hq (by simp) (by simp) (by simp)
    (ctx_capsOn _ _) (by simpa using hlen) rfl rfl rfl (fun ps' hps => { h with held := hps, caps := rfl })

theorem VRel.capsOff {km : CKM} {s : State} {i : Nat} {q : List (Option (Event Ev))} (h : VRel K A count mode km.ctx km.pressed s is)
    (hp : km.pend = none) (hq : km.sched.pending = some (.key i (.capsWord .disable)) :: q) (hlen : q.length ≤ 30) :
    ∃ km1, Handles ⟨system K, refs, S⟩ 1 km km1 ∧ km1.sched.pending = q ++ [some (.input (.vrelease shiftKey))] ∧
      VRel K A count mode km1.ctx km1.pressed { s with caps := false } is :=
  h.event (refs := refs) (S := S) (s' := { s with caps := false }) (evs := [.input (.vrelease shiftKey)]) hp hq (by simp) (by simp) (by simp)
    (ctx_capsOff _ _) (by simpa using hlen) rfl rfl rfl (fun ps' hps => { h with held := hps, caps := rfl })

/-! ## Indices -/

theorem index_letGo (ms : List Byte) (l : List Slot) : (Virt.letGo ms l).filterMap Slot.index = l.filterMap Slot.index := by
  induction ms generalizing l with
  | nil => rfl
  | cons m ms ih =>
    show (Virt.letGo ms (l.erase _)).filterMap Slot.index = _
    rw [ih, index_erase]

theorem index_interrupt (x : Slot) : x.interrupt.index = x.index := by
  cases x with
  | virt ko => rfl
  | key i a u => cases a <;> rfl

theorem index_map_interrupt (l : List Slot) : (l.map Slot.interrupt).filterMap Slot.index = l.filterMap Slot.index := by
  rw [List.filterMap_map]
  congr 1
  funext x
  exact index_interrupt x

theorem index_filter (l : List Slot) (i : Nat) :
    (l.filter (fun x => x.index != some i)).filterMap Slot.index = (l.filterMap Slot.index).filter (fun j => j != i) := by
  induction l with
  | nil => rfl
  | cons x l ih =>
    cases hx : x.index with
    | none => simp [List.filter_cons, List.filterMap_cons, hx, ih]
    | some j =>
      by_cases e : j = i
      · subst e; simp [List.filter_cons, List.filterMap_cons, hx, ih]
      · simp [List.filter_cons, List.filterMap_cons, hx, ih, e]

theorem letGo_snoc (ms : List Byte) (l : List Slot) (i : Nat) (a : Act) (u : Bool) :
    Virt.letGo ms (l ++ [Slot.key i a u]) = Virt.letGo ms l ++ [Slot.key i a u] := by
  induction ms generalizing l with
  | nil => rfl
  | cons m ms ih =>
    show Virt.letGo ms ((l ++ [Slot.key i a u]).erase (.virt (modKey m))) = Virt.letGo ms (l.erase (.virt (modKey m))) ++ [Slot.key i a u]
    rw [← ih, List.erase_append]
    split
    · rfl
    · rename_i h
      rw [List.erase_of_not_mem h]
      rfl

theorem erase_interrupt (l : List Slot) (ko : KeyOutput) : (l.map Slot.interrupt).erase (.virt ko) = (l.erase (.virt ko)).map Slot.interrupt := by
  induction l with
  | nil => rfl
  | cons x l ih =>
    simp only [List.map_cons, List.erase_cons]
    by_cases h : x = .virt ko
    · subst h; simp [Slot.interrupt]
    · have h1 : (x == Slot.virt ko) = false := by simpa using h
      have h2 : (x.interrupt == Slot.virt ko) = false := by
        cases x with
        | virt ko' => exact h1
        | key i a u => cases a <;> rfl
      simp only [h1, h2, Bool.false_eq_true, if_false, List.map_cons, ih]

theorem letGo_interrupt (ms : List Byte) (l : List Slot) : Virt.letGo ms (l.map Slot.interrupt) = (Virt.letGo ms l).map Slot.interrupt := by
  induction ms generalizing l with
  | nil => rfl
  | cons m ms ih =>
    show Virt.letGo ms ((l.map Slot.interrupt).erase _) = (Virt.letGo ms (l.erase _)).map Slot.interrupt
    rw [erase_interrupt, ih]

theorem erase_snoc (l : List Slot) (ko : KeyOutput) (i : Nat) (a : Act) (u : Bool) :
    (l ++ [Slot.key i a u]).erase (.virt ko) = l.erase (.virt ko) ++ [Slot.key i a u] := by
  rw [List.erase_append]
  split
  · rfl
  · rename_i h
    rw [List.erase_of_not_mem h]
    rfl

/-! ## Release -/

/-- The keymap takes an event as the keyboard does. -/
def VTakes (K : Keys) (A : Automation.Config) (count : Nat) (mode : Mode) (km : CKM) (s' : State) (x : Res CKM) : Prop :=
  ∃ km', x = .ok km' ∧ Frame km km' ∧ km'.sched.pending = [] ∧ VRel K A count mode km'.ctx km'.pressed s' (s'.held.filterMap Slot.index)

/-- The events a released thing emits. -/
def releaseEvents (e : Automation.Execution) (i : Nat) : Slot → List (Event Ev)
  | .key _ (.cell (.hold l)) _ => [.key i (.layered (.deactivated l))]
  | .key _ (.cell (.default l)) _ => [.key i (.layered (.setDefault l))]
  | .key _ (.sticky m) false => [.key i (.sticky (.activateModifiers m)), .input (.vpress (modKey m))]
  | .key _ (.string _) _ => [.key i (.automation (.enqueue e))]
  | _ => []

theorem slotAnswer_own (e : Automation.Execution) {x : Slot} {i : Nat} (h : x.index = some i) :
    slotAnswer e (.input (.release i)) x = (releaseEvents e i x).map SchEv.imm := by
  cases x with
  | virt ko => simp [Slot.index] at h
  | key j a u =>
    simp only [Slot.index, Option.some.injEq] at h
    subst h
    cases a with
    | cell c => cases c <;> simp [slotAnswer, answer, releaseEvents]
    | sticky m => cases u <;> simp [slotAnswer, releaseEvents]
    | capsWord => rfl
    | string kos => simp [slotAnswer, releaseEvents]

theorem slotAnswer_foreign (e : Automation.Execution) {x : Slot} {i : Nat} (h : x.index ≠ some i) : slotAnswer e (.input (.release i)) x = [] := by
  cases x with
  | virt ko => rfl
  | key j a u =>
    simp only [Slot.index, ne_eq, Option.some.injEq] at h
    cases a with
    | cell c => cases c <;> simp [slotAnswer, answer, h]
    | sticky m => cases u <;> simp [slotAnswer, h]
    | capsWord => rfl
    | string kos => simp [slotAnswer, h]

theorem flatMap_release (e : Automation.Execution) (xs : List Slot) (hnd : (xs.filterMap Slot.index).Nodup) (i : Nat) :
    xs.flatMap (slotAnswer e (.input (.release i))) =
      (match xs.find? (fun x : Slot => x.index == some i) with | some x => releaseEvents e i x | none => []).map SchEv.imm := by
  induction xs with
  | nil => rfl
  | cons x xs ih =>
    simp only [List.flatMap_cons, List.find?_cons]
    by_cases h : x.index = some i
    · have h' : (x.index == some i) = true := by simpa using h
      simp only [h']
      rw [slotAnswer_own e h]
      have hrest : xs.flatMap (slotAnswer e (.input (.release i))) = [] := by
        rw [List.flatMap_eq_nil_iff]
        intro y hy
        apply slotAnswer_foreign
        intro hy'
        rw [List.filterMap_cons, h] at hnd
        exact (List.nodup_cons.1 hnd).1 (List.mem_filterMap.2 ⟨y, hy, hy'⟩)
      rw [hrest, List.append_nil]
    · have h' : (x.index == some i) = false := by simpa using h
      simp only [h']
      rw [slotAnswer_foreign e h, List.nil_append]
      apply ih
      rw [List.filterMap_cons] at hnd
      cases hx : x.index with
      | none => rw [hx] at hnd; exact hnd
      | some j => rw [hx] at hnd; exact (List.nodup_cons.1 hnd).2

theorem vprocess_release {n : Nat} {km : CKM} {s : State} (h : VRel K A count mode km.ctx km.pressed s (s.held.filterMap Slot.index))
    (hp : km.pend = none) (hq : km.sched.pending = []) (i : Nat) :
    VTakes K A count mode km (s.release i) (processInputN ⟨system K, refs, S⟩ (n + 7) km (.release i)) := by
  obtain ⟨ch, hch, hidle⟩ := h.idle.release (i := i) h.nodup
  -- the first phase
  obtain ⟨gone, hgone⟩ : ∃ g, g = if s.modified = some i then s.active else [] := ⟨_, rfl⟩
  have hg4 : gone.length ≤ 4 := by rw [hgone]; split; exact h.four; simp
  obtain ⟨st1, hst1⟩ : ∃ x : Sticky.Ctx, x = ⟨km.ctx.sticky.release, if s.modified = some i then [] else s.active,
    if s.modified = some i ∧ s.active ≠ [] then none else s.modified⟩ := ⟨_, rfl⟩
  have hctx : km.ctx.handleEvent (.input (.release i)) = .ok ({ km.ctx with chorded := ch, sticky := st1 }, (letGoEvents gone).map SchEv.imm) := by
    rw [ctx_release_v h.noSticky (by rw [h.active]; exact h.four) hch, h.modified, h.active, hgone, hst1]
    by_cases hm : s.modified = some i
    · by_cases ha : s.active = []
      · rw [if_neg (by simp [ha])]
        simp only [hm, ha, ne_eq, not_true_eq_false, and_false, if_false, if_true]
        have : km.ctx.sticky = ⟨km.ctx.sticky.release, [], some i⟩ := by rw [← ha, ← hm, ← h.active, ← h.modified]
        rw [← this]
        rfl
      · rw [if_pos ⟨hm.symm, List.length_pos_iff.2 ha⟩]
        simp [hm, ha]
    · rw [if_neg (by intro hx; exact hm hx.1.symm)]
      simp only [hm, false_and, if_false]
      rw [← h.active, ← h.modified]
      rfl
  obtain ⟨e, he, hn1⟩ := h.held.notifyAll (refs := refs) (S := S) h.nodup hctx
  obtain ⟨E, hE⟩ : ∃ E, E = (match s.held.find? (fun x => x.index == some i) with | some x => releaseEvents e i x | none => []) := ⟨_, rfl⟩
  have hE2 : E.length ≤ 2 := by
    rw [hE]
    split
    · rename_i x _
      unfold releaseEvents
      split <;> simp
    · simp
  have hans : s.held.flatMap (slotAnswer e (.input (.release i))) ++ (letGoEvents gone).map SchEv.imm = (E ++ letGoEvents gone).map SchEv.imm := by
    rw [flatMap_release e s.held h.nodup i, List.map_append, ← hE]
  have hsch := scheduleAll_imms S km.sched (E ++ letGoEvents gone) (by rw [hq]; simp [letGoEvents]; omega)
  rw [hq, List.nil_append] at hsch
  obtain ⟨ps1, n1, s1⟩ := hn1 _ (by rw [hans]; exact hsch)
  rw [slotNext_id (by simp)] at s1
  have hproc : processInputN ⟨system K, refs, S⟩ (n + 7) km (.release i) = drain (handleEvent ⟨system K, refs, S⟩ (n + 7)) (n + 7)
      { km with
        pressed := removeKey i ps1
        ctx := { km.ctx with chorded := ch, sticky := st1 }
        sched := { km.sched with pending := (E ++ letGoEvents gone).map some } } := by
    simp only [processInputN, processInput_none _ hp, processDirect, n1, Res.ok_bind]
    rfl
  obtain ⟨km0, hkm0⟩ : ∃ km0 : CKM, km0 = { km with
        pressed := removeKey i ps1
        ctx := { km.ctx with chorded := ch, sticky := st1 }
        sched := { km.sched with pending := (E ++ letGoEvents gone).map some } } := ⟨_, rfl⟩
  rw [← hkm0] at hproc
  have hf0 : Frame km km0 := by rw [hkm0]; exact ⟨_, _, _, _, rfl, rfl, rfl⟩
  have hp0 : km0.pend = none := by rw [hkm0]; exact hp
  have hq0 : km0.sched.pending = E.map some ++ (letGoEvents gone).map some := by rw [hkm0]; simp
  obtain ⟨sr, hsr⟩ : ∃ sr : State, sr = { s with
      held := s.held.filter (fun x => x.index != some i)
      active := if s.modified = some i then [] else s.active
      modified := if s.modified = some i ∧ s.active ≠ [] then none else s.modified } := ⟨_, rfl⟩
  have hr0 : VRel K A count mode km0.ctx km0.pressed sr (sr.held.filterMap Slot.index) := by
    rw [hkm0, hsr]
    exact
      { held := s1.removeKey h.nodup i
        nodup := by rw [index_filter]; exact h.nodup.filter _
        len := Nat.le_trans (List.length_filter_le _ _) h.len
        active := by rw [hst1]
        modified := by rw [hst1]
        mode := by rw [hst1]; exact h.mode
        four := by show (if _ then _ else _ : List Byte).length ≤ 4; split; simp; exact h.four
        caps := h.caps
        layers := h.layers
        dflt := h.dflt
        layerCount := h.layerCount
        dfltOk := h.dfltOk
        fits := fun i c u hm => h.fits i c u (List.mem_filter.1 hm).1
        idle := by rw [index_filter]; exact hidle }
  have hlr : (sr.held).length ≤ s.held.length := by rw [hsr]; exact List.length_filter_le _ _
  -- it is enough to handle the events of the released key
  suffices hsuff : ∃ k km1 s2, k ≤ 2 ∧ Handles ⟨system K, refs, S⟩ k km0 km1 ∧ km1.sched.pending = (letGoEvents gone).map some ∧
      VRel K A count mode km1.ctx km1.pressed s2 (s2.held.filterMap Slot.index) ∧
      s2 = (match s.held.find? (fun x => x.index == some i) with | some x => x.finish sr | none => sr) by
    obtain ⟨k, km1, s2, hk, a1, a2, a3, a4⟩ := hsuff
    obtain ⟨km2, b1, b2, b3⟩ := a3.letGo (refs := refs) (S := S) gone (q := []) (by rw [a1.1.pend]; exact hp0) (by simpa using a2) (by simp; omega)
    have hd := (a1.trans b1).2 0 km2 (.done b2)
    refine ⟨km2, ?_, hf0.trans (a1.1.trans b1.1), b2, ?_⟩
    · rw [hproc]
      exact hd.sound.2 _ _ (by omega) (by omega)
    · have hrel : s.release i = { s2 with held := Virt.letGo gone s2.held } := by
        rw [a4, hgone, hsr]
        rfl
      rw [hrel]
      simp only [index_letGo]
      exact b3
  cases hfind : s.held.find? (fun x => x.index == some i) with
  | none =>
    rw [hfind] at hE
    subst hE
    exact ⟨0, km0, sr, by omega, .refl _ _, by simpa using hq0, hr0, rfl⟩
  | some x =>
    rw [hfind] at hE
    have hmem : x ∈ s.held := List.mem_of_find?_eq_some hfind
    have hx : x.index = some i := by simpa using List.find?_some hfind
    have hlt : sr.held.length < 16 := by
      have : sr.held.length < s.held.length := by
        rw [hsr]
        exact List.length_filter_lt_length_iff_exists.2 ⟨x, hmem, by simp [hx]⟩
      have := h.len
      omega
    cases x with
    | virt ko => simp [Slot.index] at hx
    | key j a u =>
      cases a with
      | cell c =>
        have hfit := h.fits j c u hmem
        have nothing : E = [] → sr.releaseLayers c = sr → ∃ k km1 s2, k ≤ 2 ∧ Handles ⟨system K, refs, S⟩ k km0 km1 ∧
            km1.sched.pending = (letGoEvents gone).map some ∧
            VRel K A count mode km1.ctx km1.pressed s2 (s2.held.filterMap Slot.index) ∧ s2 = (Slot.key j (.cell c) u).finish sr := by
          rintro rfl hs
          exact ⟨0, km0, sr, by omega, .refl _ _, by simpa using hq0, hr0, hs.symm⟩
        cases c with
        | hold l =>
          subst hE
          have hsl := Layered.setLayer_ok km0.ctx.layered.layers .inactive hfit.1 (by rw [hr0.layers, List.length_map, hr0.layerCount]; exact hfit.2)
          have hl : km0.ctx.layered.handleLayerEvent (.deactivated l) =
              .ok { km0.ctx.layered with layers := km0.ctx.layered.layers.set (l - 1) .inactive } := by
            simp only [Layered.Ctx.handleLayerEvent, hsl]; rfl
          obtain ⟨km1, a1, a2, a3⟩ := hr0.layer (refs := refs) (S := S) (i := i) (on := sr.on.set (l - 1) false) (dflt := sr.dflt) hp0 hq0
            (by simp [letGoEvents]; omega) hl (by simp only [hr0.layers, List.map_set]; rfl) hr0.dflt (by rw [List.length_set]; exact hr0.layerCount) hr0.dfltOk
          exact ⟨1, km1, _, by omega, a1, a2, a3, rfl⟩
        | default l =>
          subst hE
          obtain ⟨km1, a1, a2, a3⟩ := hr0.layer (refs := refs) (S := S) (i := i) (e := .setDefault l)
            (l := { km0.ctx.layered with defaultLayer := if l = 0 then none else some l })
            (on := sr.on) (dflt := if l = 0 then none else some l) hp0 hq0
            (by simp [letGoEvents]; omega) rfl hr0.layers rfl hr0.layerCount
            (by
              intro d hd
              split at hd
              · cases hd
              · cases hd; simp only [Board.Cell.Fits] at hfit; omega)
          exact ⟨1, km1, _, by omega, a1, a2, a3, rfl⟩
        | out ko => exact nothing hE rfl
        | toggle l => exact nothing hE rfl
        | setLayers b => exact nothing hE rfl
        | nothing => exact nothing hE rfl
      | sticky m =>
        cases u with
        | true =>
          subst hE
          exact ⟨0, km0, sr, by omega, .refl _ _, by simpa [releaseEvents] using hq0, hr0, rfl⟩
        | false =>
          subst hE
          obtain ⟨km1, a1, a2, a3⟩ := hr0.activate (refs := refs) (S := S) (i := i) (m := m)
            (q := some (.input (.vpress (modKey m))) :: (letGoEvents gone).map some) hp0 hq0 (by simp [letGoEvents]; omega)
          obtain ⟨km2, b1, b2, b3⟩ := a3.vpress (refs := refs) (S := S) (by rw [a1.1.pend]; exact hp0) a2 (by simp [letGoEvents]; omega) hlt
          refine ⟨2, km2, _, by omega, a1.trans b1, b2, ?_, rfl⟩
          have hidx : (sr.held ++ [Slot.virt (modKey m)]).filterMap Slot.index = sr.held.filterMap Slot.index := by
            rw [List.filterMap_append, show [Slot.virt (modKey m)].filterMap Slot.index = [] from rfl, List.append_nil]
          simp only [Slot.finish, hidx]
          exact b3
      | capsWord =>
        subst hE
        exact ⟨0, km0, sr, by omega, .refl _ _, by simpa [releaseEvents] using hq0, hr0, rfl⟩
      | string kos =>
        subst hE
        obtain ⟨km1, a1, a2, a3⟩ := hr0.enqueueEmpty he (refs := refs) (S := S) (i := i) hp0 hq0 (by simp [letGoEvents]; omega)
        exact ⟨1, km1, sr, by omega, a1, a2, a3, rfl⟩

end Verif.Comp
