import Verif.Lemmas.VirtInv

/-!
# C30, C31, C33: sticky modifiers and caps word, end to end

The firmware, with all of its queues, contexts and key states, does what the keyboard of `Spec/Virt.lean`
does, for every layout of plain keys, layer keys, sticky modifiers and caps word keys and every history of
key events, ticks and reports; and what follows for the outputs the firmware holds.
-/

namespace Verif.Comp

open Virt

/-- The keymap data: a layout of plain keys, layer keys, sticky modifiers and caps word keys, whose layers
exist, at most 65535 positions, and an array of pressed indices that is absent or as large as the number of
keys that can be held. -/
structure Virtual (K : Keys) (refs : List Ref) (c : Config) (layout : List Pos) : Prop where
  layoutEq : virtLayoutOf K c.automation refs = some layout
  fits : ∀ p ∈ layout, p.Fits c.layerCount
  size : layout.length ≤ 65535
  chords : c.chorded.maxPressed = 0 ∨ 16 ≤ c.chorded.maxPressed

section

variable {K : Keys} {refs : List Ref} {S : Search} {layout : List Pos} {n : Nat}

/-- C30, C31, C33: as long as the keyboard takes the events, no call of the firmware panics, the pressed
outputs are the outputs of the held things in the order they came, and the same events wait. -/
theorem C30_refines {c : Config} (hp : Virtual K refs c layout) (calls : List Board.Call) (hev : ∀ e ∈ eventsIn calls, isPhysical e = true)
    (ht : ticksIn calls < u32Size) {m : Queued} (hm : (Queued.new c.layerCount).run layout (modeOf c.sticky) calls = some m) :
    ∃ km, run ⟨system K, refs, S⟩ (n + 8) (KM.new (Ctx.fromConfig c)) (calls.map toOp) = .ok km ∧
      km.pressedKeys ⟨system K, refs, S⟩ = .ok m.board.outputs ∧ km.inq = m.queue := by
  obtain ⟨km, h1, h2⟩ := (VSimQ.start (K := K) hp.chords).run (S := S) (n := n) hp.layoutEq hp.fits hp.size calls hev (by omega) hm
  exact ⟨km, h1, h2.rel.held.outputs, h2.inq⟩

theorem vrun_idle (mode : Mode) (s : State) (k : Nat) (cs : List Board.Call) :
    Queued.run layout mode ⟨s, [], 0⟩ (List.replicate k .tick ++ cs) = Queued.run layout mode ⟨s, [], 0⟩ cs := by
  induction k with
  | zero => rfl
  | succ k ih => simpa [List.replicate_succ, Queued.run, Queued.tick] using ih

theorem vrun_paced {mode : Mode} {s s' : State} {es : List (InputEvent × Nat)} (h : s.inputs layout mode (es.map Prod.fst) = some s') :
    Queued.run layout mode ⟨s, [], 0⟩ (paced es) = some ⟨s', [], 0⟩ := by
  induction es generalizing s with
  | nil => cases h; rfl
  | cons x es ih =>
    obtain ⟨e, k⟩ := x
    obtain ⟨s1, h1, h2⟩ := Option.bind_eq_some_iff.1 h
    have hi : Queued.input layout mode ⟨s, [], 0⟩ e = some ⟨s1, [], 1⟩ := by
      simp only at h1
      simp [Queued.input, Queued.take, h1]
    have ht : Queued.tick layout mode ⟨s1, [], 1⟩ = some ⟨s1, [], 0⟩ := rfl
    simp only [paced, Queued.run, hi, ht, Option.bind_some]
    rw [vrun_idle]
    exact ih h2

/-- For a host that polls (at least one tick after every key event), nothing waits, and the outputs are
those of the things held according to the history of events. -/
theorem C30_polled {c : Config} (hp : Virtual K refs c layout) (es : List (InputEvent × Nat)) (hev : ∀ e ∈ es, isPhysical e.1 = true)
    (ht : ticksIn (paced es) < u32Size) {s : State} (hs : (State.new c.layerCount).inputs layout (modeOf c.sticky) (es.map Prod.fst) = some s) :
    ∃ km, run ⟨system K, refs, S⟩ (n + 8) (KM.new (Ctx.fromConfig c)) ((paced es).map toOp) = .ok km ∧
      km.pressedKeys ⟨system K, refs, S⟩ = .ok s.outputs ∧ km.inq = [] := by
  refine C30_refines hp (paced es) ?_ ht (vrun_paced hs)
  rw [eventsIn_paced]
  intro e he
  obtain ⟨x, hx, rfl⟩ := List.mem_map.1 he
  exact hev x hx

/-- C30, C33: whatever is typed, the outputs held by the firmware itself are the modifiers of the tapped
sticky keys that wait for the key they modify, and the shift of caps word if it is on: each as often as it
was tapped, and nothing else. Provided that a sticky modifier is never tapped while four are waiting
(`C30_fifth_refuted`). -/
theorem C30_held_partial {c : Config} (hp : Virtual K refs c layout) (es : List (InputEvent × Nat)) (hev : ∀ e ∈ es, isPhysical e.1 = true)
    (ht : ticksIn (paced es) < u32Size) {s : State} (hs : (State.new c.layerCount).inputs layout (modeOf c.sticky) (es.map Prod.fst) = some s)
    (h4 : (State.new c.layerCount).AtMostFour layout (modeOf c.sticky) (es.map Prod.fst)) :
    ∃ km, run ⟨system K, refs, S⟩ (n + 8) (KM.new (Ctx.fromConfig c)) ((paced es).map toOp) = .ok km ∧
      km.pressedKeys ⟨system K, refs, S⟩ = .ok s.outputs ∧ s.Balanced := by
  obtain ⟨km, h1, h2, _⟩ := C30_polled (S := S) (n := n) hp es hev ht hs
  exact ⟨km, h1, h2, ((State.InvL.new c.layerCount).inputs h4 hs).balanced⟩

/-- Nothing held by the firmware, no key held: nothing is sent. -/
theorem State.outputs_none {s : State} (hb : s.Balanced) (ha : s.active = []) (hc : s.caps = false)
    (hk : s.held.filterMap Slot.index = []) : s.outputs = [] := by
  have : s.held = [] := by
    rw [List.eq_nil_iff_forall_not_mem]
    intro x hx
    cases x with
    | key i a u =>
      have : i ∈ s.held.filterMap Slot.index := List.mem_filterMap.2 ⟨_, hx, rfl⟩
      rw [hk] at this
      cases this
    | virt ko =>
      have h0 : s.held.count (.virt ko) = 0 := by
        rw [hb ko, ha, hc]
        rfl
      exact List.count_eq_zero.1 h0 hx
  rw [State.outputs, this]
  rfl

/-- C30: nothing stays behind: when all keys are released, caps word is off and no tapped modifier is
waiting, nothing is sent (with the proviso of `C30_held_partial`). -/
theorem C30_nothing_left_partial {c : Config} (hp : Virtual K refs c layout) (es : List (InputEvent × Nat)) (hev : ∀ e ∈ es, isPhysical e.1 = true)
    (ht : ticksIn (paced es) < u32Size) {s : State} (hs : (State.new c.layerCount).inputs layout (modeOf c.sticky) (es.map Prod.fst) = some s)
    (h4 : (State.new c.layerCount).AtMostFour layout (modeOf c.sticky) (es.map Prod.fst)) (ha : s.active = []) (hc : s.caps = false)
    (hk : s.held.filterMap Slot.index = []) :
    ∃ km, run ⟨system K, refs, S⟩ (n + 8) (KM.new (Ctx.fromConfig c)) ((paced es).map toOp) = .ok km ∧
      km.pressedKeys ⟨system K, refs, S⟩ = .ok [] := by
  obtain ⟨km, h1, h2, h3⟩ := C30_held_partial (S := S) (n := n) hp es hev ht hs h4
  exact ⟨km, h1, by rw [h2, State.outputs_none h3 ha hc hk]⟩

/-! ## Tapping sticky modifiers, then typing -/

theorem inputs_append {mode : Mode} {s : State} (xs ys : List InputEvent) :
    s.inputs layout mode (xs ++ ys) = (s.inputs layout mode xs).bind fun s => s.inputs layout mode ys := by
  induction xs generalizing s with
  | nil => rfl
  | cons x xs ih =>
    simp only [List.cons_append, State.inputs]
    cases s.input layout mode x with
    | none => rfl
    | some s => exact ih

theorem pick_congr {s s' : State} (h1 : s'.on = s.on) (h2 : s'.dflt = s.dflt) (p : Pos) : p.pick s' = p.pick s := by
  cases p with
  | act a => rfl
  | layered b as => simp only [Pos.pick, h1, h2]

/-- The taps of some keys. -/
def tapsFor (js : List Nat) : List InputEvent := js.flatMap fun j => [.press j, .release j]

theorem tap_sticky {mode : Mode} {s : State} {j : Nat} {m : Byte} {ms : List Byte} {p : Pos} (hj : layout[j]? = some p) (hpk : p.pick s = .sticky m)
    (hh : s.held = ms.map fun m => .virt (modKey m)) (ha : s.active = ms) (hm : s.modified = none) (hl : ms.length < 4) :
    s.inputs layout mode [.press j, .release j] =
      some { s with held := (ms ++ [m]).map fun m => .virt (modKey m), active := ms ++ [m] } := by
  have hnh : s.holds j = false := by
    rw [State.holds, hh, List.any_eq_false]
    intro x hx
    obtain ⟨m, _, rfl⟩ := List.mem_map.1 hx
    simp [Slot.index]
  have hp : s.input layout mode (.press j) = some { s with held := s.held ++ [.key j (.sticky m) false] } := by
    simp only [State.input, State.press, hm, Option.isSome_none, Bool.false_eq_true, and_false, if_false, hnh]
    rw [if_pos (by rw [hh, List.length_map]; omega), hj]
    simp only [Option.bind_some, hpk, State.start, hm]
  have hfind : (s.held ++ [Slot.key j (.sticky m) false]).find? (fun x => x.index == some j) = some (.key j (.sticky m) false) := by
    rw [hh, List.find?_append]
    have : (ms.map fun m => Slot.virt (modKey m)).find? (fun x => x.index == some j) = none := by
      rw [List.find?_eq_none]
      intro x hx
      obtain ⟨m, _, rfl⟩ := List.mem_map.1 hx
      simp [Slot.index]
    rw [this]
    simp [Slot.index]
  have hfil : (s.held ++ [Slot.key j (.sticky m) false]).filter (fun x => x.index != some j) = s.held := by
    rw [List.filter_append, List.filter_eq_self.2]
    · simp [Slot.index]
    · intro x hx
      rw [hh] at hx
      obtain ⟨m, _, rfl⟩ := List.mem_map.1 hx
      simp [Slot.index]
  simp only [State.inputs, hp, Option.bind_some]
  simp only [State.input, State.release, hm, hfind, hfil, reduceCtorEq, if_false, false_and, Slot.finish, ha, hl, if_true, letGo, List.foldl_nil,
    Option.bind_some]
  rw [hh, List.map_append]
  rfl

theorem taps_sticky {mode : Mode} {s : State} {ms : List Byte} (taps : List (Nat × Byte))
    (hj : ∀ x ∈ taps, ∃ p, layout[x.1]? = some p ∧ p.pick s = .sticky x.2)
    (hh : s.held = ms.map fun m => .virt (modKey m)) (ha : s.active = ms) (hm : s.modified = none) (hl : ms.length + taps.length ≤ 4) :
    s.inputs layout mode (tapsFor (taps.map Prod.fst)) =
      some { s with held := (ms ++ taps.map Prod.snd).map fun m => .virt (modKey m), active := ms ++ taps.map Prod.snd } := by
  induction taps generalizing s ms with
  | nil =>
    simp only [List.map_nil, List.append_nil]
    rw [← hh, ← ha]
    rfl
  | cons x taps ih =>
    simp only [List.length_cons] at hl
    obtain ⟨p, h1, h2⟩ := hj x List.mem_cons_self
    have : tapsFor ((x :: taps).map Prod.fst) = [.press x.1, .release x.1] ++ tapsFor (taps.map Prod.fst) := rfl
    rw [this, inputs_append, tap_sticky h1 h2 hh ha hm (by omega)]
    simp only [Option.bind_some]
    rw [ih (ms := ms ++ [x.2])]
    · simp
    · intro y hy
      obtain ⟨p, h1, h2⟩ := hj y (List.mem_cons_of_mem _ hy)
      exact ⟨p, h1, by rw [← h2]; exact pick_congr rfl rfl p⟩
    · rfl
    · rfl
    · exact hm
    · simp only [List.length_append, List.length_cons, List.length_nil]; omega

/-- C30: after any history that leaves nothing held: sticky modifiers are tapped (at most four, with any
pauses), then a plain key is pressed. The modifiers and the key are sent. When the key is released nothing
is sent. -/
theorem C30_one_shot {c : Config} (hp : Virtual K refs c layout) (es : List (InputEvent × Nat)) (hev : ∀ e ∈ es, isPhysical e.1 = true)
    (ht : ticksIn (paced es) < u32Size) {es0 : List InputEvent} {s : State} (hs : (State.new c.layerCount).inputs layout (modeOf c.sticky) es0 = some s)
    (hh : s.held = []) (ha : s.active = []) (hm : s.modified = none) (taps : List (Nat × Byte)) (h4 : taps.length ≤ 4)
    (hj : ∀ x ∈ taps, ∃ p, layout[x.1]? = some p ∧ p.pick s = .sticky x.2) {i : Nat} {p : Pos} {ko : KeyOutput}
    (hi : layout[i]? = some p) (hk : p.pick s = .cell (.out ko)) (hc : s.caps = false) :
    (es.map Prod.fst = es0 ++ tapsFor (taps.map Prod.fst) ++ [.press i] →
      ∃ km, run ⟨system K, refs, S⟩ (n + 8) (KM.new (Ctx.fromConfig c)) ((paced es).map toOp) = .ok km ∧
        km.pressedKeys ⟨system K, refs, S⟩ = .ok ((taps.map fun x => modKey x.2) ++ [ko])) ∧
    (es.map Prod.fst = es0 ++ tapsFor (taps.map Prod.fst) ++ [.press i, .release i] →
      ∃ km, run ⟨system K, refs, S⟩ (n + 8) (KM.new (Ctx.fromConfig c)) ((paced es).map toOp) = .ok km ∧
        km.pressedKeys ⟨system K, refs, S⟩ = .ok []) := by
  obtain ⟨ms, hms⟩ : ∃ ms, ms = taps.map Prod.snd := ⟨_, rfl⟩
  have h1 := taps_sticky (mode := modeOf c.sticky) (layout := layout) (s := s) (ms := []) taps hj hh ha hm (by simpa using h4)
  rw [List.nil_append, ← hms] at h1
  obtain ⟨s1, hs1⟩ : ∃ s1 : State, s1 = { s with held := ms.map fun m => .virt (modKey m), active := ms } := ⟨_, rfl⟩
  rw [← hs1] at h1
  have hnv : ∀ x ∈ ms.map (fun m => Slot.virt (modKey m)), x.index = none := by
    intro x hx
    obtain ⟨m, _, rfl⟩ := List.mem_map.1 hx
    rfl
  have hint : (ms.map fun m => Slot.virt (modKey m)).map Slot.interrupt = ms.map fun m => Slot.virt (modKey m) := by
    rw [List.map_map]; rfl
  have hml : ms.length ≤ 4 := by rw [hms, List.length_map]; exact h4
  obtain ⟨s2, hs2⟩ : ∃ s2 : State, s2 = { s1 with
      held := (ms.map fun m => Slot.virt (modKey m)) ++ [.key i (.cell (.out ko)) false]
      modified := if ms = [] then none else some i } := ⟨_, rfl⟩
  have h2 : s1.input layout (modeOf c.sticky) (.press i) = some s2 := by
    have hnh : s1.holds i = false := by
      rw [State.holds, List.any_eq_false]
      intro x hx
      rw [hs1] at hx
      simp [hnv x hx]
    have hm1 : s1.modified = none := by rw [hs1]; exact hm
    simp only [State.input, State.press, hm1, Option.isSome_none, Bool.false_eq_true, and_false, if_false, hnh]
    rw [if_pos (by rw [hs1]; simp only [List.length_map]; omega), hi]
    simp only [Option.bind_some]
    rw [pick_congr (s := s) (by rw [hs1]) (by rw [hs1]), hk]
    simp only [State.start, State.type]
    have hc1 : s1.caps = false := by rw [hs1]; exact hc
    rw [if_neg (by simp [hc1]), hs2, hs1]
    simp only [hint, hm]
  have hall : ∀ l : List Byte, letGo l (l.map fun m => Slot.virt (modKey m)) = [] := by
    intro l
    induction l with
    | nil => rfl
    | cons m l ih =>
      show letGo l (List.erase _ _) = []
      rw [List.map_cons, List.erase_cons_head]
      exact ih
  have h3 : (s2.release i).held = [] := by
    have hfind : s2.held.find? (fun x => x.index == some i) = some (.key i (.cell (.out ko)) false) := by
      rw [hs2, List.find?_append]
      have : (ms.map fun m => Slot.virt (modKey m)).find? (fun x => x.index == some i) = none := by
        rw [List.find?_eq_none]
        intro x hx
        simp [hnv x hx]
      rw [this]
      simp [Slot.index]
    have hfil : s2.held.filter (fun x => x.index != some i) = ms.map fun m => Slot.virt (modKey m) := by
      rw [hs2, List.filter_append, List.filter_eq_self.2]
      · simp [Slot.index]
      · intro x hx; simp [hnv x hx]
    simp only [State.release, hfind, hfil, Slot.finish, State.releaseLayers]
    by_cases he : ms = []
    · subst he
      rw [hs2, hs1]
      simp [letGo]
    · have : s2.modified = some i := by rw [hs2]; simp [he]
      simp only [this, if_true]
      rw [hs2, hs1]
      exact hall ms
  have hout2 : s2.outputs = (taps.map fun x => modKey x.2) ++ [ko] := by
    rw [State.outputs, hs2, List.filterMap_append, List.filterMap_map]
    simp only [List.filterMap_cons, List.filterMap_nil, Slot.output, Board.Cell.output]
    congr 1
    rw [hms, List.filterMap_map]
    simp only [Function.comp_def, Slot.output]
    rw [List.filterMap_eq_map']
  constructor
  · intro he
    obtain ⟨km, a1, a2, _⟩ := C30_polled (S := S) (n := n) hp es hev ht (s := s2)
      (by rw [he, inputs_append, inputs_append, hs]; simp only [Option.bind_some, h1, State.inputs, h2])
    exact ⟨km, a1, by rw [a2, hout2]⟩
  · intro he
    obtain ⟨km, a1, a2, _⟩ := C30_polled (S := S) (n := n) hp es hev ht (s := s2.release i)
      (by rw [he, inputs_append, inputs_append, hs]; simp only [Option.bind_some, h1, State.inputs, h2]; rfl)
    refine ⟨km, a1, ?_⟩
    rw [a2, State.outputs, h3]
    rfl

/-! ## A sticky modifier that is held -/

theorem mem_letGo {ms : List Byte} {l : List Slot} {i : Nat} {a : Act} {u : Bool} (h : Slot.key i a u ∈ l) : Slot.key i a u ∈ letGo ms l := by
  induction ms generalizing l with
  | nil => exact h
  | cons m ms ih => exact ih ((List.mem_erase_of_ne (by simp)).2 h)

theorem sticky_follow {mode : Mode} {s s' : State} {k : Nat} {m : Byte} {u : Bool} {e : InputEvent} (hm : .key k (.sticky m) u ∈ s.held)
    (he : e ≠ .release k) (hs : s.input layout mode e = some s') : .key k (.sticky m) (u || s.types layout e) ∈ s'.held := by
  cases e with
  | vpress ko => cases hs
  | vrelease ko => cases hs
  | release i =>
    cases hs
    simp only [State.types, Bool.or_false]
    have hf : Slot.key k (.sticky m) u ∈ s.held.filter (fun x => x.index != some i) := by
      refine List.mem_filter.2 ⟨hm, ?_⟩
      simp only [Slot.index, bne_iff_ne, ne_eq, Option.some.injEq]
      rintro rfl
      exact he rfl
    simp only [State.release]
    apply mem_letGo
    split
    · rename_i x _
      unfold Slot.finish
      split
      · exact hf
      · exact List.mem_append_left _ hf
      · exact hf
    · exact hf
  | press i =>
    have h1 : Slot.key k (.sticky m) u ∈ (if mode = .onNextPress ∧ s.modified.isSome then s.unstick else s).held := by
      split
      · exact mem_letGo hm
      · exact hm
    simp only [State.input, State.press] at hs
    by_cases hh : s.holds i = true
    · rw [if_pos hh] at hs
      cases hs
      simpa [State.types, hh] using h1
    · rw [if_neg hh] at hs
      split at hs
      · obtain ⟨p, hp, hst⟩ := Option.bind_eq_some_iff.1 hs
        rw [Bool.not_eq_true] at hh
        simp only [State.types, hh, hp, Bool.not_false, Bool.true_and]
        generalize (if mode = .onNextPress ∧ s.modified.isSome then s.unstick else s) = s1 at h1 hst
        generalize p.pick s = a at hst
        have other : ∀ l : List Slot, (.key k (.sticky m) u ∈ l) → .key k (.sticky m) (u || false) ∈ l := by intro l h; simpa using h
        cases a with
        | cell c =>
          cases c with
          | out ko =>
            simp only [State.start, Option.some.injEq] at hst
            subst hst
            have h2 : Slot.key k (.sticky m) (u || true) ∈ s1.held.map Slot.interrupt ++ [.key i (.cell (.out ko)) false] := by
              refine List.mem_append_left _ (List.mem_map.2 ⟨_, h1, ?_⟩)
              simp [Slot.interrupt]
            simp only [State.type]
            split
            · exact (List.mem_erase_of_ne (by simp)).2 h2
            · exact h2
          | hold l => cases hst; exact other _ (List.mem_append_left _ h1)
          | toggle l => cases hst; exact other _ (List.mem_append_left _ h1)
          | setLayers l => cases hst; exact other _ (List.mem_append_left _ h1)
          | default l => cases hst; exact other _ (List.mem_append_left _ h1)
          | nothing => cases hst; exact other _ (List.mem_append_left _ h1)
        | sticky m' => cases hst; exact other _ (List.mem_append_left _ h1)
        | capsWord =>
          simp only [State.start] at hst
          split at hst
          · cases hst; exact other _ ((List.mem_erase_of_ne (by simp)).2 (List.mem_append_left _ h1))
          · split at hst
            · cases hst; exact other _ (List.mem_append_left _ (List.mem_append_left _ h1))
            · cases hst
        | string kos => cases hst
      · cases hs

theorem sticky_follows {mode : Mode} {s s' : State} {k : Nat} {m : Byte} {u : Bool} (es : List InputEvent) (hm : .key k (.sticky m) u ∈ s.held)
    (he : .release k ∉ es) (hs : s.inputs layout mode es = some s') : .key k (.sticky m) (u || s.typesAny layout mode es) ∈ s'.held := by
  induction es generalizing s u with
  | nil => cases hs; simpa [State.typesAny] using hm
  | cons e es ih =>
    obtain ⟨s1, h1, h2⟩ := Option.bind_eq_some_iff.1 hs
    have := ih (sticky_follow hm (fun h => he (by rw [h]; exact List.mem_cons_self)) h1) (fun h => he (List.mem_cons_of_mem _ h)) h2
    rw [State.typesAny, h1]
    simpa [Bool.or_assoc] using this

theorem AtMostFour_append {mode : Mode} {s s1 : State} {xs ys : List InputEvent} (h : s.AtMostFour layout mode (xs ++ ys))
    (hs : s.inputs layout mode xs = some s1) : s.AtMostFour layout mode xs ∧ s1.AtMostFour layout mode ys := by
  induction xs generalizing s with
  | nil => cases hs; exact ⟨trivial, h⟩
  | cons x xs ih =>
    obtain ⟨s2, h1, h2⟩ := Option.bind_eq_some_iff.1 hs
    refine ⟨⟨h.1, ?_⟩, (ih (h.2 s2 h1) h2).2⟩
    intro s' hs'
    rw [h1] at hs'
    cases hs'
    exact (ih (h.2 s2 h1) h2).1

/-- What a release of a held sticky modifier does. -/
theorem release_sticky {s : State} (h : s.Inv) {k : Nat} {m : Byte} {u : Bool} (hm : .key k (.sticky m) u ∈ s.held) :
    s.release k = { s with
      held := s.held.filter (fun x => x.index != some k) ++ (if u then [] else [.virt (modKey m)])
      active := if u then s.active else if s.active.length < 4 then s.active ++ [m] else s.active } := by
  have hmod : s.modified ≠ some k := by
    intro hk
    obtain ⟨_, ko, h2⟩ := h.modified k hk
    have e1 := find_modified h.nodup h2
    rw [find_modified h.nodup hm] at e1
    simp at e1
  simp only [State.release, hmod, if_false, false_and, find_modified h.nodup hm, letGo, List.foldl_nil]
  cases u with
  | true => simp [Slot.finish]
  | false => simp [Slot.finish]

/-- C31: after any history, a sticky modifier `m` is pressed at position `k`; then any events come, but not
the release of `k`. If a key that sends something was pressed among them, the modifier is sent while `k` is
held, and after its release it is held by nothing. If not, the firmware holds it from the release on, and
it waits for the key it modifies. (With the proviso of `C30_held_partial`.) -/
theorem C31_keyboard {c : Config} (hp : Virtual K refs c layout) (es : List (InputEvent × Nat)) (hev : ∀ e ∈ es, isPhysical e.1 = true)
    (ht : ticksIn (paced es) < u32Size) {es0 es1 : List InputEvent} {k : Nat} {m : Byte} {p : Pos} {s0 s1 s2 : State}
    (hs0 : (State.new c.layerCount).inputs layout (modeOf c.sticky) es0 = some s0) (hn : s0.holds k = false)
    (hk : layout[k]? = some p) (hpk : p.pick s0 = .sticky m) (hs1 : s0.press layout (modeOf c.sticky) k = some s1)
    (hr : .release k ∉ es1) (hs2 : s1.inputs layout (modeOf c.sticky) es1 = some s2)
    (h4 : (State.new c.layerCount).AtMostFour layout (modeOf c.sticky) (es0 ++ [.press k] ++ es1 ++ [.release k])) :
    (es.map Prod.fst = es0 ++ [.press k] ++ es1 →
      ∃ km, run ⟨system K, refs, S⟩ (n + 8) (KM.new (Ctx.fromConfig c)) ((paced es).map toOp) = .ok km ∧
        km.pressedKeys ⟨system K, refs, S⟩ = .ok s2.outputs ∧ .key k (.sticky m) (s1.typesAny layout (modeOf c.sticky) es1) ∈ s2.held) ∧
    (es.map Prod.fst = es0 ++ [.press k] ++ es1 ++ [.release k] →
      ∃ km, ∃ s3 : State, run ⟨system K, refs, S⟩ (n + 8) (KM.new (Ctx.fromConfig c)) ((paced es).map toOp) = .ok km ∧
        km.pressedKeys ⟨system K, refs, S⟩ = .ok s3.outputs ∧
        s3.active = (if s1.typesAny layout (modeOf c.sticky) es1 then s2.active else s2.active ++ [m]) ∧
        s3.held = s2.held.filter (fun x => x.index != some k) ++ (if s1.typesAny layout (modeOf c.sticky) es1 then [] else [.virt (modKey m)])) := by
  have hmem : Slot.key k (.sticky m) false ∈ s1.held := by
    simp only [State.press, hn, Bool.false_eq_true, if_false] at hs1
    split at hs1
    · rw [hk] at hs1
      simp only [Option.bind_some, hpk, State.start, Option.some.injEq] at hs1
      rw [← hs1]
      simp
    · cases hs1
  have hs01 : (State.new c.layerCount).inputs layout (modeOf c.sticky) (es0 ++ [.press k]) = some s1 := by
    rw [inputs_append, hs0]
    simp only [Option.bind_some, State.inputs, State.input, hs1]
  have hs012 : (State.new c.layerCount).inputs layout (modeOf c.sticky) (es0 ++ [.press k] ++ es1) = some s2 := by
    rw [inputs_append, hs01]
    exact hs2
  have hf := sticky_follows es1 hmem hr hs2
  rw [Bool.false_or] at hf
  obtain ⟨h4a, h4b⟩ := AtMostFour_append h4 hs012
  have hinv := (State.InvL.new c.layerCount).inputs h4a hs012
  constructor
  · intro he
    obtain ⟨km, a1, a2, _⟩ := C30_polled (S := S) (n := n) hp es hev ht (s := s2) (by rw [he]; exact hs012)
    exact ⟨km, a1, a2, hf⟩
  · intro he
    obtain ⟨km, a1, a2, _⟩ := C30_polled (S := S) (n := n) hp es hev ht (s := s2.release k)
      (by rw [he, inputs_append, hs012]; rfl)
    refine ⟨km, _, a1, a2, ?_, ?_⟩
    · rw [release_sticky hinv hf]
      simp only
      split
      · rfl
      · rename_i hu
        have hlt : s2.active.length < 4 := by
          have := hinv.four
          have h5 : ¬ s2.active.length = 4 := by
            intro h5
            have h6 := h4b.1
            simp only [State.fifth, h5, beq_self_eq_true, Bool.and_true, List.any_eq_false] at h6
            refine h6 _ hf ?_
            rw [Bool.not_eq_true] at hu
            simp [hu]
          omega
        rw [if_pos hlt]
    · rw [release_sticky hinv hf]

/-- C33: on a keymap history in which no sticky modifier is waiting, the firmware holds exactly one left
shift if caps word is on, and nothing if it is off. -/
theorem C33_keyboard {c : Config} (hp : Virtual K refs c layout) (es : List (InputEvent × Nat)) (hev : ∀ e ∈ es, isPhysical e.1 = true)
    (ht : ticksIn (paced es) < u32Size) {s : State} (hs : (State.new c.layerCount).inputs layout (modeOf c.sticky) (es.map Prod.fst) = some s)
    (h4 : (State.new c.layerCount).AtMostFour layout (modeOf c.sticky) (es.map Prod.fst)) (ha : s.active = []) :
    ∃ km, run ⟨system K, refs, S⟩ (n + 8) (KM.new (Ctx.fromConfig c)) ((paced es).map toOp) = .ok km ∧
      km.pressedKeys ⟨system K, refs, S⟩ = .ok s.outputs ∧
      s.held.filter (fun x => x.index == none) = if s.caps then [.virt shiftKey] else [] := by
  obtain ⟨km, h1, h2, h3⟩ := C30_held_partial (S := S) (n := n) hp es hev ht hs h4
  refine ⟨km, h1, h2, ?_⟩
  have hcount : ∀ ko, (s.held.filter (fun x => x.index == none)).count (.virt ko) = if s.caps = true ∧ ko = shiftKey then 1 else 0 := by
    intro ko
    rw [List.count_filter (by simp [Slot.index]), h3 ko, ha]
    simp
  have hvirt : ∀ x ∈ s.held.filter (fun x => x.index == none), ∃ ko, x = .virt ko := by
    intro x hx
    cases x with
    | virt ko => exact ⟨ko, rfl⟩
    | key i a u => simp [Slot.index] at hx
  generalize s.held.filter (fun x => x.index == none) = l at hcount hvirt
  cases hc : s.caps with
  | false =>
    simp only [hc, Bool.false_eq_true, false_and, if_false] at hcount ⊢
    rw [List.eq_nil_iff_forall_not_mem]
    intro x hx
    obtain ⟨ko, rfl⟩ := hvirt x hx
    exact List.count_eq_zero.1 (hcount ko) hx
  | true =>
    simp only [hc, true_and] at hcount
    have hrep : l = List.replicate l.length (.virt shiftKey) := by
      rw [List.eq_replicate_iff]
      refine ⟨rfl, ?_⟩
      intro x hx
      obtain ⟨ko, rfl⟩ := hvirt x hx
      by_cases e : ko = shiftKey
      · rw [e]
      · have := hcount ko
        rw [if_neg e] at this
        exact absurd hx (List.count_eq_zero.1 this)
    have hlen := hcount shiftKey
    rw [if_pos rfl, hrep, List.count_replicate_self] at hlen
    rw [hrep, hlen]
    rfl

end

/-! ## Example -/

namespace VDemo

/-- Two sticky modifiers, a caps word key, and plain keys, one of them with a layer. -/
def K : Keys where
  sticky := [0x01, 0x02]
  layerMods := [.hold 1]
  layered := [⟨.keyboard (.keyCode 6), [some (.sticky 1)]⟩]

def refs : List Ref :=
  [.sticky 0, .sticky 1, .capsWord, .keyboard (.keyCode 4), .keyboard (.keyCode 0x2C), .layered (.modifier 0), .layered (.layered 0)]

def config : Config where
  automation := ⟨[], 0⟩
  chorded := ⟨200, [], none, 0, 0⟩
  sticky := .onModifiedKeyRelease
  tapDance := ⟨200⟩
  tapHold := ⟨200, .ignore, none⟩
  layerCount := 1
  maxChords := 0

def layout : List Pos :=
  [.act (.sticky 1), .act (.sticky 2), .act .capsWord, .act (.cell (.out (KeyOutput.fromKeyCode 4))),
   .act (.cell (.out (KeyOutput.fromKeyCode 0x2C))), .act (.cell (.hold 1)), .layered (.cell (.out (KeyOutput.fromKeyCode 6))) [some (.sticky 2)]]

theorem virtual : Virtual K refs config layout where
  layoutEq := by decide +kernel
  fits := by
    intro e he
    simp only [layout, List.mem_cons, List.not_mem_nil, or_false] at he
    rcases he with rfl | rfl | rfl | rfl | rfl | rfl | rfl <;>
      simp [Pos.Fits, Act.Fits, Board.Cell.Fits, config]
  size := by decide
  chords := .inl rfl

/-- Two sticky taps and a letter. -/
example : ∃ km, run ⟨system K, refs, Search.std⟩ 8 (KM.new (Ctx.fromConfig config))
      ((paced [(.press 0, 0), (.release 0, 3), (.press 1, 1), (.release 1, 0), (.press 3, 7)]).map toOp) = .ok km ∧
    km.pressedKeys ⟨system K, refs, Search.std⟩ = .ok [modKey 1, modKey 2, KeyOutput.fromKeyCode 4] :=
  (C30_one_shot (S := Search.std) (n := 0) virtual [(.press 0, 0), (.release 0, 3), (.press 1, 1), (.release 1, 0), (.press 3, 7)]
    (by decide) (by decide) (es0 := []) (s := State.new 1) rfl rfl rfl rfl [(0, 1), (1, 2)] (by decide)
    (by
      intro x hx
      simp only [List.mem_cons, List.not_mem_nil, or_false] at hx
      rcases hx with rfl | rfl
      · exact ⟨_, rfl, rfl⟩
      · exact ⟨_, rfl, rfl⟩) (i := 3) rfl rfl rfl).1 rfl

/-- Caps word, a letter, a second letter, a space: shift is held until the space. -/
example : ((State.new 1).inputs layout .onRelease [.press 2, .release 2, .press 3, .release 3]).map State.outputs = some [shiftKey] ∧
    ((State.new 1).inputs layout .onRelease [.press 2, .release 2, .press 3, .release 3, .press 4]).map State.outputs =
      some [KeyOutput.fromKeyCode 0x2C] := by decide +kernel

/-- A sticky modifier held while a letter is typed, and one that is tapped. -/
example : ((State.new 1).inputs layout .onRelease [.press 1, .press 3]).map State.outputs = some [modKey 2, KeyOutput.fromKeyCode 4] ∧
    ((State.new 1).inputs layout .onRelease [.press 1, .press 3, .release 3, .release 1]).map State.outputs = some [] ∧
    ((State.new 1).inputs layout .onRelease [.press 1, .release 1]).map State.outputs = some [modKey 2] := by decide +kernel

/-- The proviso of `C30_held_partial` is met by a history with two sticky taps. -/
example : State.AtMostFour layout .onRelease (State.new 1) [.press 0, .release 0, .press 3, .press 1, .release 1, .release 3] := by
  refine ⟨rfl, ?_⟩
  rintro s ⟨⟩
  refine ⟨rfl, ?_⟩
  rintro s ⟨⟩
  refine ⟨rfl, ?_⟩
  rintro s ⟨⟩
  refine ⟨rfl, ?_⟩
  rintro s ⟨⟩
  refine ⟨rfl, ?_⟩
  rintro s ⟨⟩
  exact ⟨rfl, fun _ _ => trivial⟩

end VDemo

end Verif.Comp
