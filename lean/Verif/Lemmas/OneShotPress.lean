import Verif.Lemmas.OneShotStep

/-!
# A press on the keymap and on the keyboard with sticky layers
-/

namespace Verif.Comp

open OneShot

variable {K : Keys} {refs : List Ref} {S : Search} {count : Nat} {is : List Nat}

/-! ## The layout -/

theorem oncesOf_spec {rs : List (Option Ref)} {cs : List (Option Act)} (h : oncesOf K rs = some cs) :
    rs.length = cs.length ∧ (∀ i : Nat, rs[i]? = some none → cs[i]? = some none) ∧
      (∀ (i : Nat) r, rs[i]? = some (some r) → ∃ c, onceOf K r = some c ∧ cs[i]? = some (some c)) := by
  induction rs generalizing cs with
  | nil => simp only [oncesOf, Option.some.injEq] at h; subst h; simp
  | cons o rs ih =>
    cases o with
    | none =>
      simp only [oncesOf, Option.map_eq_some_iff] at h
      obtain ⟨cs', h1, rfl⟩ := h
      obtain ⟨a, b, d⟩ := ih h1
      refine ⟨by simp [a], ?_, ?_⟩
      · intro i hi
        cases i with
        | zero => rfl
        | succ i => exact b i (by simpa using hi)
      · intro i r hi
        cases i with
        | zero => simp at hi
        | succ i => exact d i r (by simpa using hi)
    | some r =>
      simp only [oncesOf] at h
      split at h
      · rename_i c cs' hc h1
        cases h
        obtain ⟨a, b, d⟩ := ih h1
        refine ⟨by simp [a], ?_, ?_⟩
        · intro i hi
          cases i with
          | zero => simp at hi
          | succ i => exact b i (by simpa using hi)
        · intro i r' hi
          cases i with
          | zero => simp only [List.getElem?_cons_zero, Option.some.injEq] at hi; subst hi; exact ⟨c, hc, rfl⟩
          | succ i => exact d i r' (by simpa using hi)
      · cases h

theorem onceLayoutOf_get {layout : List Pos} (h : onceLayoutOf K refs = some layout) (i : Nat) :
    (refs[i]?).map (spotOf K) = (layout[i]?).map some := by
  induction refs generalizing layout i with
  | nil => simp only [onceLayoutOf, Option.some.injEq] at h; subst h; simp
  | cons r rs ih =>
    simp only [onceLayoutOf] at h
    split at h
    · rename_i e es he hes
      cases h
      cases i with
      | zero => simp [he]
      | succ i => simpa using ih hes i
    · cases h

/-- The loop of `process_input` follows the layers. -/
theorem press_spot {he : Handler Ref Ev Ctx PKS KS} {m : Nat} {km : CKM} {s : State} {i : Nat} {r0 : Ref} {p : Pos}
    (h : spotOf K r0 = some p) (hl : Layered.LRel km.ctx.layered s)
    (hdf : ∀ d, s.dflt = some d → 0 < d ∧ d ≤ s.layers.length) (hf : p.Fits s.layers.length) :
    ∃ r m', m ≤ m' ∧ onceOf K r = some (p.pick s) ∧ (p.pick s).Fits s.layers.length ∧
      pressLoop ⟨system K, refs, S⟩ he i (m + 1) km r0 = pressLoop ⟨system K, refs, S⟩ he i m' km r := by
  have plain : ∀ a, onceOf K r0 = some a → p = .act a → ∃ r m', m ≤ m' ∧ onceOf K r = some (p.pick s) ∧ (p.pick s).Fits s.layers.length ∧
      pressLoop ⟨system K, refs, S⟩ he i (m + 1) km r0 = pressLoop ⟨system K, refs, S⟩ he i m' km r := by
    rintro a ha rfl
    exact ⟨r0, m + 1, by omega, ha, hf, rfl⟩
  have hon : s.on.length = s.layers.length := by simp [State.on]
  unfold spotOf at h
  split at h
  · rename_i j
    split at h
    · rename_i k hk
      split at h
      · rename_i b as hb has
        cases h
        obtain ⟨hl1, hl2, hl3⟩ := oncesOf_spec has
        refine ⟨Board.lookup s.on s.dflt k.base k.layered, m, Nat.le_refl _,
          lookup_decode hb hl1 hl2 hl3 s.on (by rw [hon, hl1, hf.2.1]) s.dflt, ?_, ?_⟩
        · exact Cell.Fits_lookup (P := fun a : Act => a.Fits s.layers.length) hf.1 hf.2.2 (by rw [hon]; exact hf.2.1.symm)
        · have hi : Res.index K.layered j = .ok k := by simpa using hk
          have hn := Layered.newPressedKey_light (k := k) hl.layers (by rw [hl1, hf.2.1]) (by rw [hl.dflt]; exact hdf)
          rw [hl.dflt] at hn
          have : newPressedKey K i km.ctx (.layered (.layered j)) = .ok (.newPressedKey (.key (Board.lookup s.on s.dflt k.base k.layered)), []) := by
            simp only [newPressedKey, Layered.sysNewPressedKey, hi, hn, Res.ok_bind, Res.pure_eq, KeyEvents.mapEv, List.map_nil]
          rw [pressLoop]
          rw [show (system K).newPressedKey i km.ctx (.layered (.layered j)) = newPressedKey K i km.ctx (.layered (.layered j)) from rfl, this]
          simp only [Res.ok_bind, Sched.scheduleAll]
      · cases h
    · cases h
  · simp only [Option.map_eq_some_iff] at h
    obtain ⟨a, ha, rfl⟩ := h
    exact plain a ha rfl

/-- What a reference to a key without layers is. -/
theorem onceOf_cases {r : Ref} {a : Act} (h : onceOf K r = some a) :
    (∃ c, a = .cell c ∧ cellOf K r = some c) ∨ (∃ j l, r = .layered (.modifier j) ∧ K.layerMods[j]? = some (.sticky l) ∧ a = .oneShot l) := by
  unfold onceOf at h
  split at h
  · rename_i j
    split at h
    · rename_i l hl
      cases h
      exact .inr ⟨j, l, rfl, hl, rfl⟩
    · obtain ⟨c, hc, rfl⟩ := Option.map_eq_some_iff.1 h
      exact .inl ⟨c, rfl, hc⟩
  · obtain ⟨c, hc, rfl⟩ := Option.map_eq_some_iff.1 h
    exact .inl ⟨c, rfl, hc⟩

/-! ## Press -/

/-- The press is announced. -/
theorem opress_head {km : CKM} {s : State} {i : Nat} {ch : Chorded.Ctx} {is' : List Nat} (h : ORel K count km.ctx km.pressed s is)
    (hp : km.pend = none) (hq : km.sched.pending = []) (hch : km.ctx.chorded.handleEvent (.input (.press i)) = .ok ch)
    (hidle : Chorded.Idle ch is') :
    ∃ km1, Frame km km1 ∧ km1.sched.pending = (heldEvents s.held).map some ∧
      ORel K count km1.ctx km1.pressed { s.use i with held := s.held.map fun p => (p.1, p.2.interrupt) } is' ∧
      ∀ N, processInputN ⟨system K, refs, S⟩ N km (.press i) =
        (if s.holds i then .ok km1
          else Res.index refs i >>= fun r => pressLoop ⟨system K, refs, S⟩ (handleEvent ⟨system K, refs, S⟩ N) i N km1 r) >>=
          fun km => drain (handleEvent ⟨system K, refs, S⟩ N) N km := by
  obtain ⟨l1, hl1, hl2⟩ := h.layers.use i
  have hctx := ctx_press_o h.modified hch hl1
  have hsch := scheduleAll_imms S km.sched (heldEvents s.held) (by
    have := heldEvents_length s.held
    have := h.len
    rw [hq]; simp only [List.length_nil]; omega)
  rw [hq, List.nil_append] at hsch
  obtain ⟨ps1, n1, s1⟩ := h.held.notifyAll (refs := refs) (S := S) hctx (sch := { km.sched with pending := (heldEvents s.held).map some })
    (by rw [flatMap_press, List.append_nil]; exact hsch)
  refine ⟨_, ⟨{ km.ctx with chorded := ch, layered := l1 }, ps1, km.fired, (heldEvents s.held).map some, rfl, rfl, rfl⟩, rfl, ?_, ?_⟩
  · exact
      { held := s1
        nodup := by rw [map_fst_interrupt]; exact h.nodup
        len := by rw [List.length_map]; exact h.len
        active := h.active
        modified := h.modified
        caps := h.caps
        layers := ⟨hl2.layers, hl2.user, hl2.dflt⟩
        layerCount := by show (s.use i).layers.length = _; rw [use_length]; exact h.layerCount
        dfltOk := by show ∀ d, (s.use i).dflt = some d → _; rw [use_dflt]; exact h.dfltOk
        fits := by
          intro p hp
          obtain ⟨p', hp', rfl⟩ := List.mem_map.1 hp
          exact act_interrupt_fits (h.fits _ hp')
        idle := hidle }
  · intro N
    have hany : (s.held.map (onceNext (.input (.press i)))).any (fun x => x.1 == i) = s.holds i := by
      rw [List.any_map]
      rfl
    simp only [processInputN, processInput_none _ hp, processDirect, n1, Res.ok_bind, s1.hasPressed i, hany]
    rfl

/-- A key is added to the pressed ones. -/
theorem ORel.push {ctx : Ctx} {ps : List (PressedInput Ref KS)} {s : State} (h : ORel K count ctx ps s is) {i : Nat} {a : Act}
    {p : PressedInput Ref KS} (hd : Stands K p (i, a)) (hi : i ∉ s.held.map Prod.fst) (hl : s.held.length < 16)
    (hf : a.Fits count) : ORel K count ctx (ps ++ [p]) { s with held := s.held ++ [(i, a)] } is :=
  { h with
    held := h.held.snoc hd
    nodup := by
      rw [List.map_append, List.nodup_append]
      refine ⟨h.nodup, by simp, ?_⟩
      intro x hx y hy
      have : y = i := by simpa using hy
      subst this
      rintro rfl
      exact hi hx
    len := by simp only [List.length_append, List.length_cons, List.length_nil]; omega
    layers := ⟨h.layers.layers, h.layers.user, h.layers.dflt⟩
    fits := by
      intro p hm
      simp only [List.mem_append, List.mem_cons, List.not_mem_nil, or_false] at hm
      rcases hm with hm | rfl
      · exact h.fits p hm
      · exact hf }

/-- A key with an output is announced. -/
theorem ORel.resolved {km : CKM} {s : State} (h : ORel K count km.ctx km.pressed s is) (i : Nat) (ko : KeyOutput) :
    ∃ km1, notifyAll ⟨system K, refs, S⟩ km (.keymap (.resolved i ko)) = .ok km1 ∧ Frame km km1 ∧
      km1.sched.pending = km.sched.pending ∧ ORel K count km1.ctx km1.pressed s is := by
  have hc := ctx_resolved_v km.ctx i ko
  simp only [h.caps, Bool.false_eq_true, false_and, if_false, h.active, if_true] at hc
  obtain ⟨ps', h4, h5⟩ := h.held.notifyAll (refs := refs) (S := S) hc (sch := km.sched) (by rw [onceAnswer_nil (fun _ hx => by cases hx)]; rfl)
  rw [onceNext_id (by simp)] at h5
  refine ⟨_, h4, ⟨_, _, _, _, rfl, rfl, rfl⟩, rfl, ?_⟩
  exact { h with
    held := h5
    active := rfl
    modified := h.modified
    caps := h.caps }

theorem oprocess_press {layout : List Pos} {n : Nat} {km : CKM} {s s' : State} (hlay : onceLayoutOf K refs = some layout)
    (hfit : ∀ p ∈ layout, p.Fits count) (hlen : layout.length ≤ 65535)
    (h : ORel K count km.ctx km.pressed s (s.held.map Prod.fst)) (hp : km.pend = none) (hq : km.sched.pending = []) {i : Nat}
    (hs : s.press layout i = some s') : OTakes K count km s' (processInputN ⟨system K, refs, S⟩ (n + 18) km (.press i)) := by
  have hel : (heldEvents s.held).length ≤ 16 := Nat.le_trans (heldEvents_length _) h.len
  have hfe : ∀ p ∈ s.held, p.2.Fits count := h.fits
  simp only [State.press] at hs
  have hint : ∀ x, { s.use i with held := x }.holdAll s.held = { (s.use i).interrupt with held := x } := by
    intro x
    rw [holdAll_with, State.interrupt, use_held]
  by_cases hh : s.holds i = true
  · -- the key is held
    rw [if_pos hh] at hs
    cases hs
    obtain ⟨ch, hch, hidle⟩ := h.idle.press_held (oholds_iff.1 hh)
    obtain ⟨km1, hf, hq1, hr, hproc⟩ := opress_head (refs := refs) (S := S) h hp hq hch hidle
    obtain ⟨km2, b1, b2, b3⟩ := hr.holdAll (refs := refs) (S := S) s.held (q := []) (by rw [hf.pend]; exact hp) (by simpa using hq1) hfe
    refine ⟨km2, ?_, hf.trans b1.1, b2, ?_⟩
    · rw [hproc, if_pos hh]
      exact (b1.2 0 km2 (.done b2)).sound.2 _ _ (by omega) (by omega)
    · rw [hint] at b3
      have : (s.use i).interrupt.held = s.held.map fun p => (p.1, p.2.interrupt) := by simp only [State.interrupt, use_held]
      rw [this, map_fst_interrupt]
      rw [← this] at b3
      exact b3
  · rw [if_neg hh] at hs
    have hni : i ∉ s.held.map Prod.fst := fun hm => hh (oholds_iff.2 hm)
    by_cases h16 : s.held.length < 16
    · rw [if_pos h16] at hs
      obtain ⟨p, hle, hst⟩ := Option.map_eq_some_iff.1 hs
      have hlt : i < layout.length := (List.getElem?_eq_some_iff.1 hle).1
      obtain ⟨ch, hch, hidle⟩ := h.idle.press hni (by omega) (by simpa using h16)
      obtain ⟨km1, hf, hq1, hr, hproc⟩ := opress_head (refs := refs) (S := S) h hp hq hch hidle
      have hp1 : km1.pend = none := by rw [hf.pend]; exact hp
      obtain ⟨r0, hr0, he0⟩ : ∃ r0, refs[i]? = some r0 ∧ spotOf K r0 = some p := by
        have := onceLayoutOf_get hlay i
        rw [hle] at this
        simpa [Option.map_eq_some_iff] using this
      have hri : Res.index refs i = .ok r0 := by simpa using hr0
      have hlc : (s.use i).layers.length = count := by rw [use_length]; exact h.layerCount
      have hpf : p.Fits (s.use i).layers.length := by rw [hlc]; exact hfit p (List.mem_of_getElem? hle)
      obtain ⟨r, m', hm', hkind, hafit, hloop⟩ := press_spot (refs := refs) (S := S) (he := handleEvent ⟨system K, refs, S⟩ (n + 18)) (m := n + 17)
        (i := i) (km := km1) (s := s.use i) he0 ⟨hr.layers.layers, hr.layers.user, hr.layers.dflt⟩
        (by rw [hlc, use_dflt]; exact h.dfltOk) hpf
      obtain ⟨m', rfl⟩ : ∃ k, m' = k + 1 := ⟨m' - 1, by omega⟩
      have hproc : processInputN ⟨system K, refs, S⟩ (n + 18) km (.press i) =
          pressLoop ⟨system K, refs, S⟩ (handleEvent ⟨system K, refs, S⟩ (n + 18)) i (m' + 1) km1 r >>=
            fun km => drain (handleEvent ⟨system K, refs, S⟩ (n + 18)) (n + 18) km := by
        rw [hproc, if_neg hh, hri]
        simp only [Res.ok_bind]
        rw [hloop]
      generalize p.pick (s.use i) = a at hkind hafit hst
      rw [hlc] at hafit
      have hih : (s.use i).interrupt.held = s.held.map fun p => (p.1, p.2.interrupt) := by simp only [State.interrupt, use_held]
      rw [hih] at hst
      obtain ⟨hs1, hhs1⟩ : ∃ x, x = s.held.map fun p => (p.1, p.2.interrupt) := ⟨_, rfl⟩
      rw [← hhs1] at hr hst
      have hfst : hs1.map Prod.fst = s.held.map Prod.fst := by rw [hhs1, map_fst_interrupt]
      have hll : hs1.length = s.held.length := by rw [hhs1, List.length_map]
      have hpl : km1.pressed.length < 16 := by rw [hr.held.length]; show hs1.length < 16; omega
      -- it is enough to follow the event of the key itself
      have finish : ∀ (pi : PressedInput Ref KS) (evs : List (Event Ev)) (km2 : CKM),
          pressLoop ⟨system K, refs, S⟩ (handleEvent ⟨system K, refs, S⟩ (n + 18)) i (m' + 1) km1 r = .ok km2 → Frame km1 km2 →
          km2.sched.pending = (heldEvents s.held).map some ++ evs.map some → evs.length ≤ 1 →
          ORel K count km2.ctx km2.pressed { s.use i with held := hs1 ++ [(i, a)] } (s.held.map Prod.fst ++ [i]) →
          (∀ km3 : CKM, km3.pend = none → km3.sched.pending = evs.map some →
            ORel K count km3.ctx km3.pressed { (s.use i).interrupt with held := hs1 ++ [(i, a)] } (s.held.map Prod.fst ++ [i]) →
            ∃ km4, Handles ⟨system K, refs, S⟩ evs.length km3 km4 ∧ km4.sched.pending = [] ∧
              ORel K count km4.ctx km4.pressed (a.press { (s.use i).interrupt with held := hs1 ++ [(i, a)] }) (s.held.map Prod.fst ++ [i])) →
          OTakes K count km s' (processInputN ⟨system K, refs, S⟩ (n + 18) km (.press i)) := by
        intro pi evs km2 c1 c2 c3 c4 c5 hcont
        obtain ⟨km3, a1, a2, a3⟩ := c5.holdAll (refs := refs) (S := S) s.held (by rw [c2.pend]; exact hp1) c3 hfe
        rw [hint] at a3
        obtain ⟨km4, b1, b2, b3⟩ := hcont km3 (by rw [a1.1.pend, c2.pend]; exact hp1) a2 a3
        refine ⟨km4, ?_, hf.trans (c2.trans (a1.1.trans b1.1)), b2, ?_⟩
        · rw [hproc, c1]
          exact ((a1.trans b1).2 0 km4 (.done b2)).sound.2 _ _ (by omega) (by omega)
        · have hhe : s'.held = hs1 ++ [(i, a)] := by rw [← hst, act_press_held]
          have hmf : s'.held.map Prod.fst = s.held.map Prod.fst ++ [i] := by rw [hhe, List.map_append, hfst]; rfl
          rw [hmf, ← hst]
          exact b3
      have layer : ∀ m : Layered.ModifierKey, ((∃ l, m = .hold l ∧ a = .cell (.hold l)) ∨ (∃ l, m = .toggle l ∧ a = .cell (.toggle l)) ∨
          (∃ b, m = .setActiveLayers b ∧ a = .cell (.setLayers b)) ∨ (∃ l, m = .default l ∧ a = .cell (.default l)) ∨
          (∃ l, m = .sticky l ∧ a = .oneShot l)) →
          ∀ km3 : CKM, km3.pend = none → km3.sched.pending = [(.key i (.layered m.newPressedKey.2) : Event Ev)].map some →
            ORel K count km3.ctx km3.pressed { (s.use i).interrupt with held := hs1 ++ [(i, a)] } (s.held.map Prod.fst ++ [i]) →
            ∃ km4, Handles ⟨system K, refs, S⟩ [(.key i (.layered m.newPressedKey.2) : Event Ev)].length km3 km4 ∧ km4.sched.pending = [] ∧
              ORel K count km4.ctx km4.pressed (a.press { (s.use i).interrupt with held := hs1 ++ [(i, a)] }) (s.held.map Prod.fst ++ [i]) := by
        intro m hm km3 hp3 hq3 hr3
        obtain ⟨c', hc1, hc2⟩ := hr3.layers.press hm (by rw [hr3.layerCount]; exact hafit)
        exact hr3.layer (refs := refs) (S := S) (i := i) (q := []) hp3 hq3 hc1 hc2 (act_press_held _ _)
          (by rw [act_press_length]; exact hr3.layerCount) (act_press_dflt hafit hr3.dfltOk)
      rcases onceOf_cases hkind with ⟨c, rfl, hc⟩ | ⟨j, l, rfl, hj, rfl⟩
      · -- a plain key or a layer key
        obtain ⟨pkr, es, hn, hes, hpk⟩ := newPressedKey_cell hc km1.ctx i
        have hpush := hr.push (i := i) (a := .cell c) (.cell hc) (by rw [hfst]; exact hni) (by show hs1.length < 16; omega) hafit
        have quiet : ∀ e : Event Ev, es = [SchEv.imm e] → c.output = none →
            (∀ km3 : CKM, km3.pend = none → km3.sched.pending = [e].map some →
              ORel K count km3.ctx km3.pressed { (s.use i).interrupt with held := hs1 ++ [(i, .cell c)] } (s.held.map Prod.fst ++ [i]) →
              ∃ km4, Handles ⟨system K, refs, S⟩ [e].length km3 km4 ∧ km4.sched.pending = [] ∧
                ORel K count km4.ctx km4.pressed ((Act.cell c).press { (s.use i).interrupt with held := hs1 ++ [(i, .cell c)] }) (s.held.map Prod.fst ++ [i])) →
            OTakes K count km s' (processInputN ⟨system K, refs, S⟩ (n + 18) km (.press i)) := by
          intro e he hout hcont
          have hpl' := pressLoop_cell (refs := refs) (S := S) (he := handleEvent ⟨system K, refs, S⟩ (n + 18)) (m := m') hc hpl hn hpk (evs := [e]) he
            (by rw [hq1, List.length_map]; simp only [List.length_cons, List.length_nil]; omega)
          rw [hout] at hpl'
          exact finish (.key i r (ksOf r)) [e] _ hpl' ⟨_, _, _, _, rfl, rfl, rfl⟩ (by rw [hq1]) (by simp) hpush hcont
        cases c with
        | out ko =>
          simp only [PressEvents] at hes
          subst hes
          have hpl' := pressLoop_cell (refs := refs) (S := S) (he := handleEvent ⟨system K, refs, S⟩ (n + 18)) (m := m') hc hpl hn hpk (evs := []) rfl
            (by rw [hq1, List.length_map]; simp only [List.length_nil]; omega)
          simp only [Board.Cell.output, List.map_nil, List.append_nil] at hpl'
          rw [handleEvent_resolved (km := { km1 with pressed := km1.pressed ++ [.key i r (ksOf r)] }) hp1] at hpl'
          obtain ⟨km2, a1, a2, a3, a4⟩ := ORel.resolved (refs := refs) (S := S) (km := { km1 with pressed := km1.pressed ++ [.key i r (ksOf r)] })
            hpush i ko
          rw [a1] at hpl'
          refine finish (.key i r (ksOf r)) [] km2 hpl' (Frame.trans ⟨_, _, _, _, rfl, rfl, rfl⟩ a2) ?_ (by simp) a4 ?_
          · rw [a3, List.map_nil, List.append_nil]; exact hq1
          · intro km3 _ hq3 hr3
            exact ⟨km3, .refl _ _, hq3, hr3⟩
        | nothing =>
          obtain ⟨cb, hcb⟩ := hes
          exact quiet _ hcb rfl (fun km3 hp3 hq3 hr3 => hr3.callback (refs := refs) (S := S) hp3 hq3)
        | hold l =>
          obtain ⟨m, hm, hcase⟩ := hes
          refine quiet _ hm rfl (layer m ?_)
          rcases hcase with ⟨l, rfl, hx⟩ | ⟨l, rfl, hx⟩ | ⟨b, rfl, hx⟩ | ⟨l, rfl, hx⟩ <;> cases hx
          exact .inl ⟨l, rfl, rfl⟩
        | toggle l =>
          obtain ⟨m, hm, hcase⟩ := hes
          refine quiet _ hm rfl (layer m ?_)
          rcases hcase with ⟨l, rfl, hx⟩ | ⟨l, rfl, hx⟩ | ⟨b, rfl, hx⟩ | ⟨l, rfl, hx⟩ <;> cases hx
          exact .inr (.inl ⟨l, rfl, rfl⟩)
        | setLayers b =>
          obtain ⟨m, hm, hcase⟩ := hes
          refine quiet _ hm rfl (layer m ?_)
          rcases hcase with ⟨l, rfl, hx⟩ | ⟨l, rfl, hx⟩ | ⟨b, rfl, hx⟩ | ⟨l, rfl, hx⟩ <;> cases hx
          exact .inr (.inr (.inl ⟨b, rfl, rfl⟩))
        | default l =>
          obtain ⟨m, hm, hcase⟩ := hes
          refine quiet _ hm rfl (layer m ?_)
          rcases hcase with ⟨l, rfl, hx⟩ | ⟨l, rfl, hx⟩ | ⟨b, rfl, hx⟩ | ⟨l, rfl, hx⟩ <;> cases hx
          exact .inr (.inr (.inr (.inl ⟨l, rfl, rfl⟩)))
      · -- a sticky layer key
        have hji : Res.index K.layerMods j = .ok (.sticky l) := by simpa using hj
        have hpush := hr.push (i := i) (a := .oneShot l) (.oneShot hj) (by rw [hfst]; exact hni) (by show hs1.length < 16; omega) hafit
        have hpc : pushCap maxPressedKeys km1.pressed (.key i (.layered (.modifier j)) (.layerModifier .sticky)) =
            .ok (km1.pressed ++ [.key i (.layered (.modifier j)) (.layerModifier .sticky)]) := by
          rw [pushCap_eq_ok]; exact ⟨hpl, rfl⟩
        have hpl' : pressLoop ⟨system K, refs, S⟩ (handleEvent ⟨system K, refs, S⟩ (n + 18)) i (m' + 1) km1 (.layered (.modifier j)) =
            .ok { km1 with
              pressed := km1.pressed ++ [.key i (.layered (.modifier j)) (.layerModifier .sticky)]
              sched := { km1.sched with pending := km1.sched.pending ++ [(.key i (.layered (.stickyActivated l)) : Event Ev)].map some } } := by
          have hn : newPressedKey K i km1.ctx (.layered (.modifier j)) =
              .ok (.resolved (.layerModifier .sticky), [(.key i (.layered (.stickyActivated l)) : Event Ev)].map SchEv.imm) := by
            simp only [newPressedKey, Layered.sysNewPressedKey, hji, Res.ok_bind, Res.pure_eq, Layered.ModifierKey.newPressedKey, KeyEvents.mapEv,
              List.map_cons, List.map_nil, SchEv.map, SchEv.imm, Event.map]
          rw [pressLoop, show (system K).newPressedKey i km1.ctx (.layered (.modifier j)) = newPressedKey K i km1.ctx (.layered (.modifier j)) from rfl, hn]
          simp only [Res.ok_bind]
          rw [scheduleAll_imms S km1.sched _ (by rw [hq1, List.length_map]; simp only [List.length_cons, List.length_nil]; omega)]
          simp only [Res.ok_bind, hpc]
          rfl
        exact finish (.key i (.layered (.modifier j)) (.layerModifier .sticky)) _ _ hpl' ⟨_, _, _, _, rfl, rfl, rfl⟩ (by rw [hq1]; rfl) (by simp) hpush
          (layer (.sticky l) (.inr (.inr (.inr (.inr ⟨l, rfl, rfl⟩)))))
    · rw [if_neg h16] at hs; cases hs

end Verif.Comp
