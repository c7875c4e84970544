import Verif.Lemmas.VirtStep

/-!
# A press on the keymap and on the keyboard with sticky modifiers and caps word
-/

namespace Verif.Comp

open Virt

variable {K : Keys} {A : Automation.Config} {refs : List Ref} {S : Search} {count : Nat} {mode : Mode} {is : List Nat}

/-! ## The layout -/

theorem kindsOf_spec {rs : List (Option Ref)} {cs : List (Option Act)} (h : kindsOf K A rs = some cs) :
    rs.length = cs.length ∧ (∀ i : Nat, rs[i]? = some none → cs[i]? = some none) ∧
      (∀ (i : Nat) r, rs[i]? = some (some r) → ∃ c, kindOf K A r = some c ∧ cs[i]? = some (some c)) := by
  induction rs generalizing cs with
  | nil => simp only [kindsOf, Option.some.injEq] at h; subst h; simp
  | cons o rs ih =>
    cases o with
    | none =>
      simp only [kindsOf, Option.map_eq_some_iff] at h
      obtain ⟨cs', h1, rfl⟩ := h
      obtain ⟨a, b, d⟩ := ih h1
      refine ⟨by simp [a], ?_, ?_⟩
      · intro i hi
        cases i with
        | zero => rfl
        | succ i => exact b i (by simpa using hi)
      · intro i r hi
        cases i with
        | zero => simp at hi
        | succ i => exact d i r (by simpa using hi)
    | some r =>
      simp only [kindsOf] at h
      split at h
      · rename_i c cs' hc h1
        cases h
        obtain ⟨a, b, d⟩ := ih h1
        refine ⟨by simp [a], ?_, ?_⟩
        · intro i hi
          cases i with
          | zero => simp at hi
          | succ i => exact b i (by simpa using hi)
        · intro i r' hi
          cases i with
          | zero => simp only [List.getElem?_cons_zero, Option.some.injEq] at hi; subst hi; exact ⟨c, hc, rfl⟩
          | succ i => exact d i r' (by simpa using hi)
      · cases h

theorem virtLayoutOf_get {layout : List Pos} (h : virtLayoutOf K A refs = some layout) (i : Nat) :
    (refs[i]?).map (placeOf K A) = (layout[i]?).map some := by
  induction refs generalizing layout i with
  | nil => simp only [virtLayoutOf, Option.some.injEq] at h; subst h; simp
  | cons r rs ih =>
    simp only [virtLayoutOf] at h
    split at h
    · rename_i e es he hes
      cases h
      cases i with
      | zero => simp [he]
      | succ i => simpa using ih hes i
    · cases h

/-- The loop of `process_input` follows the layers. -/
theorem press_place {he : Handler Ref Ev Ctx PKS KS} {m : Nat} {km : CKM} {s : State} {i : Nat} {r0 : Ref} {p : Pos}
    (h : placeOf K A r0 = some p) (hl : km.ctx.layered.layers = s.on.map Layered.act) (hd : km.ctx.layered.defaultLayer = s.dflt)
    (hdf : ∀ d, s.dflt = some d → 0 < d ∧ d ≤ s.on.length) (hf : p.Fits s.on.length) :
    ∃ r m', m ≤ m' ∧ kindOf K A r = some (p.pick s) ∧ (p.pick s).Fits s.on.length ∧
      pressLoop ⟨system K, refs, S⟩ he i (m + 1) km r0 = pressLoop ⟨system K, refs, S⟩ he i m' km r := by
  have plain : ∀ a, kindOf K A r0 = some a → p = .act a → ∃ r m', m ≤ m' ∧ kindOf K A r = some (p.pick s) ∧ (p.pick s).Fits s.on.length ∧
      pressLoop ⟨system K, refs, S⟩ he i (m + 1) km r0 = pressLoop ⟨system K, refs, S⟩ he i m' km r := by
    rintro a ha rfl
    exact ⟨r0, m + 1, by omega, ha, hf, rfl⟩
  unfold placeOf at h
  split at h
  · rename_i j
    split at h
    · rename_i k hk
      split at h
      · rename_i b as hb has
        cases h
        obtain ⟨hl1, hl2, hl3⟩ := kindsOf_spec has
        refine ⟨Board.lookup s.on s.dflt k.base k.layered, m, Nat.le_refl _,
          lookup_decode hb hl1 hl2 hl3 s.on (by rw [hl1, hf.2.1]) s.dflt, ?_, ?_⟩
        · exact Cell.Fits_lookup (P := fun a : Act => a.Fits s.on.length) hf.1 hf.2.2 hf.2.1.symm
        · have hi : Res.index K.layered j = .ok k := by simpa using hk
          have hn := Layered.newPressedKey_lookup (k := k) hl (by rw [hl1, hf.2.1]) (by rw [hd]; exact hdf)
          rw [hd] at hn
          have : newPressedKey K i km.ctx (.layered (.layered j)) = .ok (.newPressedKey (.key (Board.lookup s.on s.dflt k.base k.layered)), []) := by
            simp only [newPressedKey, Layered.sysNewPressedKey, hi, hn, Res.ok_bind, Res.pure_eq, KeyEvents.mapEv, List.map_nil]
          rw [pressLoop]
          rw [show (system K).newPressedKey i km.ctx (.layered (.layered j)) = newPressedKey K i km.ctx (.layered (.layered j)) from rfl, this]
          simp only [Res.ok_bind, Sched.scheduleAll]
      · cases h
    · cases h
  · simp only [Option.map_eq_some_iff] at h
    obtain ⟨a, ha, rfl⟩ := h
    exact plain a ha rfl

/-- What a reference to a key without layers is. -/
theorem kindOf_cases {r : Ref} {a : Act} (h : kindOf K A r = some a) :
    (∃ c, a = .cell c ∧ cellOf K r = some c) ∨
    (∃ j m, r = .sticky j ∧ K.sticky[j]? = some m ∧ a = .sticky m) ∨
    (r = .capsWord ∧ a = .capsWord) ∨
    (∃ j k kos, r = .automation j ∧ K.automation[j]? = some k ∧ k.whilePressed.length = 0 ∧
      k.onRelease.length = 0 ∧ stringOf A k.onPress = some kos ∧ a = .string kos) := by
  unfold kindOf at h
  split at h
  · rename_i j
    obtain ⟨m, hm, rfl⟩ := Option.map_eq_some_iff.1 h
    exact .inr (.inl ⟨j, m, rfl, hm, rfl⟩)
  · cases h; exact .inr (.inr (.inl ⟨rfl, rfl⟩))
  · rename_i j
    split at h
    · rename_i k hk
      split at h
      · rename_i hc
        obtain ⟨kos, hkos, rfl⟩ := Option.map_eq_some_iff.1 h
        exact .inr (.inr (.inr ⟨j, k, kos, rfl, hk, hc.1, hc.2, hkos, rfl⟩))
      · cases h
    · cases h
  · obtain ⟨c, hc, rfl⟩ := Option.map_eq_some_iff.1 h
    exact .inl ⟨c, rfl, hc⟩

/-! ## The first phase -/

theorem vholds_iff {s : State} {i : Nat} : s.holds i = true ↔ i ∈ s.held.filterMap Slot.index := by
  simp only [State.holds, List.any_eq_true, beq_iff_eq, List.mem_filterMap]

/-- The press is announced; the modifiers of tapped keys may be let go. -/
theorem vpress_head {km : CKM} {s : State} {i : Nat} {ch : Chorded.Ctx} {is' : List Nat} (h : VRel K A count mode km.ctx km.pressed s is)
    (hp : km.pend = none) (hq : km.sched.pending = []) (hch : km.ctx.chorded.handleEvent (.input (.press i)) = .ok ch)
    (hidle : Chorded.Idle ch is') :
    ∃ km1 gone s1, Frame km km1 ∧ km1.sched.pending = (letGoEvents gone).map some ∧ gone.length ≤ 4 ∧ s1.held = s.held ∧ s1.on = s.on ∧
      s1.dflt = s.dflt ∧ s1.caps = s.caps ∧
      { s1 with held := Virt.letGo gone s1.held } = (if mode = .onNextPress ∧ s.modified.isSome then s.unstick else s) ∧
      VRel K A count mode km1.ctx km1.pressed s1 is' ∧
      ∀ N, processInputN ⟨system K, refs, S⟩ N km (.press i) =
        (if s.holds i then .ok km1
          else Res.index refs i >>= fun r => pressLoop ⟨system K, refs, S⟩ (handleEvent ⟨system K, refs, S⟩ N) i N km1 r) >>=
          fun km => drain (handleEvent ⟨system K, refs, S⟩ N) N km := by
  have hmode : km.ctx.sticky.release = .onNextKeyPress ↔ mode = .onNextPress := by
    rw [← h.mode]
    cases km.ctx.sticky.release <;> simp [modeOf]
  suffices hsuff : ∀ ctx gone s1, km.ctx.handleEvent (.input (.press i)) = .ok (ctx, (letGoEvents gone).map SchEv.imm) → gone.length ≤ 4 →
      ctx.tapHold = km.ctx.tapHold → ctx.automation = km.ctx.automation → s1.held = s.held → s1.on = s.on → s1.dflt = s.dflt → s1.caps = s.caps →
      { s1 with held := Virt.letGo gone s1.held } = (if mode = .onNextPress ∧ s.modified.isSome then s.unstick else s) →
      (∀ ps', Slots K A ps' s.held → VRel K A count mode ctx ps' s1 is') →
      ∃ km1 gone s1, Frame km km1 ∧ km1.sched.pending = (letGoEvents gone).map some ∧ gone.length ≤ 4 ∧ s1.held = s.held ∧ s1.on = s.on ∧
      s1.dflt = s.dflt ∧ s1.caps = s.caps ∧
      { s1 with held := Virt.letGo gone s1.held } = (if mode = .onNextPress ∧ s.modified.isSome then s.unstick else s) ∧
      VRel K A count mode km1.ctx km1.pressed s1 is' ∧
      ∀ N, processInputN ⟨system K, refs, S⟩ N km (.press i) =
        (if s.holds i then .ok km1
          else Res.index refs i >>= fun r => pressLoop ⟨system K, refs, S⟩ (handleEvent ⟨system K, refs, S⟩ N) i N km1 r) >>=
          fun km => drain (handleEvent ⟨system K, refs, S⟩ N) N km by
    have hcx := ctx_press_v h.noSticky (by rw [h.active]; exact h.four) hch
    rw [h.modified, h.active] at hcx
    by_cases hc : mode = .onNextPress ∧ s.modified.isSome
    · rw [if_pos ⟨hc.2, hmode.2 hc.1⟩] at hcx
      exact hsuff _ s.active { s with active := [], modified := none } hcx h.four rfl rfl rfl rfl rfl rfl (by rw [if_pos hc]; rfl)
        (fun ps' hps => { h with held := hps, active := rfl, modified := rfl, four := by simp, idle := hidle })
    · rw [if_neg (fun hx => hc ⟨hmode.1 hx.2, hx.1⟩)] at hcx
      exact hsuff _ [] s hcx (by simp) rfl rfl rfl rfl rfl rfl (by rw [if_neg hc]; rfl)
        (fun ps' hps => { h with held := hps, idle := hidle })
  intro ctx gone s1 hctx h4 ht ha e1 e2 e3 e4 e5 hr
  obtain ⟨ps1, n1, sl1⟩ := h.notify (refs := refs) (S := S) (ev := .input (.press i)) (by simp) (by simp) (by simp) hctx
    (by rw [hq]; simp [letGoEvents]; omega)
  rw [hq, List.nil_append] at n1
  refine ⟨_, gone, s1, ⟨ctx, ps1, km.fired, (letGoEvents gone).map some, rfl, ht, ha⟩, rfl, h4, e1, e2, e3, e4, e5, hr ps1 sl1, ?_⟩
  intro N
  simp only [processInputN, processInput_none _ hp, processDirect, n1, Res.ok_bind, sl1.hasPressed i]
  rfl

/-- A key is added to the pressed ones. -/
theorem VRel.push {ctx : Ctx} {ps : List (PressedInput Ref KS)} {s : State} (h : VRel K A count mode ctx ps s is) {i : Nat} {a : Act} {u : Bool}
    {p : PressedInput Ref KS} (hd : Decodes K A p (.key i a u)) (hi : i ∉ s.held.filterMap Slot.index) (hl : s.held.length < 16)
    (hf : a.Fits count) : VRel K A count mode ctx (ps ++ [p]) { s with held := s.held ++ [.key i a u] } is :=
  { h with
    held := h.held.snoc hd
    nodup := by
      rw [List.filterMap_append, List.nodup_append]
      refine ⟨h.nodup, by simp [Slot.index], ?_⟩
      intro x hx y hy
      have : y = i := by simpa [Slot.index] using hy
      subst this
      rintro rfl
      exact hi hx
    len := by simp only [List.length_append, List.length_cons, List.length_nil]; omega
    fits := by
      intro j c v hm
      simp only [List.mem_append, List.mem_cons, List.not_mem_nil, or_false] at hm
      rcases hm with hm | hm
      · exact h.fits j c v hm
      · cases hm; exact hf }

theorem handleEvent_resolved {C : Cfg Ref Ev Ctx PKS KS} {n : Nat} {km : CKM} (hp : km.pend = none) (i : Nat) (ko : KeyOutput) :
    handleEvent C (n + 1) km (.keymap (.resolved i ko)) = notifyAll C km (.keymap (.resolved i ko)) := by
  simp only [handleEvent, handleBody, KM.fire, updatePending_none hp, Res.ok_bind]
  cases notifyAll C km (.keymap (.resolved i ko)) <;> rfl

theorem slotAnswer_resolved (e : Automation.Execution) (xs : List Slot) (i : Nat) (ko : KeyOutput) : xs.flatMap (slotAnswer e (.keymap (.resolved i ko))) = [] :=
  slotAnswer_nil (by simp) (by simp) e xs

/-- A key with an output is announced. -/
theorem VRel.resolved {km : CKM} {s : State} (h : VRel K A count mode km.ctx km.pressed s is) (hlen : km.sched.pending.length ≤ 30) (i : Nat) (ko : KeyOutput) :
    ∃ km1, notifyAll ⟨system K, refs, S⟩ km (.keymap (.resolved i ko)) = .ok km1 ∧ Frame km km1 ∧
      km1.sched.pending = km.sched.pending ++ (if s.caps ∧ endsWord ko then [some (.input (.vrelease shiftKey))] else []) ∧
      VRel K A count mode km1.ctx km1.pressed
        { s with
          held := s.held.map Slot.interrupt
          modified := if s.active = [] then s.modified else some i
          caps := if s.caps ∧ endsWord ko then false else s.caps } is := by
  have hc := ctx_resolved_v km.ctx i ko
  obtain ⟨evs, hevs⟩ : ∃ evs : List (Event Ev), evs = if s.caps ∧ endsWord ko then [.input (.vrelease shiftKey)] else [] := ⟨_, rfl⟩
  have he : (if km.ctx.capsWord.active ∧ endsWord ko then [SchEv.imm (.input (.vrelease shiftKey))] else []) = evs.map SchEv.imm := by
    rw [hevs, h.caps]; split <;> rfl
  rw [he] at hc
  have hle : evs.length ≤ 1 := by rw [hevs]; split <;> simp
  obtain ⟨e, _, hn⟩ := h.held.notifyAll (refs := refs) (S := S) h.nodup hc
  obtain ⟨ps', h4, h5⟩ := hn { km.sched with pending := km.sched.pending ++ evs.map some }
    (by rw [slotAnswer_resolved, List.nil_append]; exact scheduleAll_imms S km.sched evs (by omega))
  refine ⟨_, h4, ⟨_, _, _, _, rfl, rfl, rfl⟩, ?_, ?_⟩
  · show km.sched.pending ++ evs.map some = _
    rw [hevs]
    split <;> rfl
  · exact { h with
      held := h5
      nodup := by rw [index_map_interrupt]; exact h.nodup
      len := by rw [List.length_map]; exact h.len
      modified := by show (if _ then _ else _) = _; rw [h.active, h.modified]
      caps := by
        show (if _ then (⟨false⟩ : CapsWord.Ctx) else _).active = _
        rw [h.caps]
        split
        · rfl
        · exact h.caps
      fits := by
        intro j c u hm
        obtain ⟨x, hx, hxe⟩ := List.mem_map.1 hm
        cases x with
        | virt ko => simp [Slot.interrupt] at hxe
        | key j' a u' =>
          cases a with
          | cell c' =>
            simp only [Slot.interrupt, Slot.key.injEq, Act.cell.injEq] at hxe
            obtain ⟨rfl, rfl, rfl⟩ := hxe
            exact h.fits _ _ _ hx
          | sticky m => simp [Slot.interrupt] at hxe
          | capsWord => simp [Slot.interrupt] at hxe
          | string kos => simp [Slot.interrupt] at hxe }

theorem index_snoc (l : List Slot) (i : Nat) (a : Act) (u : Bool) : (l ++ [Slot.key i a u]).filterMap Slot.index = l.filterMap Slot.index ++ [i] := by
  rw [List.filterMap_append]; rfl

theorem length_letGo (ms : List Byte) (l : List Slot) : (Virt.letGo ms l).length ≤ l.length := by
  induction ms generalizing l with
  | nil => exact Nat.le_refl _
  | cons m ms ih => exact Nat.le_trans (ih _) List.length_erase_le

/-- A cell is pressed: the key is added, and its event, if any, is queued. -/
theorem pressLoop_cell {he : Handler Ref Ev Ctx PKS KS} {m : Nat} {km : CKM} {i : Nat} {r : Ref} {c : Board.Cell} (hr : cellOf K r = some c)
    (h16 : km.pressed.length < 16) {es : KeyEvents Ev} {pkr : PKR Ref PKS KS} (hn : newPressedKey K i km.ctx r = .ok (pkr, es))
    (hpk : pkr = .resolved (ksOf r) ∨ (pkr = .newPressedKey .noOp ∧ ksOf r = .noOp ∧ c = .nothing)) {evs : List (Event Ev)}
    (hes : es = evs.map SchEv.imm) (hlen : km.sched.pending.length + evs.length ≤ 31) :
    pressLoop ⟨system K, refs, S⟩ he i (m + 1) km r =
      (match c.output with
        | some ko => he { km with
            pressed := km.pressed ++ [.key i r (ksOf r)]
            sched := { km.sched with pending := km.sched.pending ++ evs.map some } } (.keymap (.resolved i ko))
        | none => .ok { km with
            pressed := km.pressed ++ [.key i r (ksOf r)]
            sched := { km.sched with pending := km.sched.pending ++ evs.map some } }) := by
  have hpush : ∀ ks, pushCap maxPressedKeys km.pressed (.key i r ks) = .ok (km.pressed ++ [.key i r ks]) := by
    intro ks; rw [pushCap_eq_ok]; exact ⟨h16, rfl⟩
  rw [pressLoop, show (system K).newPressedKey i km.ctx r = newPressedKey K i km.ctx r from rfl, hn]
  simp only [Res.ok_bind, hes, scheduleAll_imms S km.sched evs hlen]
  rcases hpk with rfl | ⟨rfl, hks, rfl⟩
  · simp only [hpush, Res.ok_bind]
    rw [show (system K).keyOutput r (ksOf r) = keyOutput K r (ksOf r) from rfl, keyOutput_cell hr]
    cases c.output <;> rfl
  · simp only [hpush, Res.ok_bind, Board.Cell.output, show (system K).noOp = KS.noOp from rfl, hks]
    rfl

theorem vprocess_press {layout : List Pos} {n : Nat} {km : CKM} {s s' : State} (hlay : virtLayoutOf K A refs = some layout)
    (hfit : ∀ p ∈ layout, p.Fits count) (hlen : layout.length ≤ 65535)
    (h : VRel K A count mode km.ctx km.pressed s (s.held.filterMap Slot.index)) (hp : km.pend = none) (hq : km.sched.pending = []) {i : Nat}
    (hs : s.press layout mode i = some s') :
    VTakes K A count mode km s' (processInputN ⟨system K, refs, S⟩ (n + 8) km (.press i)) := by
  simp only [State.press] at hs
  by_cases hh : s.holds i = true
  · -- the key is held
    rw [if_pos hh] at hs
    cases hs
    obtain ⟨ch, hch, hidle⟩ := h.idle.press_held (vholds_iff.1 hh)
    obtain ⟨km1, gone, s1, hf, hq1, h4, e1, e2, e3, e4, e5, hr, hproc⟩ := vpress_head (refs := refs) (S := S) h hp hq hch hidle
    obtain ⟨km2, b1, b2, b3⟩ := hr.letGo (refs := refs) (S := S) gone (q := []) (by rw [hf.pend]; exact hp) (by simpa using hq1) (by simp; omega)
    refine ⟨km2, ?_, hf.trans b1.1, b2, ?_⟩
    · rw [hproc, if_pos hh]
      exact (b1.2 0 km2 (.done b2)).sound.2 _ _ (by omega) (by omega)
    · rw [← e5]
      simp only [index_letGo, e1]
      exact e1 ▸ b3
  · rw [if_neg hh] at hs
    have hni : i ∉ s.held.filterMap Slot.index := fun hm => hh (vholds_iff.2 hm)
    by_cases h16 : s.held.length < 16
    · rw [if_pos h16] at hs
      obtain ⟨p, hle, hst⟩ := Option.bind_eq_some_iff.1 hs
      have hlt : i < layout.length := (List.getElem?_eq_some_iff.1 hle).1
      obtain ⟨ch, hch, hidle⟩ := h.idle.press hni (by omega) (Nat.lt_of_le_of_lt (List.length_filterMap_le _ _) h16)
      obtain ⟨km1, gone, s1, hf, hq1, h4, e1, e2, e3, e4, e5, hr, hproc⟩ := vpress_head (refs := refs) (S := S) h hp hq hch hidle
      have hp1 : km1.pend = none := by rw [hf.pend]; exact hp
      obtain ⟨r0, hr0, he0⟩ : ∃ r0, refs[i]? = some r0 ∧ placeOf K A r0 = some p := by
        have := virtLayoutOf_get hlay i
        rw [hle] at this
        simpa [Option.map_eq_some_iff] using this
      have hri : Res.index refs i = .ok r0 := by simpa using hr0
      have hpf : p.Fits s.on.length := by rw [h.layerCount]; exact hfit p (List.mem_of_getElem? hle)
      obtain ⟨r, m', hm', hkind, hafit, hloop⟩ := press_place (refs := refs) (S := S) (he := handleEvent ⟨system K, refs, S⟩ (n + 8)) (m := n + 7)
        (i := i) (km := km1) (s := s) he0 (by rw [← e2]; exact hr.layers) (by rw [← e3]; exact hr.dflt) (by rw [h.layerCount]; exact h.dfltOk) hpf
      obtain ⟨m', rfl⟩ : ∃ k, m' = k + 1 := ⟨m' - 1, by omega⟩
      have hproc : processInputN ⟨system K, refs, S⟩ (n + 8) km (.press i) =
          pressLoop ⟨system K, refs, S⟩ (handleEvent ⟨system K, refs, S⟩ (n + 8)) i (m' + 1) km1 r >>=
            fun km => drain (handleEvent ⟨system K, refs, S⟩ (n + 8)) (n + 8) km := by
        rw [hproc, if_neg hh, hri]
        simp only [Res.ok_bind]
        rw [hloop]
      rw [← e5] at hst
      generalize p.pick s = a at hkind hafit hst
      have hni1 : i ∉ s1.held.filterMap Slot.index := by rw [e1]; exact hni
      have hl1 : s1.held.length < 16 := by rw [e1]; exact h16
      have hpl : km1.pressed.length < 16 := by rw [hr.held.length]; exact hl1
      have haf : a.Fits count := by rw [← h.layerCount]; exact hafit
      have hidx : s.held.filterMap Slot.index = s1.held.filterMap Slot.index := by rw [e1]
      rw [hidx] at hr
      have hgl : (letGoEvents gone).length ≤ 4 := by simpa [letGoEvents] using h4
      -- it is enough to follow the events
      suffices hsuff : ∃ km2 km3 k, pressLoop ⟨system K, refs, S⟩ (handleEvent ⟨system K, refs, S⟩ (n + 8)) i (m' + 1) km1 r = .ok km2 ∧
          Frame km1 km2 ∧ k ≤ 7 ∧ Handles ⟨system K, refs, S⟩ k km2 km3 ∧ km3.sched.pending = [] ∧
          VRel K A count mode km3.ctx km3.pressed s' (s'.held.filterMap Slot.index) by
        obtain ⟨km2, km3, k, c1, c2, c3, c4, c5, c6⟩ := hsuff
        refine ⟨km3, ?_, hf.trans (c2.trans c4.1), c5, c6⟩
        rw [hproc, c1]
        exact (c4.2 0 km3 (.done c5)).sound.2 _ _ (by omega) (by omega)
      rcases kindOf_cases hkind with ⟨c, rfl, hc⟩ | ⟨j, m, rfl, hj, rfl⟩ | ⟨rfl, rfl⟩ | ⟨j, k, kos, rfl, hj, hw, hrel, hstr, rfl⟩
      · -- a plain key or a layer key
        obtain ⟨pkr, es, hn, hes, hpk⟩ := newPressedKey_cell hc km1.ctx i
        have hpush := hr.push (i := i) (.cell hc) hni1 hl1 haf
        have finish : ∀ e : Event Ev, es = [SchEv.imm e] → c.output = none →
            (∀ km3 : CKM, km3.pend = none → km3.sched.pending = [some e] →
              VRel K A count mode km3.ctx km3.pressed { s1 with held := Virt.letGo gone s1.held ++ [.key i (.cell c) false] } (s1.held.filterMap Slot.index ++ [i]) →
              ∃ km4, Handles ⟨system K, refs, S⟩ 1 km3 km4 ∧ km4.sched.pending = [] ∧
                VRel K A count mode km4.ctx km4.pressed s' (s'.held.filterMap Slot.index)) →
            ∃ km2 km3 k, pressLoop ⟨system K, refs, S⟩ (handleEvent ⟨system K, refs, S⟩ (n + 8)) i (m' + 1) km1 r = .ok km2 ∧
              Frame km1 km2 ∧ k ≤ 7 ∧ Handles ⟨system K, refs, S⟩ k km2 km3 ∧ km3.sched.pending = [] ∧
              VRel K A count mode km3.ctx km3.pressed s' (s'.held.filterMap Slot.index) := by
          intro e he hout hcont
          have hpl' := pressLoop_cell (refs := refs) (S := S) (he := handleEvent ⟨system K, refs, S⟩ (n + 8)) (m := m') hc hpl hn hpk (evs := [e]) he
            (by rw [hq1, List.length_map]; simp only [List.length_cons, List.length_nil]; omega)
          rw [hout] at hpl'
          obtain ⟨km3, a1, a2, a3⟩ := VRel.letGo (refs := refs) (S := S) gone
            (km := { km1 with
              pressed := km1.pressed ++ [.key i r (ksOf r)]
              sched := { km1.sched with pending := km1.sched.pending ++ [e].map some } }) (q := [some e]) hpush hp1 (by rw [hq1]; rfl) (by simp; omega)
          simp only [letGo_snoc] at a3
          obtain ⟨km4, b1, b2, b3⟩ := hcont km3 (by rw [a1.1.pend]; exact hp1) a2 a3
          exact ⟨_, km4, gone.length + 1, hpl', ⟨_, _, _, _, rfl, rfl, rfl⟩, by omega, a1.trans b1, b2, b3⟩
        have layer : ∀ m : Layered.ModifierKey, es = [SchEv.imm (.key i (.layered m.newPressedKey.2))] → c.output = none →
            (∀ x : Layered.Ctx, x.layers = s1.on.map Layered.act → x.defaultLayer = s1.dflt →
              ∃ x', x.handleLayerEvent m.newPressedKey.2 = .ok x' ∧
                x'.layers = (c.press ⟨[], s1.on, s1.dflt⟩).on.map Layered.act ∧ x'.defaultLayer = (c.press ⟨[], s1.on, s1.dflt⟩).dflt) →
            s' = { ({ s1 with held := Virt.letGo gone s1.held } : State).pressLayers c with held := Virt.letGo gone s1.held ++ [.key i (.cell c) false] } →
            ∃ km2 km3 k, pressLoop ⟨system K, refs, S⟩ (handleEvent ⟨system K, refs, S⟩ (n + 8)) i (m' + 1) km1 r = .ok km2 ∧
              Frame km1 km2 ∧ k ≤ 7 ∧ Handles ⟨system K, refs, S⟩ k km2 km3 ∧ km3.sched.pending = [] ∧
              VRel K A count mode km3.ctx km3.pressed s' (s'.held.filterMap Slot.index) := by
          intro m he hout hm hs'
          refine finish _ he hout ?_
          intro km3 hp3 hq3 hr3
          obtain ⟨x', hx1, hx2, hx3⟩ := hm km3.ctx.layered hr3.layers hr3.dflt
          obtain ⟨km4, b1, b2, b3⟩ := hr3.layer (refs := refs) (S := S) (i := i) hp3 hq3 (by simp) hx1 hx2 hx3
            (by rw [press_on_length]; exact hr.layerCount) (press_dflt haf hr.dfltOk)
          refine ⟨km4, b1, b2, ?_⟩
          rw [hs']
          simp only [index_snoc, index_letGo]
          exact b3
        have hfc : c.Fits s1.on.length := by rw [hr.layerCount]; exact haf
        cases c with
        | out ko =>
          simp only [PressEvents] at hes
          subst hes
          have hpl' := pressLoop_cell (refs := refs) (S := S) (he := handleEvent ⟨system K, refs, S⟩ (n + 8)) (m := m') hc hpl hn hpk (evs := []) rfl
            (by rw [hq1, List.length_map]; simp only [List.length_nil]; omega)
          simp only [Board.Cell.output, List.map_nil, List.append_nil] at hpl'
          rw [handleEvent_resolved (km := { km1 with pressed := km1.pressed ++ [.key i r (ksOf r)] }) hp1] at hpl'
          obtain ⟨km2, a1, a2, a3, a4⟩ := VRel.resolved (refs := refs) (S := S) (km := { km1 with pressed := km1.pressed ++ [.key i r (ksOf r)] })
            hpush (by show km1.sched.pending.length ≤ 30; rw [hq1, List.length_map]; omega) i ko
          rw [a1] at hpl'
          have hp2 : km2.pend = none := by rw [a2.pend]; exact hp1
          have a3 : km2.sched.pending = (letGoEvents gone).map some ++ (if s1.caps ∧ endsWord ko then [some (.input (.vrelease shiftKey))] else []) := by
            rw [a3]; show km1.sched.pending ++ _ = _; rw [hq1]
          have hf12 : Frame km1 km2 := Frame.trans ⟨_, _, _, _, rfl, rfl, rfl⟩ a2
          obtain ⟨km3, b1, b2, b3⟩ := a4.letGo (refs := refs) (S := S) gone hp2 a3 (by split <;> simp <;> omega)
          have hheld : Virt.letGo gone ((s1.held ++ [Slot.key i (.cell (.out ko)) false]).map Slot.interrupt) =
              (Virt.letGo gone s1.held).map Slot.interrupt ++ [Slot.key i (.cell (.out ko)) false] := by
            rw [List.map_append, show [Slot.key i (.cell (.out ko)) false].map Slot.interrupt = [Slot.key i (.cell (.out ko)) false] from rfl,
              letGo_snoc, letGo_interrupt]
          simp only [hheld] at b3
          simp only [State.start, State.type, Option.some.injEq] at hst
          by_cases hcw : s1.caps ∧ endsWord ko
          · simp only [hcw, and_self, if_true] at b2 b3
            rw [if_pos hcw] at hst
            obtain ⟨km4, d1, d2, d3⟩ := b3.vrelease (refs := refs) (S := S) (by rw [b1.1.pend]; exact hp2) b2 (by simp)
            refine ⟨km2, km4, gone.length + 1, hpl', hf12, by omega, b1.trans d1, d2, ?_⟩
            rw [← hst]
            simp only [State.capsOff, index_erase, index_snoc, index_map_interrupt, index_letGo]
            exact d3
          · simp only [hcw, if_false] at b2 b3
            rw [if_neg hcw] at hst
            refine ⟨km2, km3, gone.length, hpl', hf12, by omega, b1, b2, ?_⟩
            rw [← hst]
            simp only [index_snoc, index_map_interrupt, index_letGo]
            exact b3
        | nothing =>
          obtain ⟨cb, hcb⟩ := hes
          refine finish _ hcb rfl ?_
          intro km3 hp3 hq3 hr3
          obtain ⟨km4, b1, b2, b3⟩ := hr3.callback (refs := refs) (S := S) hp3 hq3 (by simp)
          refine ⟨km4, b1, b2, ?_⟩
          simp only [State.start, Option.some.injEq] at hst
          rw [← hst]
          simp only [index_snoc, index_letGo]
          exact b3
        | hold l =>
          obtain ⟨m, hm, hcase⟩ := hes
          refine layer m hm rfl ?_ (Option.some.inj hst).symm
          intro x hx1 hx2
          rcases hcase with ⟨l, rfl, hx⟩ | ⟨l, rfl, hx⟩ | ⟨b, rfl, hx⟩ | ⟨l, rfl, hx⟩ <;> cases hx
          exact Layered.event_press (l := l) (b := 0) (s := ⟨[], s1.on, s1.dflt⟩) hx1 hx2 (.inl ⟨rfl, rfl⟩) hfc
        | toggle l =>
          obtain ⟨m, hm, hcase⟩ := hes
          refine layer m hm rfl ?_ (Option.some.inj hst).symm
          intro x hx1 hx2
          rcases hcase with ⟨l, rfl, hx⟩ | ⟨l, rfl, hx⟩ | ⟨b, rfl, hx⟩ | ⟨l, rfl, hx⟩ <;> cases hx
          exact Layered.event_press (l := l) (b := 0) (s := ⟨[], s1.on, s1.dflt⟩) hx1 hx2 (.inr (.inl ⟨rfl, rfl⟩)) hfc
        | setLayers b =>
          obtain ⟨m, hm, hcase⟩ := hes
          refine layer m hm rfl ?_ (Option.some.inj hst).symm
          intro x hx1 hx2
          rcases hcase with ⟨l, rfl, hx⟩ | ⟨l, rfl, hx⟩ | ⟨b, rfl, hx⟩ | ⟨l, rfl, hx⟩ <;> cases hx
          exact Layered.event_press (l := 0) (b := b) (s := ⟨[], s1.on, s1.dflt⟩) hx1 hx2 (.inr (.inr (.inl ⟨rfl, rfl⟩))) hfc
        | default l =>
          obtain ⟨m, hm, hcase⟩ := hes
          refine layer m hm rfl ?_ (Option.some.inj hst).symm
          intro x hx1 hx2
          rcases hcase with ⟨l, rfl, hx⟩ | ⟨l, rfl, hx⟩ | ⟨b, rfl, hx⟩ | ⟨l, rfl, hx⟩ <;> cases hx
          exact Layered.event_press (l := l) (b := 0) (s := ⟨[], s1.on, s1.dflt⟩) hx1 hx2 (.inr (.inr (.inr ⟨rfl, rfl⟩))) hfc
      · -- a sticky modifier
        have hji : Res.index K.sticky j = .ok m := by simpa using hj
        have hpush := hr.push (i := i) (.sticky (b := .sticky) hj) hni1 hl1 trivial
        have hpc : pushCap maxPressedKeys km1.pressed (.key i (.sticky j) (.sticky .sticky)) = .ok (km1.pressed ++ [.key i (.sticky j) (.sticky .sticky)]) := by
          rw [pushCap_eq_ok]; exact ⟨hpl, rfl⟩
        have hpl' : pressLoop ⟨system K, refs, S⟩ (handleEvent ⟨system K, refs, S⟩ (n + 8)) i (m' + 1) km1 (.sticky j) =
            .ok { km1 with pressed := km1.pressed ++ [.key i (.sticky j) (.sticky .sticky)] } := by
          rw [pressLoop, show (system K).newPressedKey i km1.ctx (.sticky j) = newPressedKey K i km1.ctx (.sticky j) from rfl]
          simp only [newPressedKey, Sticky.sysNewPressedKey, hji, Res.ok_bind, Res.pure_eq, Sched.scheduleAll, hpc]
          rw [show (system K).keyOutput (.sticky j) (.sticky .sticky) = keyOutput K (.sticky j) (.sticky .sticky) from rfl]
          simp only [keyOutput, Sticky.sysKeyOutput, hji, Res.ok_bind, Res.pure_eq, Sticky.keyOutput]
        obtain ⟨km3, a1, a2, a3⟩ := VRel.letGo (refs := refs) (S := S) gone
          (km := { km1 with pressed := km1.pressed ++ [.key i (.sticky j) (.sticky .sticky)] }) (q := []) hpush hp1 (by simpa using hq1) (by simp; omega)
        refine ⟨_, km3, gone.length, hpl', ⟨_, _, _, _, rfl, rfl, rfl⟩, by omega, a1, a2, ?_⟩
        simp only [State.start, Option.some.injEq] at hst
        rw [← hst]
        simp only [letGo_snoc] at a3
        simp only [index_snoc, index_letGo]
        exact a3
      · -- caps word
        have hpush := hr.push (i := i) (p := .key i .capsWord .noOp) .caps hni1 hl1 trivial
        have hpc : pushCap maxPressedKeys km1.pressed (.key i .capsWord .noOp) = .ok (km1.pressed ++ [.key i .capsWord .noOp]) := by
          rw [pushCap_eq_ok]; exact ⟨hpl, rfl⟩
        obtain ⟨e, he⟩ : ∃ e : Event Ev, e = .key i (.capsWord (if s1.caps then .disable else .enable)) := ⟨_, rfl⟩
        have hpl' : pressLoop ⟨system K, refs, S⟩ (handleEvent ⟨system K, refs, S⟩ (n + 8)) i (m' + 1) km1 .capsWord =
            .ok { km1 with
              pressed := km1.pressed ++ [.key i .capsWord .noOp]
              sched := { km1.sched with pending := km1.sched.pending ++ [e].map some } } := by
          rw [pressLoop, show (system K).newPressedKey i km1.ctx .capsWord = newPressedKey K i km1.ctx .capsWord from rfl]
          simp only [newPressedKey, Res.ok_bind]
          have : (CapsWord.newPressedKey km1.ctx.capsWord i).mapEv Ev.capsWord = [e].map SchEv.imm := by
            rw [he, ← hr.caps]; rfl
          rw [this]
          rw [scheduleAll_imms S km1.sched [e] (by rw [hq1, List.length_map]; simp only [List.length_cons, List.length_nil]; omega)]
          simp only [Res.ok_bind, show (system K).noOp = KS.noOp from rfl, hpc]
          rfl
        obtain ⟨km3, a1, a2, a3⟩ := VRel.letGo (refs := refs) (S := S) gone
          (km := { km1 with
            pressed := km1.pressed ++ [.key i .capsWord .noOp]
            sched := { km1.sched with pending := km1.sched.pending ++ [e].map some } }) (q := [some e]) hpush hp1 (by rw [hq1]; rfl) (by simp; omega)
        simp only [letGo_snoc] at a3
        have hp3 : km3.pend = none := by rw [a1.1.pend]; exact hp1
        simp only [State.start] at hst
        by_cases hcw : s1.caps = true
        · simp only [hcw, if_true] at he
          subst he
          rw [if_pos hcw, Option.some.injEq] at hst
          obtain ⟨km4, b1, b2, b3⟩ := a3.capsOff (refs := refs) (S := S) hp3 a2 (by simp)
          have hp4 : km4.pend = none := by rw [b1.1.pend]; exact hp3
          obtain ⟨km5, d1, d2, d3⟩ := b3.vrelease (refs := refs) (S := S) hp4 b2 (by simp)
          refine ⟨_, km5, gone.length + 1 + 1, hpl', ⟨_, _, _, _, rfl, rfl, rfl⟩, by omega, (a1.trans b1).trans d1, d2, ?_⟩
          rw [← hst]
          simp only [State.capsOff, index_erase, index_snoc, index_letGo]
          exact d3
        · rw [Bool.not_eq_true] at hcw
          simp only [hcw, Bool.false_eq_true, if_false] at he
          subst he
          rw [if_neg (by simp [hcw])] at hst
          split at hst
          · rename_i h16'
            rw [Option.some.injEq] at hst
            obtain ⟨km4, b1, b2, b3⟩ := a3.capsOn (refs := refs) (S := S) hp3 a2 (by simp)
            have hp4 : km4.pend = none := by rw [b1.1.pend]; exact hp3
            obtain ⟨km5, d1, d2, d3⟩ := b3.vpress (refs := refs) (S := S) hp4 b2 (by simp) h16'
            refine ⟨_, km5, gone.length + 1 + 1, hpl', ⟨_, _, _, _, rfl, rfl, rfl⟩, by omega, (a1.trans b1).trans d1, d2, ?_⟩
            rw [← hst]
            have hvi : ∀ l : List Slot, (l ++ [Slot.virt shiftKey]).filterMap Slot.index = l.filterMap Slot.index := by
              intro l
              rw [List.filterMap_append, show [Slot.virt shiftKey].filterMap Slot.index = [] from rfl, List.append_nil]
            simp only [hvi, index_snoc, index_letGo]
            exact d3
          · cases hst
      · -- a string: not here
        cases hst
    · rw [if_neg h16] at hs; cases hs

end Verif.Comp
