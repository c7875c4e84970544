import Verif.Lemmas.MacroStep
import Verif.Lemmas.VirtRun

/-!
# Whole histories on the keymap and on the keyboard that types strings
-/

namespace Verif.Comp

open Virt (Pos Act Mode Slot letGo)
open Macro (Timer)

variable {K : Keys} {A : Automation.Config} {refs : List Ref} {S : Search} {layout : List Pos} {count ms n : Nat} {mode : Mode}

/-- The result of handling an input event. -/
def MTakes (K : Keys) (A : Automation.Config) (count : Nat) (mode : Mode) (km : CKM) (s' : Macro.State) (x : Res CKM) : Prop :=
  ∃ km', x = .ok km' ∧ MFrame km km' ∧ km'.sched.pending = [] ∧ MRel K A count mode km' s' (s'.board.held.filterMap Slot.index)

theorem index_virt (l : List Slot) (ko : KeyOutput) : (l ++ [Slot.virt ko]).filterMap Slot.index = l.filterMap Slot.index := by
  rw [List.filterMap_append, show [Slot.virt ko].filterMap Slot.index = [] from rfl, List.append_nil]

theorem letter_index {s s' : Macro.State} {d i : Nat} (h : s.letter S d i = some s') :
    s'.board.held.filterMap Slot.index = s.board.held.filterMap Slot.index := by
  have hafter : ∀ {x : Timer} {a b : Macro.State}, a.after S d x = some b → b.board = a.board := by
    intro x a b h
    unfold Macro.State.after at h
    split at h
    · simp only [Option.some.injEq] at h; subst h; rfl
    · cases h
  unfold Macro.State.letter at h
  split at h
  · simp only [Option.bind_eq_some_iff] at h
    obtain ⟨s1, a1, s2, a2, s3, a3, a4⟩ := h
    have h3 : s3.board = s2.board := by
      split at a3
      · exact hafter a3
      · simp only [Option.some.injEq] at a3; subst a3; rfl
    have hb : s3.board = s.board := by rw [h3, hafter a2, hafter a1]
    unfold Macro.State.down at a4
    split at a4
    · simp only [Option.some.injEq] at a4
      subst a4
      show (s3.board.held ++ [_]).filterMap _ = _
      rw [index_virt, hb]
    · cases a4
  · simp only [Option.some.injEq] at h
    subst h
    rfl

theorem request_index {s s' : Macro.State} {d i : Nat} {kos : List KeyOutput} (h : s.request S d i kos = some s') :
    s'.board.held.filterMap Slot.index = s.board.held.filterMap Slot.index := by
  unfold Macro.State.request at h
  split at h
  · exact letter_index (s := { s with strings := [kos], asked := s.asked ++ kos }) h
  · split at h <;> simp only [Option.some.injEq] at h <;> subst h <;> rfl

theorem fire_index {s s' : Macro.State} {d : Nat} {x : Timer} (h : s.fire S d x = some s') :
    s'.board.held.filterMap Slot.index = s.board.held.filterMap Slot.index := by
  cases x with
  | up ko =>
    simp only [Macro.State.fire, Option.some.injEq] at h
    subst h
    exact index_erase _ _
  | next i => exact letter_index h
  | done i =>
    simp only [Macro.State.fire, Option.some.injEq] at h
    subst h
    rfl

/-- A press. -/
theorem mprocess_press {km : CKM} {s s' : Macro.State} (hlay : virtLayoutOf K A refs = some layout) (hfit : ∀ p ∈ layout, p.Fits count)
    (hlen : layout.length ≤ 65535) (hA : A.instructions.length ≤ 65535)
    (h : MRel K A count mode km s (s.board.held.filterMap Slot.index)) (hp : km.pend = none) (hq : km.sched.pending = [])
    (ht : s.clock + A.duration < u32Size) {i : Nat} (hs : s.press S A.duration layout mode i = some s') :
    MTakes K A count mode km s' (processInputN ⟨system K, refs, S⟩ (n + 8) km (.press i)) := by
  unfold Macro.State.press at hs
  cases ha : s.asks layout i with
  | none =>
    rw [ha] at hs
    simp only [Option.map_eq_some_iff] at hs
    obtain ⟨b, hb, rfl⟩ := hs
    obtain ⟨km', a1, a2, a3, a4⟩ := vprocess_press (S := S) (n := n) hlay hfit hlen h.board hp hq hb
    exact ⟨km', a1, a2.toM, a3, h.frame a2 a4⟩
  | some kos =>
    rw [ha] at hs
    simp only at hs
    split at hs
    · rename_i h16
      unfold Macro.State.asks at ha
      split at ha
      · cases ha
      · rename_i hh
        split at ha
        · rename_i p hle
          have hpick : p.pick s.board = .string kos := by
            cases hpk : p.pick s.board with
            | string k => rw [hpk] at ha; simpa using ha
            | _ => rw [hpk] at ha; cases ha
          have hni : i ∉ s.board.held.filterMap Slot.index := fun hm => hh (vholds_iff.2 hm)
          have hlt : i < layout.length := (List.getElem?_eq_some_iff.1 hle).1
          obtain ⟨ch, hch, hidle⟩ := h.board.idle.press hni (by omega) (Nat.lt_of_le_of_lt (List.length_filterMap_le _ _) h16)
          obtain ⟨km1, gone, s1, hf, hq1, h4, e1, e2, e3, e4, e5, hr, hproc⟩ := vpress_head (refs := refs) (S := S) h.board hp hq hch hidle
          have hp1 : km1.pend = none := by rw [hf.pend]; exact hp
          obtain ⟨r0, hr0, he0⟩ : ∃ r0, refs[i]? = some r0 ∧ placeOf K A r0 = some p := by
            have := virtLayoutOf_get hlay i
            rw [hle] at this
            simpa [Option.map_eq_some_iff] using this
          have hri : Res.index refs i = .ok r0 := by simpa using hr0
          have hpf : p.Fits s.board.on.length := by rw [h.board.layerCount]; exact hfit p (List.mem_of_getElem? hle)
          obtain ⟨r, m', hm', hkind, hafit, hloop⟩ := press_place (refs := refs) (S := S) (he := handleEvent ⟨system K, refs, S⟩ (n + 8)) (m := n + 7)
            (i := i) (km := km1) (s := s.board) he0 (by rw [← e2]; exact hr.layers) (by rw [← e3]; exact hr.dflt)
            (by rw [h.board.layerCount]; exact h.board.dfltOk) hpf
          obtain ⟨m', rfl⟩ : ∃ k, m' = k + 1 := ⟨m' - 1, by omega⟩
          have hproc : processInputN ⟨system K, refs, S⟩ (n + 8) km (.press i) =
              pressLoop ⟨system K, refs, S⟩ (handleEvent ⟨system K, refs, S⟩ (n + 8)) i (m' + 1) km1 r >>=
                fun km => drain (handleEvent ⟨system K, refs, S⟩ (n + 8)) (n + 8) km := by
            rw [hproc, if_neg hh, hri]
            simp only [Res.ok_bind]
            rw [hloop]
          rw [hpick] at hkind
          have hni1 : i ∉ s1.held.filterMap Slot.index := by rw [e1]; exact hni
          have hl1 : s1.held.length < 16 := by rw [e1]; exact h16
          have hpl : km1.pressed.length < 16 := by rw [hr.held.length]; exact hl1
          have hgl : (letGoEvents gone).length ≤ 4 := by simpa [letGoEvents] using h4
          rcases kindOf_cases hkind with ⟨c, hc, _⟩ | ⟨j, m, _, _, hc⟩ | ⟨_, hc⟩ | ⟨j, k, kos', rfl, hj, hw, hrel, hstr, hc⟩
          · cases hc
          · cases hc
          · cases hc
          · cases hc
            have hji : Res.index K.automation j = .ok k := by simpa using hj
            obtain ⟨_, hxl⟩ := Automation.stringOf_ne hstr
            have hxe : k.onPress.isEmpty = false := by simp [Automation.Execution.isEmpty]; omega
            have hpush := hr.push (i := i) (p := .key i (.automation j) .automation) (a := .string kos) (u := false)
              (.string hj hw hrel hstr) hni1 hl1 trivial
            have hpc : pushCap maxPressedKeys km1.pressed (.key i (.automation j) .automation) = .ok (km1.pressed ++ [.key i (.automation j) .automation]) := by
              rw [pushCap_eq_ok]; exact ⟨hpl, rfl⟩
            obtain ⟨e, he⟩ : ∃ e : Event Ev, e = .key i (.automation (.enqueue k.onPress)) := ⟨_, rfl⟩
            have hpl' : pressLoop ⟨system K, refs, S⟩ (handleEvent ⟨system K, refs, S⟩ (n + 8)) i (m' + 1) km1 (.automation j) =
                .ok { km1 with
                  pressed := km1.pressed ++ [.key i (.automation j) .automation]
                  sched := { km1.sched with pending := km1.sched.pending ++ [e].map some } } := by
              rw [pressLoop, show (system K).newPressedKey i km1.ctx (.automation j) = newPressedKey K i km1.ctx (.automation j) from rfl]
              simp only [newPressedKey, Automation.sysNewPressedKey, hji, Res.ok_bind, Res.pure_eq, hxe, Bool.false_eq_true, if_false]
              have : KeyEvents.mapEv Ev.automation [SchEv.imm (.key i (.enqueue k.onPress))] = [e].map SchEv.imm := by rw [he]; rfl
              rw [this]
              rw [scheduleAll_imms S km1.sched [e] (by rw [hq1, List.length_map]; simp only [List.length_cons, List.length_nil]; omega)]
              simp only [Res.ok_bind, hpc]
              rfl
            obtain ⟨km3, a1, a2, a3⟩ := VRel.letGo (refs := refs) (S := S) gone
              (km := { km1 with
                pressed := km1.pressed ++ [.key i (.automation j) .automation]
                sched := { km1.sched with pending := km1.sched.pending ++ [e].map some } }) (q := [some e]) hpush hp1 (by rw [hq1]; rfl) (by simp; omega)
            simp only [letGo_snoc] at a3
            have hp3 : km3.pend = none := by rw [a1.1.pend]; exact hp1
            have hf3 : Frame km km3 := hf.trans (Frame.trans ⟨_, _, _, _, rfl, rfl, rfl⟩ a1.1)
            have hm3 := h.frame hf3 a3
            rw [he] at a2
            have hheld : ({ s1 with held := Virt.letGo gone s1.held ++ [Slot.key i (.string kos) false] } : Virt.State) =
                { (if mode = .onNextPress ∧ s.board.modified.isSome then s.board.unstick else s.board) with
                  held := (if mode = .onNextPress ∧ s.board.modified.isSome then s.board.unstick else s.board).held ++ [Slot.key i (.string kos) false] } := by
              rw [← e5]
            rw [hheld] at hm3
            obtain ⟨km4, kk, b1, b2, b3, b4⟩ := MRel.enqueue (refs := refs) (S := S) hm3 hA hstr hp3 a2 ht hs
            refine ⟨km4, ?_, hf3.toM.trans b1.1, b3, ?_⟩
            · rw [hproc, hpl']
              exact (a1.2 _ _ (b1.2 0 km4 (.done b3))).sound.2 _ _ (by omega) (by omega)
            · rw [request_index hs, ← hheld]
              simp only [index_snoc, index_letGo]
              rw [← e1] at b4
              exact b4
        · cases ha
    · cases hs

/-- The firmware between two calls, `t` milliseconds after the start. -/
structure MSimQ (K : Keys) (A : Automation.Config) (count ms : Nat) (mode : Mode) (t : Nat) (km : CKM) (m : Macro.Queued) : Prop where
  rel : MRel K A count mode km m.state (m.state.board.held.filterMap Slot.index)
  pend : km.pend = none
  pending : km.sched.pending = []
  inq : km.inq = m.queue
  delay : km.delay = m.delay
  clock : m.state.clock = t
  idle : km.idle ≤ t
  ms : km.msPerTick = ms
  phys : ∀ e ∈ m.queue, isPhysical e = true

theorem after_clock {s s' : Macro.State} {d : Nat} {x : Timer} (h : s.after S d x = some s') : s'.clock = s.clock := by
  unfold Macro.State.after at h
  split at h
  · simp only [Option.some.injEq] at h; subst h; rfl
  · cases h

theorem letter_clock {s s' : Macro.State} {d i : Nat} (h : s.letter S d i = some s') : s'.clock = s.clock := by
  unfold Macro.State.letter at h
  split at h
  · simp only [Option.bind_eq_some_iff] at h
    obtain ⟨s1, a1, s2, a2, s3, a3, a4⟩ := h
    have h3 : s3.clock = s2.clock := by
      split at a3
      · exact after_clock a3
      · simp only [Option.some.injEq] at a3; subst a3; rfl
    have hb : s3.clock = s.clock := by rw [h3, after_clock a2, after_clock a1]
    unfold Macro.State.down at a4
    split at a4
    · simp only [Option.some.injEq] at a4
      subst a4
      exact hb
    · cases a4
  · simp only [Option.some.injEq] at h
    subst h
    rfl

theorem request_clock {s s' : Macro.State} {d i : Nat} {kos : List KeyOutput} (h : s.request S d i kos = some s') : s'.clock = s.clock := by
  unfold Macro.State.request at h
  split at h
  · exact letter_clock (s := { s with strings := [kos], asked := s.asked ++ kos }) h
  · split at h <;> simp only [Option.some.injEq] at h <;> subst h <;> rfl

theorem input_clock {s s' : Macro.State} {d : Nat} {e : InputEvent} (h : s.input S d layout mode e = some s') : s'.clock = s.clock := by
  cases e with
  | press i =>
    simp only [Macro.State.input] at h
    unfold Macro.State.press at h
    split at h
    · split at h
      · have := request_clock h
        exact this
      · cases h
    · simp only [Option.map_eq_some_iff] at h
      obtain ⟨b, _, rfl⟩ := h
      rfl
  | release i =>
    simp only [Macro.State.input, Option.some.injEq] at h
    subst h
    rfl
  | vpress ko => cases h
  | vrelease ko => cases h

theorem fire_clock {s s' : Macro.State} {d : Nat} {x : Timer} (h : s.fire S d x = some s') : s'.clock = s.clock := by
  cases x with
  | up ko =>
    simp only [Macro.State.fire, Option.some.injEq] at h
    subst h
    rfl
  | next i => exact letter_clock h
  | done i =>
    simp only [Macro.State.fire, Option.some.injEq] at h
    subst h
    rfl

theorem MSimQ.take (hlay : virtLayoutOf K A refs = some layout) (hfit : ∀ e ∈ layout, e.Fits count) (hlen : layout.length ≤ 65535)
    (hA : A.instructions.length ≤ 65535) {t : Nat} (ht : t + A.duration < u32Size)
    {km : CKM} {s : Macro.State} {d : Nat} {e : InputEvent} {q : List InputEvent} (h : MSimQ K A count ms mode t km ⟨s, q, d⟩) (he : isPhysical e = true)
    {m : Macro.Queued} (hm : Macro.Queued.take S A.duration layout mode s (e :: q) = some m) :
    ∃ km', processInputN ⟨system K, refs, S⟩ (n + 8) km e = .ok km' ∧ MSimQ K A count ms mode t { km' with delay := 1 } m := by
  simp only [Macro.Queued.take, Option.map_eq_some_iff] at hm
  obtain ⟨s', hs', rfl⟩ := hm
  have hck : s.clock = t := h.clock
  have key : MTakes K A count mode km s' (processInputN ⟨system K, refs, S⟩ (n + 8) km e) := by
    cases e with
    | press i => exact mprocess_press hlay hfit hlen hA h.rel h.pend h.pending (by rw [hck]; exact ht) hs'
    | release j =>
      cases hs'
      obtain ⟨km', a1, a2, a3, a4⟩ := vprocess_release (refs := refs) (S := S) (n := n + 1) h.rel.board h.pend h.pending j
      exact ⟨km', a1, a2.toM, a3, h.rel.frame a2 a4⟩
    | vpress ko => simp [isPhysical] at he
    | vrelease ko => simp [isPhysical] at he
  obtain ⟨km', h1, ⟨ctx, ps, f, sch, rfl⟩, h3, h4⟩ := key
  exact ⟨_, h1, ⟨h4.board, h4.config, h4.strings, h4.timers, h4.clock⟩, h.pend, h3, h.inq, rfl, (input_clock hs').trans hck, h.idle, h.ms, h.phys⟩

theorem MSimQ.input (hlay : virtLayoutOf K A refs = some layout) (hfit : ∀ e ∈ layout, e.Fits count) (hlen : layout.length ≤ 65535)
    (hA : A.instructions.length ≤ 65535) {t : Nat} (ht : t + A.duration < u32Size)
    {km : CKM} {m m' : Macro.Queued} {e : InputEvent} (h : MSimQ K A count ms mode t km m) (he : isPhysical e = true)
    (hm : m.input S A.duration layout mode e = some m') :
    ∃ km', handleInput ⟨system K, refs, S⟩ (n + 8) km e = .ok km' ∧ MSimQ K A count ms mode t km' m' := by
  obtain ⟨s, q, d⟩ := m
  obtain ⟨hrel, hpend, hpending, hinq, hdel, hck, hidle, hms, hphys⟩ := h
  simp only at hrel hinq hdel hphys hck
  subst hinq hdel
  unfold Macro.Queued.input at hm
  unfold handleInput
  simp only [inputCap]
  by_cases hq : km.inq.length ≥ 31
  · simp only [hq, if_true] at hm ⊢
    cases hm
    exact ⟨_, rfl, ⟨hrel.board, hrel.config, hrel.strings, hrel.timers, hrel.clock⟩, hpend, hpending, rfl, rfl, hck, Nat.zero_le _, hms, hphys⟩
  · simp only [hq, if_false] at hm ⊢
    have hphys' : ∀ x ∈ km.inq ++ [e], isPhysical x = true := by
      intro x hx
      simp only [List.mem_append, List.mem_cons, List.not_mem_nil, or_false] at hx
      rcases hx with hx | rfl
      · exact hphys x hx
      · exact he
    by_cases hd : km.delay = 0
    · simp only [hd, if_true] at hm ⊢
      obtain ⟨e', q', hcons⟩ : ∃ e' q', km.inq ++ [e] = e' :: q' := by cases km.inq <;> exact ⟨_, _, rfl⟩
      rw [hcons] at hphys' hm ⊢
      have hs2 : MSimQ K A count ms mode t { km with idle := 0, delay := 0, inq := q', log := km.log ++ [e'] } ⟨s, q', 0⟩ :=
        ⟨⟨hrel.board, hrel.config, hrel.strings, hrel.timers, hrel.clock⟩, hpend, hpending, rfl, rfl, hck, Nat.zero_le _, hms,
          fun x hx => hphys' x (List.mem_cons_of_mem _ hx)⟩
      obtain ⟨km', hk, hs'⟩ := hs2.take (S := S) (n := n) hlay hfit hlen hA ht (hphys' e' List.mem_cons_self) hm
      refine ⟨{ km' with delay := inputDelay }, ?_, hs'⟩
      simp only
      rw [hk]
      rfl
    · simp only [hd, if_false] at hm ⊢
      cases hm
      exact ⟨_, rfl, ⟨hrel.board, hrel.config, hrel.strings, hrel.timers, hrel.clock⟩, hpend, hpending, rfl, rfl, hck, Nat.zero_le _, hms, hphys'⟩

theorem MSimQ.tick (hlay : virtLayoutOf K A refs = some layout) (hfit : ∀ e ∈ layout, e.Fits count) (hlen : layout.length ≤ 65535)
    (hA : A.instructions.length ≤ 65535) {t : Nat} (ht : t + ms + A.duration < u32Size)
    {km : CKM} {m m' : Macro.Queued} (h : MSimQ K A count ms mode t km m) (hm : m.tick S A.duration ms layout mode = some m') :
    ∃ km', Verif.tick ⟨system K, refs, S⟩ (n + 8) km = .ok km' ∧ MSimQ K A count ms mode (t + ms) km' m' := by
  obtain ⟨km1, hkm1⟩ : ∃ km1 : CKM, km1 = { km with ctx := km.ctx.setKeymapContext km.sched.counter km.idle } := ⟨_, rfl⟩
  have h1 : MSimQ K A count ms mode t km1 m := by
    subst hkm1
    obtain ⟨⟨b, c, st, ti, ck⟩, h2, h3, h4, h5, h6, h7, h8, h9⟩ := h
    exact ⟨⟨⟨b.held, b.nodup, b.len, b.active, b.modified, b.mode, b.four, b.caps, b.layers, b.dflt,
      b.layerCount, b.dfltOk, b.fits, b.idle.setIdle _⟩, c, st, ti, ck⟩, h2, h3, h4, h5, h6, h7, h8, h9⟩
  -- the clock, after the input of the tick
  have clock : ∀ (km2 : CKM) (m2 : Macro.Queued) (s3 : Macro.State), MSimQ K A count ms mode t km2 m2 → m2.state.advance S A.duration ms = some s3 →
      ∃ km', (do
        let s ← km2.sched.tick km2.msPerTick
        let km ← drainN ⟨system K, refs, S⟩ (n + 8) { km2 with delay := km2.delay - 1, sched := s }
        if km.idle + km.msPerTick < u32Size then pure { km with idle := km.idle + km.msPerTick } else .panic .arith) = Res.ok km' ∧
      MSimQ K A count ms mode (t + ms) km' ⟨s3, m2.queue, m2.delay - 1⟩ := by
    intro km2 m2 s3 h2 hadv
    have hck := h2.clock
    have hc : km2.sched.counter = t := h2.rel.clock.trans hck
    have hms := h2.ms
    have hidle := h2.idle
    suffices hsuff : ∃ sch km3 : _, km2.sched.tick km2.msPerTick = .ok sch ∧
        drainN ⟨system K, refs, S⟩ (n + 8) { km2 with delay := km2.delay - 1, sched := sch } = .ok km3 ∧
        MFrame { km2 with delay := km2.delay - 1, sched := sch } km3 ∧ km3.sched.pending = [] ∧
        MRel K A count mode km3 s3 (s3.board.held.filterMap Slot.index) ∧ s3.clock = t + ms by
      obtain ⟨sch, km3, a1, a2, ⟨ctx, ps, f, sch', hk3⟩, a4, a5, a6⟩ := hsuff
      have i1 : km3.idle = km2.idle := by rw [hk3]
      have i2 : km3.msPerTick = km2.msPerTick := by rw [hk3]
      have i3 : km3.pend = km2.pend := by rw [hk3]
      have i4 : km3.inq = km2.inq := by rw [hk3]
      have i5 : km3.delay = km2.delay - 1 := by rw [hk3]
      refine ⟨{ km3 with idle := km3.idle + km3.msPerTick }, ?_, ?_⟩
      · simp only [a1, Res.ok_bind, a2]
        rw [if_pos (by omega)]
        rfl
      · exact ⟨⟨a5.board, a5.config, a5.strings, a5.timers, a5.clock⟩, by rw [← h2.pend]; exact i3, a4, by rw [← h2.inq]; exact i4,
          by show km3.delay = m2.delay - 1; rw [i5, h2.delay], a6,
          by show km3.idle + km3.msPerTick ≤ t + ms; omega, i2.trans h2.ms, h2.phys⟩
    have hu : km2.sched.counter + km2.msPerTick < u32Size := by rw [hc, hms]; omega
    have hrel := h2.rel
    unfold Macro.State.advance at hadv
    split at hadv
    · rename_i tt x rest htm
      have hsc : km2.sched.scheduled = timed (tt, x) :: rest.map timed := by rw [hrel.timers, htm]; rfl
      split at hadv
      · rename_i hdue
        have hst : km2.sched.tick km2.msPerTick =
            .ok { km2.sched with counter := km2.sched.counter + km2.msPerTick, scheduled := rest.map timed, pending := [some (timerEvent x)] } := by
          simp only [Sched.tick, hu, if_true, hsc]
          rw [if_pos (by show tt ≤ _; rw [hc, hms]; omega)]
          simp only [Sched.enqueue, h2.pending]
          rfl
        have hrel' : MRel K A count mode { km2 with
            delay := km2.delay - 1
            sched := { km2.sched with counter := km2.sched.counter + km2.msPerTick, scheduled := rest.map timed, pending := [some (timerEvent x)] } }
            { m2.state with clock := m2.state.clock + ms, timers := rest } (m2.state.board.held.filterMap Slot.index) :=
          ⟨hrel.board, hrel.config, hrel.strings, rfl, by show km2.sched.counter + km2.msPerTick = m2.state.clock + ms; rw [hrel.clock, hms]⟩
        obtain ⟨km3, k, b1, b2, b3, b4⟩ := hrel'.fire (refs := refs) (S := S) hA h2.pend rfl (by show m2.state.clock + ms + A.duration < u32Size; omega)
          hrel.board.nodup hadv
        refine ⟨_, km3, hst, ?_, b1.1, b3, ?_, ?_⟩
        · exact (b1.2 0 km3 (.done b3)).sound.2 _ _ (by omega) (by omega)
        · rw [fire_index hadv]; exact b4
        · rw [fire_clock hadv]; show m2.state.clock + ms = _; rw [hck]
      · rename_i hdue
        simp only [Option.some.injEq] at hadv
        subst hadv
        have hst : km2.sched.tick km2.msPerTick = .ok { km2.sched with counter := km2.sched.counter + km2.msPerTick } := by
          simp only [Sched.tick, hu, if_true, hsc]
          rw [if_neg (by show ¬ tt ≤ _; rw [hc, hms]; omega)]
        refine ⟨_, _, hst, drain_empty h2.pending, ⟨_, _, _, _, rfl⟩, h2.pending, ?_, by show m2.state.clock + ms = _; rw [hck]⟩
        exact ⟨hrel.board, hrel.config, hrel.strings, hrel.timers, by show km2.sched.counter + km2.msPerTick = m2.state.clock + ms; rw [hrel.clock, hms]⟩
    · rename_i htm
      simp only [Option.some.injEq] at hadv
      subst hadv
      have hsc : km2.sched.scheduled = [] := by rw [hrel.timers, htm]; rfl
      have hst : km2.sched.tick km2.msPerTick = .ok { km2.sched with counter := km2.sched.counter + km2.msPerTick } := by
        simp only [Sched.tick, hu, if_true, hsc]
      refine ⟨_, _, hst, drain_empty h2.pending, ⟨_, _, _, _, rfl⟩, h2.pending, ?_, by show m2.state.clock + ms = _; rw [hck]⟩
      exact ⟨hrel.board, hrel.config, hrel.strings, hrel.timers, by show km2.sched.counter + km2.msPerTick = m2.state.clock + ms; rw [hrel.clock, hms]⟩
  have htick : Verif.tick ⟨system K, refs, S⟩ (n + 8) km = (tickInput ⟨system K, refs, S⟩ (n + 8) km1 >>= fun km2 => do
        let s ← km2.sched.tick km2.msPerTick
        let km ← drainN ⟨system K, refs, S⟩ (n + 8) { km2 with delay := km2.delay - 1, sched := s }
        if km.idle + km.msPerTick < u32Size then pure { km with idle := km.idle + km.msPerTick } else .panic .arith) := by
    subst hkm1; rfl
  rw [htick]
  simp only [Macro.Queued.tick, Option.bind_eq_some_iff, Option.map_eq_some_iff] at hm
  obtain ⟨m2, hm2, s3, hs3, rfl⟩ := hm
  unfold Macro.Queued.taken at hm2
  by_cases hc : m.delay = 0 ∧ m.queue ≠ []
  · rw [if_pos hc] at hm2
    cases hq : m.queue with
    | nil => exact absurd hq hc.2
    | cons e q =>
      rw [hq] at hm2
      have hphys : ∀ x ∈ e :: q, isPhysical x = true := by rw [← hq]; exact h.phys
      have hr1 := h1.rel
      have hs2 : MSimQ K A count ms mode t { km1 with inq := q, log := km1.log ++ [e] } ⟨m.state, q, 0⟩ :=
        ⟨⟨hr1.board, hr1.config, hr1.strings, hr1.timers, hr1.clock⟩, h1.pend, h1.pending, rfl, by rw [← hc.1]; exact h1.delay, h1.clock, h1.idle, h1.ms,
          fun x hx => hphys x (by simp [hx])⟩
      have hti : tickInput ⟨system K, refs, S⟩ (n + 8) km1 =
          (processInputN ⟨system K, refs, S⟩ (n + 8) { km1 with inq := q, log := km1.log ++ [e] } e >>= fun km => .ok { km with delay := inputDelay }) := by
        unfold tickInput
        rw [h1.inq, hq]
        simp only
        rw [if_pos (by rw [h1.delay]; exact hc.1)]
        rfl
      rw [hti]
      obtain ⟨km', hk, hs'⟩ := hs2.take (S := S) (n := n) hlay hfit hlen hA (by omega) (hphys e (by simp)) hm2
      obtain ⟨km'', hk2, hs''⟩ := clock _ _ _ hs' hs3
      refine ⟨km'', ?_, hs''⟩
      rw [hk]; simp only [Res.ok_bind]; exact hk2
  · rw [if_neg hc] at hm2
    cases hm2
    have hti : tickInput ⟨system K, refs, S⟩ (n + 8) km1 = .ok km1 := by
      unfold tickInput
      rw [h1.inq]
      cases hq : m.queue with
      | nil => rfl
      | cons e q =>
        simp only
        rw [if_neg]
        rw [h1.delay]
        intro hd
        exact hc ⟨hd, by rw [hq]; simp⟩
    rw [hti]
    exact clock km1 m s3 h1 hs3

theorem MSimQ.run (hlay : virtLayoutOf K A refs = some layout) (hfit : ∀ e ∈ layout, e.Fits count) (hlen : layout.length ≤ 65535)
    (hA : A.instructions.length ≤ 65535) (calls : List Board.Call) {t : Nat} {km : CKM} {m m' : Macro.Queued} (h : MSimQ K A count ms mode t km m)
    (hp : ∀ e ∈ eventsIn calls, isPhysical e = true) (ht : t + ticksIn calls * ms + A.duration < u32Size)
    (hm : m.run S A.duration ms layout mode calls = some m') :
    ∃ km', Verif.run ⟨system K, refs, S⟩ (n + 8) km (calls.map toOp) = .ok km' ∧ MSimQ K A count ms mode (t + ticksIn calls * ms) km' m' := by
  induction calls generalizing t km m with
  | nil => cases hm; exact ⟨km, rfl, by simpa [ticksIn] using h⟩
  | cons c cs ih =>
    cases c with
    | input e =>
      simp only [eventsIn, List.mem_cons, forall_eq_or_imp] at hp
      simp only [ticksIn] at ht ⊢
      simp only [Macro.Queued.run, Macro.Queued.step, Option.bind_eq_some_iff] at hm
      obtain ⟨m1, h1, h2⟩ := hm
      obtain ⟨km1, k1, k2⟩ := h.input (S := S) (n := n) hlay hfit hlen hA (by omega) hp.1 h1
      obtain ⟨km', i1, i2⟩ := ih k2 hp.2 ht h2
      refine ⟨km', ?_, i2⟩
      simp only [List.map_cons, toOp, Verif.run, step, k1, Res.ok_bind]
      exact i1
    | tick =>
      simp only [ticksIn, Nat.succ_mul] at ht ⊢
      simp only [Macro.Queued.run, Macro.Queued.step, Option.bind_eq_some_iff] at hm
      obtain ⟨m1, h1, h2⟩ := hm
      obtain ⟨km1, k1, k2⟩ := h.tick (S := S) (n := n) hlay hfit hlen hA (by omega) h1
      obtain ⟨km', i1, i2⟩ := ih k2 hp (by omega) h2
      refine ⟨km', ?_, by rw [show t + (ticksIn cs * ms + ms) = (t + ms) + ticksIn cs * ms by omega]; exact i2⟩
      simp only [List.map_cons, toOp, Verif.run, step, k1, Res.ok_bind]
      exact i1
    | report =>
      have hk : km.pressedKeys ⟨system K, refs, S⟩ = .ok m.state.board.outputs := h.rel.board.held.outputs
      have hr := h.rel
      have h' : MSimQ K A count ms mode t { km with rep := (km.rep.report m.state.board.outputs).1 } m :=
        ⟨⟨hr.board, hr.config, hr.strings, hr.timers, hr.clock⟩, h.pend, h.pending, h.inq, h.delay, h.clock, h.idle, h.ms, h.phys⟩
      obtain ⟨km', i1, i2⟩ := ih h' hp ht hm
      refine ⟨km', ?_, i2⟩
      simp only [List.map_cons, toOp, Verif.run, step, reportOutput, hk, Res.ok_bind, Res.pure_eq]
      exact i1

theorem MSimQ.start {c : Config} (h : c.chorded.maxPressed = 0 ∨ 16 ≤ c.chorded.maxPressed) :
    MSimQ K c.automation c.layerCount ms (modeOf c.sticky) 0 ((KM.new (Comp.Ctx.fromConfig c)).setMsPerTick ms) (Macro.Queued.new c.layerCount) := by
  obtain ⟨hr, h2, h3, h4, h5, h6, h7, h8, h9, h10⟩ := VSimQ.start (K := K) h
  exact ⟨⟨hr, rfl, ⟨[], ⟨rfl, by simp, by simp⟩, rfl⟩, rfl, rfl⟩, h2, h3, h4, h5, rfl, h8, rfl, by simp [Macro.Queued.new]⟩

end Verif.Comp
