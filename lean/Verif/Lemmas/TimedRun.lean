import Verif.Lemmas.TimedStep
import Verif.Props.Board

/-!
# The keymap with tap-hold keys follows the board
-/

namespace Verif.Comp

open Board Timed

/-! ## Cancelled events -/

theorem cancel_times (s : Sched Ev) (i : Nat) : (s.cancel i).scheduled.map Verif.Timed.time = s.scheduled.map Verif.Timed.time := by
  simp only [Sched.cancel, List.map_map]
  apply List.map_congr_left
  intro e _
  simp only [Function.comp, Sched.cancelOne]
  split
  · split <;> rfl
  · rfl

theorem cancelOne_dead {i : Nat} {e : Verif.Timed Ev} (h : e.live = false) : (Sched.cancelOne i e).live = false := by
  unfold Sched.cancelOne
  split
  · split
    · rfl
    · exact h
  · exact h

/-- The timer of a waiting key. -/
def timerOf (w : Waiting) : Verif.Timed Ev := ⟨w.deadline, .key w.key (.tapHold .timeout), true⟩

theorem cancel_all {s : Sched Ev} {w : Waiting} (h : ∀ e ∈ s.scheduled, e.live = true → e = timerOf w) :
    ∀ e ∈ (s.cancel w.key).scheduled, e.live = false := by
  intro e he
  simp only [Sched.cancel, List.mem_map] at he
  obtain ⟨e', he', rfl⟩ := he
  cases hl : e'.live with
  | false => exact cancelOne_dead hl
  | true =>
    rw [h e' he' hl]
    simp [timerOf, Sched.cancelOne]

/-! ## Decision of a waiting key -/

theorem ctx_tapHold (c : Ctx) (i : Nat) (e : TapHold.Ev) : c.handleEvent (.key i (.tapHold e)) = .ok (c, []) := by
  unfold Ctx.handleEvent sub
  simp only [Event.tryInto, Ev.toAutomation?, Ev.toCapsWord?, Ev.toChorded?, Ev.toLayered?, Ev.toSticky?, Option.map_none,
    Res.ok_bind, Res.pure_eq, KeyEvents.extend]

/-- A waiting key and the keymap's pending key. -/
structure WaitsFor (K : Keys) (count : Nat) (km : CKM) (b : Board.State) (w : Waiting) : Prop where
  key : ∃ k key, km.pend = some ⟨w.key, .tapHold k, .tapHold ⟨w.other⟩, w.seen.map Event.input⟩ ∧ K.tapHold[k]? = some key ∧
    cellOf K key.tap = some w.tap ∧ cellOf K key.hold = some w.hold
  tapFits : w.tap.Fits count
  holdFits : w.hold.Fits count
  notHeld : w.key ∉ b.held.map Prod.fst
  room : b.held.length < 16
  core : Core K count km b (b.held.map Prod.fst ++ [w.key])
  timer : timerOf w ∈ km.sched.scheduled
  live : ∀ e ∈ km.sched.scheduled, e.live = true → e = timerOf w
  phys : ∀ e ∈ w.seen, isPhysical e = true

/-- The pending key of the keymap. -/
def Waits (K : Keys) (count : Nat) (km : CKM) (b : Board.State) : Option Waiting → Prop
  | none => km.pend = none ∧ Core K count km b (b.held.map Prod.fst) ∧ ∀ e ∈ km.sched.scheduled, e.live = false
  | some w => WaitsFor K count km b w

/-- The keymap is in the state of the board. -/
structure TCore (K : Keys) (cfg : TapHold.Config) (count ms : Nat) (km : CKM) (s : Timed.State) : Prop where
  wait : Waits K count km s.board s.waiting
  inq : km.inq = s.queue
  delay : km.delay = s.delay
  counter : km.sched.counter = s.clock
  idle : km.idle = s.idle
  idleLe : s.idle ≤ s.clock
  th : km.ctx.tapHold = ⟨cfg, s.idleSeen⟩
  msEq : km.msPerTick = ms
  times : km.sched.scheduled.map Verif.Timed.time = s.timers
  spaced : s.timers.Pairwise (fun a b => a + ms ≤ b)
  future : ∀ t ∈ s.timers, s.clock < t
  phys : ∀ e ∈ s.queue, isPhysical e = true

theorem Waits.congr {K : Keys} {count : Nat} {km km' : CKM} {b : Board.State} {w : Option Waiting} (h : Waits K count km b w)
    (h1 : km'.pend = km.pend) (h2 : km'.pressed = km.pressed) (h3 : km'.ctx = km.ctx) (h4 : km'.sched.pending = km.sched.pending)
    (h5 : km'.sched.scheduled = km.sched.scheduled) : Waits K count km' b w := by
  cases w with
  | none => exact ⟨h1.trans h.1, h.2.1.congr h4 h2 h3, by rw [h5]; exact h.2.2⟩
  | some w =>
    have h : WaitsFor K count km b w := h
    exact ⟨by rw [h1]; exact h.key, h.tapFits, h.holdFits, h.notHeld, h.room, h.core.congr h4 h2 h3, by rw [h5]; exact h.timer,
      by rw [h5]; exact h.live, h.phys⟩

variable {K : Keys} {refs : List Ref} {S : Search} {cfg : TapHold.Config} {count ms n : Nat} {layout : List Pos}

/-- The key a decision stands for. -/
def Waiting.choice (w : Waiting) : TapHold.State → Cell
  | .tap => w.tap
  | .hold => w.hold

theorem decided_eq (w : Waiting) (c : TapHold.Ctx) (hc : c.config = cfg) (e : InputEvent) :
    ∃ st, TapHold.PKS.handleEvent ⟨w.other⟩ c w.key (.input e) = (⟨(w.see e).other⟩, st) ∧
      w.decided (rulesOf cfg ms) e = st.map (Waiting.choice w) := by
  refine ⟨_, Prod.ext ?_ rfl, ?_⟩
  · cases e <;> rfl
  · cases hir : cfg.interruptResponse <;> cases e <;>
      simp only [TapHold.PKS.handleEvent, hc, hir, TapHold.PKS.holdResolution, Waiting.decided, rulesOf] <;> try rfl
    all_goals
      rename_i j
      by_cases hj : j = w.key
      · subst hj; simp [Waiting.choice]
      · have hj' : ¬ w.key = j := fun h => hj h.symm
        by_cases ho : w.other = some j
        · simp [hj, hj', ho, Waiting.choice]
        · have ho' : ¬ some j = w.other := fun h => ho h.symm
          simp [hj, hj', ho, ho', Waiting.choice]

/-- An input event and the waiting key. -/
theorem decides {w : Waiting} {c : Ctx} {k : Nat} {key : TapHold.Key Ref} (hk : K.tapHold[k]? = some key) (hc : c.tapHold.config = cfg)
    (ht : cellOf K key.tap = some w.tap) (hh : cellOf K key.hold = some w.hold) (e : InputEvent) :
    (w.decided (rulesOf cfg ms) e = none →
      updatePending K (.tapHold ⟨w.other⟩) w.key c (.tapHold k) (.input e) = .ok (.tapHold ⟨(w.see e).other⟩, none, [])) ∧
    (∀ cl, w.decided (rulesOf cfg ms) e = some cl → ∃ r, cellOf K r = some cl ∧ (cl = w.tap ∨ cl = w.hold) ∧
      updatePending K (.tapHold ⟨w.other⟩) w.key c (.tapHold k) (.input e) = .ok (.tapHold ⟨(w.see e).other⟩, some (.key r), [])) := by
  have hi : Res.index K.tapHold k = .ok key := by simpa using hk
  obtain ⟨st, h1, h2⟩ := decided_eq (ms := ms) w c.tapHold hc e
  rw [h2]
  simp only [updatePending, Event.tryInto, TapHold.updatePending, h1]
  cases st with
  | none => exact ⟨fun _ => rfl, fun cl h => by simp at h⟩
  | some st =>
    refine ⟨fun h => by simp at h, ?_⟩
    intro cl hcl
    simp only [Option.map_some, Option.some.injEq] at hcl
    subst hcl
    cases st with
    | tap => exact ⟨key.tap, ht, .inl rfl, by simp only [hi, Res.ok_bind, Res.pure_eq, KeyEvents.mapEv, List.map_nil]⟩
    | hold => exact ⟨key.hold, hh, .inr rfl, by simp only [hi, Res.ok_bind, Res.pure_eq, KeyEvents.mapEv, List.map_nil]⟩

/-- The timer and the waiting key. -/
theorem timeout_decides {w : Waiting} {c : Ctx} {k : Nat} {key : TapHold.Key Ref} (hk : K.tapHold[k]? = some key) (i : Nat) :
    updatePending K (.tapHold ⟨w.other⟩) w.key c (.tapHold k) (.key i (.tapHold .timeout)) = .ok (.tapHold ⟨w.other⟩, some (.key key.hold), []) := by
  have hi : Res.index K.tapHold k = .ok key := by simpa using hk
  have : TapHold.PKS.handleEvent ⟨w.other⟩ c.tapHold w.key (.key i .timeout) = (⟨w.other⟩, some .hold) := by
    unfold TapHold.PKS.handleEvent TapHold.PKS.holdResolution
    cases c.tapHold.config.interruptResponse <;> rfl
  simp only [updatePending, Event.tryInto, Ev.toTapHold?, Option.map_some, TapHold.updatePending, this, hi, Res.ok_bind, Res.pure_eq,
    KeyEvents.mapEv, List.map_nil]

theorem kept_phys {w : Waiting} (h : ∀ e ∈ w.seen, isPhysical e = true) : ∀ e ∈ w.kept, isPhysical e = true := by
  intro e he
  simp only [Waiting.kept, List.mem_append, List.mem_filter, Option.mem_toList] at he
  rcases he with he | he
  · exact h e he.1
  · exact h e (List.mem_filter.1 (List.mem_of_getLast? he)).1

/-- The keymap while a key waits, except that its timer may be gone. -/
structure TWait (K : Keys) (cfg : TapHold.Config) (count ms : Nat) (km : CKM) (s : Timed.State) (w : Waiting) : Prop where
  notHeld : w.key ∉ s.board.held.map Prod.fst
  room : s.board.held.length < 16
  core : Core K count km s.board (s.board.held.map Prod.fst ++ [w.key])
  live : ∀ e ∈ km.sched.scheduled, e.live = true → e = timerOf w
  inq : km.inq = s.queue
  delay : km.delay = s.delay
  counter : km.sched.counter = s.clock
  idle : km.idle = s.idle
  idleLe : s.idle ≤ s.clock
  th : km.ctx.tapHold = ⟨cfg, s.idleSeen⟩
  msEq : km.msPerTick = ms
  times : km.sched.scheduled.map Verif.Timed.time = s.timers
  spaced : s.timers.Pairwise (fun a b => a + ms ≤ b)
  future : ∀ t ∈ s.timers, s.clock < t
  phys : ∀ e ∈ s.queue, isPhysical e = true

theorem TCore.twait {km : CKM} {s : Timed.State} {w : Waiting} (h : TCore K cfg count ms km s) (hw : s.waiting = some w) :
    TWait K cfg count ms km s w := by
  have hwf : WaitsFor K count km s.board w := by have := h.wait; rw [hw] at this; exact this
  exact ⟨hwf.notHeld, hwf.room, hwf.core, hwf.live, h.inq, h.delay, h.counter, h.idle, h.idleLe, h.th, h.msEq, h.times, h.spaced, h.future, h.phys⟩

/-- The waiting key is decided. -/
theorem TWait.settle {km : CKM} {s s' : Timed.State} {w w' : Waiting} (h : TWait K cfg count ms km s w)
    (hkey : w'.key = w.key) (hph : ∀ e ∈ w'.seen, isPhysical e = true) {p : Pending Ref Ev PKS} (hi : p.idx = w.key)
    (hq : p.queued = w'.seen.map Event.input) {r : Ref} {c : Cell} (hr : cellOf K r = some c) (hf : c.Fits count)
    (hs : s.settle w' c = some s') (N m : Nat) :
    ∃ km', pendLoop ⟨system K, refs, S⟩ (handleEvent ⟨system K, refs, S⟩ (n + 1)) (N + 2) (m + 1) { km with pend := some p } p (.key r) = .ok km' ∧
      TCore K cfg count ms km' s' ∧ s'.timers = s.timers ∧ s'.clock = s.clock ∧ s'.delay = s.delay ∧ km'.sched.pending = [] ∧
      s'.waiting = none := by
  unfold State.settle at hs
  split at hs
  · rename_i h31
    cases hs
    obtain ⟨l, f, h1, h2⟩ := settle_cell (K := K) (refs := refs) (S := S) (n := n) (m := m) (N := N) (km := { km with pend := some p }) (w := w')
      (p := p) (h.core.congr (km' := { km with pend := some p }) rfl rfl rfl) (by rw [hi, hkey]) hq (by rw [hkey]; exact h.notHeld) h.room hr hf
      (by show (w'.kept ++ km.inq).length ≤ 31; rw [h.inq]; exact h31)
    refine ⟨_, h1, ?_, rfl, rfl, rfl, h.core.pending, rfl⟩
    have hheld : (hold s.board w'.key c).held.map Prod.fst = s.board.held.map Prod.fst ++ [w.key] := by
      rw [hkey]; unfold Timed.hold; cases c <;> simp [Cell.press]
    refine ⟨⟨rfl, by rw [hheld]; exact h2, ?_⟩, ?_, h.delay, h.counter, h.idle, h.idleLe, h.th, h.msEq, ?_, h.spaced, h.future, ?_⟩
    · show ∀ e ∈ (km.sched.cancel w'.key).scheduled, e.live = false
      rw [hkey]; exact cancel_all h.live
    · show w'.kept ++ km.inq = w'.kept ++ s.queue
      rw [h.inq]
    · show (km.sched.cancel w'.key).scheduled.map Verif.Timed.time = s.timers
      rw [cancel_times]; exact h.times
    · intro e he
      simp only [List.mem_append] at he
      rcases he with he | he
      · exact kept_phys hph e he
      · exact h.phys e he
  · cases hs

theorem see_fields (w : Waiting) (e : InputEvent) : (w.see e).key = w.key ∧ (w.see e).seen = w.seen ++ [e] ∧ (w.see e).tap = w.tap ∧
    (w.see e).hold = w.hold ∧ (w.see e).deadline = w.deadline := ⟨rfl, rfl, rfl, rfl, rfl⟩

/-- An event comes while a key waits. -/
theorem TCore.take_waiting {km : CKM} {s s' : Timed.State} {w : Waiting} {e : InputEvent} (h : TCore K cfg count ms km s) (hw : s.waiting = some w)
    (he : isPhysical e = true) (hs : s.take layout (rulesOf cfg ms) e = some s') :
    ∃ km', processInputN ⟨system K, refs, S⟩ (n + 3) km e = .ok km' ∧ TCore K cfg count ms km' s' ∧ s'.timers = s.timers ∧ s'.clock = s.clock ∧
      s'.delay = s.delay := by
  have hwf : WaitsFor K count km s.board w := by have := h.wait; rw [hw] at this; exact this
  obtain ⟨k, key, hp, hk, ht, hh⟩ := hwf.key
  simp only [State.take, hw] at hs
  split at hs
  · rename_i hlen
    have hpush : pushCap maxPressedKeys (w.seen.map (Event.input : InputEvent → Event Ev)) (.input e) = .ok ((w.see e).seen.map Event.input) := by
      unfold pushCap maxPressedKeys
      rw [if_pos (by simpa using hlen), (see_fields w e).2.1]
      simp
    have hph : ∀ x ∈ (w.see e).seen, isPhysical x = true := by
      intro x hx
      rw [(see_fields w e).2.1] at hx
      simp only [List.mem_append, List.mem_cons, List.not_mem_nil, or_false] at hx
      rcases hx with hx | rfl
      · exact hwf.phys x hx
      · exact he
    obtain ⟨d1, d2⟩ := decides (ms := ms) (c := km.ctx) hk (by rw [h.th]) ht hh e
    have hproc : processInputN ⟨system K, refs, S⟩ (n + 3) km e =
        (Verif.updatePending ⟨system K, refs, S⟩ (handleEvent ⟨system K, refs, S⟩ (n + 3)) (n + 3)
          { km with pend := some ⟨w.key, .tapHold k, .tapHold ⟨w.other⟩, (w.see e).seen.map Event.input⟩ } (.input e) >>=
          fun km => drain (handleEvent ⟨system K, refs, S⟩ (n + 3)) (n + 3) km) := by
      simp only [processInputN, processInput, hp, hpush, Res.ok_bind]
    rw [hproc]
    split at hs
    · rename_i c hc
      obtain ⟨r, hr, hcase, hup⟩ := d2 c hc
      have hf : c.Fits count := by
        rcases hcase with rfl | rfl
        · exact hwf.tapFits
        · exact hwf.holdFits
      obtain ⟨km', h1, h2, h3, h4, h5, h6, _⟩ := (h.twait hw).settle (refs := refs) (S := S) (n := n + 2) (w' := w.see e)
        (p := ⟨w.key, .tapHold k, .tapHold ⟨(w.see e).other⟩, (w.see e).seen.map Event.input⟩) rfl hph rfl rfl hr hf hs (n + 1) (n + 2)
      refine ⟨km', ?_, h2, h3, h4, h5⟩
      simp only [Verif.updatePending]
      rw [show (system K).updatePending (.tapHold ⟨w.other⟩) w.key km.ctx (.tapHold k) (.input e) =
        updatePending K (.tapHold ⟨w.other⟩) w.key km.ctx (.tapHold k) (.input e) from rfl, hup]
      simp only [Res.ok_bind, Sched.scheduleAll]
      rw [h1]
      exact drain_empty h6
    · rename_i hc
      cases hs
      refine ⟨{ km with pend := some ⟨w.key, .tapHold k, .tapHold ⟨(w.see e).other⟩, (w.see e).seen.map Event.input⟩ }, ?_, ?_, rfl, rfl, rfl⟩
      · simp only [Verif.updatePending]
        rw [show (system K).updatePending (.tapHold ⟨w.other⟩) w.key km.ctx (.tapHold k) (.input e) =
          updatePending K (.tapHold ⟨w.other⟩) w.key km.ctx (.tapHold k) (.input e) from rfl, d1 hc]
        simp only [Res.ok_bind, Sched.scheduleAll]
        exact drain_empty hwf.core.pending
      · refine ⟨?_, h.inq, h.delay, h.counter, h.idle, h.idleLe, h.th, h.msEq, h.times, h.spaced, h.future, h.phys⟩
        exact ⟨⟨k, key, rfl, hk, ht, hh⟩, hwf.tapFits, hwf.holdFits, hwf.notHeld, hwf.room, hwf.core.congr rfl rfl rfl, hwf.timer, hwf.live, hph⟩
  · cases hs

/-! ## An event comes while no key waits -/

theorem scheduleAfter_last (S : Search) {s : Sched Ev} {d : Nat} {e : Event Ev} (hsort : (s.scheduled.map Verif.Timed.time).Pairwise (· ≤ ·))
    (hlt : ∀ t ∈ s.scheduled.map Verif.Timed.time, t < s.counter + d) (hcap : s.scheduled.length < 32) (hu : s.counter + d < 2 ^ 32) :
    s.scheduleAfter S d e = .ok { s with scheduled := s.scheduled ++ [⟨s.counter + d, e, true⟩] } := by
  have hk : S.pos (s.scheduled.map Verif.Timed.time) (s.counter + d) = s.scheduled.length := by
    have h1 := S.pos_le (s.scheduled.map Verif.Timed.time) (s.counter + d)
    simp only [List.length_map] at h1
    have h2 := S.after (s.scheduled.map Verif.Timed.time) (s.counter + d) hsort
    have h3 : (s.scheduled.map Verif.Timed.time).drop (S.pos (s.scheduled.map Verif.Timed.time) (s.counter + d)) = [] := by
      rw [List.eq_nil_iff_forall_not_mem]
      intro x hx
      have := h2 x hx
      have := hlt x (List.mem_of_mem_drop hx)
      omega
    rw [List.drop_eq_nil_iff, List.length_map] at h3
    omega
  have hu' : s.counter + d < u32Size := by unfold u32Size; omega
  have hcap' : s.scheduled.length < Sched.scheduledCap := hcap
  simp only [Sched.scheduleAfter, hu', hcap', if_true, hk]
  simp

theorem TCore.sim {km : CKM} {s : Timed.State} (h : TCore K cfg count ms km s) (hw : s.waiting = none) :
    Sim K count km s.board ∧ ∀ e ∈ km.sched.scheduled, e.live = false := by
  have := h.wait
  rw [hw] at this
  exact ⟨this.2.1.sim this.1, this.2.2⟩

theorem TCore.takes {km : CKM} {s : Timed.State} (h : TCore K cfg count ms km s) (hw : s.waiting = none) {b : Board.State} {x : Res CKM}
    (ht : Takes K count km b x) : ∃ km', x = .ok km' ∧ TCore K cfg count ms km' { s with board := b } := by
  obtain ⟨ctx, ps, f, h1, h2, h3⟩ := ht
  refine ⟨_, h1, ?_, h.inq, h.delay, h.counter, h.idle, h.idleLe, (congrArg Prod.fst h3).trans h.th, h.msEq, h.times, h.spaced, h.future, h.phys⟩
  show Waits K count _ b s.waiting
  rw [hw]
  exact ⟨h2.pend, h2.coreWith, (h.sim hw).2⟩

/-- An event comes while no key waits. -/
theorem TCore.take_free (hlay : timedLayoutOf K refs = some layout) (hfit : ∀ p ∈ layout, p.Fits count) (hlen : layout.length ≤ 65535)
    (hms : 1 ≤ ms) (hT : 1 ≤ cfg.timeout) {km : CKM} {s s' : Timed.State} {e : InputEvent} (h : TCore K cfg count ms km s) (hw : s.waiting = none)
    (hroom : ∀ t ∈ s.timers, t + ms ≤ s.clock + cfg.timeout) (he : isPhysical e = true) (hs : s.take layout (rulesOf cfg ms) e = some s') :
    ∃ km', processInputN ⟨system K, refs, S⟩ (n + 3) km e = .ok km' ∧ TCore K cfg count ms km' s' ∧
      (∀ t ∈ s'.timers, t ≤ s'.clock + cfg.timeout) ∧ s'.clock = s.clock ∧ s'.delay = s.delay := by
  obtain ⟨hsim, hdead⟩ := h.sim hw
  have hroom' : ∀ t ∈ s.timers, t ≤ s.clock + cfg.timeout := fun t ht => by have := hroom t ht; omega
  unfold State.take at hs
  split at hs
  · rename_i w hw'; rw [hw] at hw'; cases hw'
  cases e with
  | vpress ko => simp [isPhysical] at he
  | vrelease ko => simp [isPhysical] at he
  | release j =>
    cases hs
    obtain ⟨km', h1, h2⟩ := h.takes hw (process_release (K := K) (refs := refs) (S := S) (layout := []) (n := n + 1) hsim j)
    exact ⟨km', h1, h2, hroom', rfl, rfl⟩
  | press i =>
    simp only at hs
    split at hs
    · rename_i hh
      cases hs
      obtain ⟨km', h1, h2⟩ := h.takes hw (press_held (K := K) (refs := refs) (S := S) (n := n + 2) hsim hh)
      refine ⟨km', h1, h2, hroom', rfl, rfl⟩
    · rename_i hh
      simp only [Bool.not_eq_true] at hh
      split at hs
      · rename_i h16
        cases hle : layout[i]? with
        | none => rw [hle] at hs; cases hs
        | some p =>
          rw [hle] at hs
          simp only [Option.bind_some] at hs
          have hlt : i < layout.length := (List.getElem?_eq_some_iff.1 hle).1
          obtain ⟨r0, hr0, hp0⟩ : ∃ r0, refs[i]? = some r0 ∧ posOf K r0 = some p := by
            have := timedLayoutOf_get hlay i
            rw [hle] at this
            simpa [Option.map_eq_some_iff] using this
          have hpf : p.Fits s.board.on.length := by rw [hsim.layerCount]; exact hfit p (List.mem_of_getElem? hle)
          have hni : i ∉ s.board.held.map Prod.fst := fun hm => by rw [holds_iff.2 hm] at hh; cases hh
          obtain ⟨ch, hidle, hproc⟩ := press_new (K := K) (refs := refs) (S := S) (n := n + 3) hsim hh h16 (by omega) hr0
          obtain ⟨r, m', hm', hact, hactf, hloop⟩ := press_pos (K := K) (refs := refs) (S := S) (he := handleEvent ⟨system K, refs, S⟩ (n + 3))
            (m := n + 2) (i := i) (km := { km with ctx := { km.ctx with chorded := ch } }) hp0 hsim.layers hsim.dflt
            (by rw [hsim.layerCount]; exact hsim.dfltOk) hpf
          rw [hproc, hloop]
          rw [hsim.layerCount] at hactf
          have hcore : Core K count { km with ctx := { km.ctx with chorded := ch } } s.board (s.board.held.map Prod.fst ++ [i]) :=
            ⟨hsim.pending, hsim.held, hsim.nodup, hsim.len, hsim.active, hsim.pressedIdx, hsim.caps, hsim.layers, hsim.dflt, hsim.layerCount,
              hsim.dfltOk, hsim.fits, hidle⟩
          -- a key that does not wait
          have plain : ∀ (r : Ref) (c : Cell) (m : Nat), cellOf K r = some c → c.Fits count →
              ∃ km', (pressLoop ⟨system K, refs, S⟩ (handleEvent ⟨system K, refs, S⟩ (n + 3)) i (m + 1)
                  { km with ctx := { km.ctx with chorded := ch } } r >>= fun km => drain (handleEvent ⟨system K, refs, S⟩ (n + 3)) (n + 3) km) = .ok km' ∧
                TCore K cfg count ms km' { s with board := hold s.board i c } := by
            intro r c m hr hf
            obtain ⟨l, f, h1, h2⟩ := press_plain (K := K) (refs := refs) (S := S) (n := n + 1) (m := m) hcore hsim.pend hni h16 hr hf
            refine ⟨_, h1, ?_, h.inq, h.delay, h.counter, h.idle, h.idleLe, h.th, h.msEq, h.times, h.spaced, h.future, h.phys⟩
            show Waits K count _ (hold s.board i c) s.waiting
            rw [hw]
            have hheld : (hold s.board i c).held.map Prod.fst = s.board.held.map Prod.fst ++ [i] := by
              unfold Timed.hold; cases c <;> simp [Cell.press]
            exact ⟨hsim.pend, by rw [hheld]; exact h2, hdead⟩
          rcases actOf_cases hact with ⟨c, hc, hr⟩ | ⟨k, key, t, ho, rfl, hk, ht, hho, hc⟩
          · rw [hc] at hs hactf
            cases hs
            obtain ⟨m, rfl⟩ : ∃ m, m' = m + 1 := ⟨m' - 1, by omega⟩
            obtain ⟨km', h1, h2⟩ := plain r c m hr hactf
            exact ⟨km', h1, h2, hroom', rfl, rfl⟩
          · rw [hc] at hs hactf
            obtain ⟨m, rfl⟩ : ∃ m, m' = m + 2 := ⟨m' - 2, by omega⟩
            have hidx : Res.index K.tapHold k = .ok key := by simpa using hk
            simp only [State.press] at hs
            have hrest : s.rested (rulesOf cfg ms) = match cfg.requiredIdleTime with | some t => decide (t ≤ s.idleSeen) | none => true := rfl
            split at hs
            · -- it waits
              rename_i hre
              split at hs
              · rename_i hcap
                cases hs
                have hnew : newPressedKey K i { km.ctx with chorded := ch } (.tapHold k) =
                    .ok (.pending (.tapHold ⟨none⟩), [SchEv.after cfg.timeout (.key i (.tapHold .timeout))]) := by
                  simp only [newPressedKey, TapHold.newPressedKey, h.th]
                  rw [hrest] at hre
                  cases hreq : cfg.requiredIdleTime with
                  | none => rfl
                  | some t =>
                    rw [hreq] at hre
                    simp only [decide_eq_true_eq] at hre
                    simp only [ge_iff_le, hre, if_true]
                    rfl
                have hlen' : km.sched.scheduled.length = s.timers.length := by rw [← h.times, List.length_map]
                have hsch : km.sched.scheduleAll S [SchEv.after cfg.timeout (.key i (.tapHold .timeout))] =
                    .ok { km.sched with scheduled := km.sched.scheduled ++ [⟨km.sched.counter + cfg.timeout, .key i (.tapHold .timeout), true⟩] } := by
                  simp only [Sched.scheduleAll, Sched.scheduleEvent, SchEv.after]
                  rw [scheduleAfter_last S ?_ ?_ (by rw [hlen']; exact hcap.1) (by rw [h.counter]; exact hcap.2)]
                  · rfl
                  · rw [h.times]; exact h.spaced.imp (fun hab => by omega)
                  · rw [h.times, h.counter]
                    intro x hx
                    have := hroom x hx
                    omega
                refine ⟨{ km with ctx := { km.ctx with chorded := ch }, pend := some ⟨i, .tapHold k, .tapHold ⟨none⟩, []⟩,
                                  sched := { km.sched with scheduled := km.sched.scheduled ++ [⟨km.sched.counter + cfg.timeout, .key i (.tapHold .timeout), true⟩] } }, ?_, ?_, ?_, rfl, rfl⟩
                · rw [pressLoop]
                  rw [show (system K).newPressedKey i { km.ctx with chorded := ch } (.tapHold k) =
                    newPressedKey K i { km.ctx with chorded := ch } (.tapHold k) from rfl, hnew]
                  simp only [Res.ok_bind, hsch, Res.pure_eq]
                  exact drain_empty hsim.pending
                · refine ⟨?_, h.inq, h.delay, h.counter, h.idle, h.idleLe, h.th, h.msEq, ?_, ?_, ?_, h.phys⟩
                  · refine ⟨⟨k, key, rfl, hk, ht, hho⟩, hactf.1, hactf.2, hni, h16, hcore.congr rfl rfl rfl, ?_, ?_, by simp⟩
                    · simp only [List.mem_append, List.mem_cons, List.not_mem_nil, or_false, timerOf, h.counter]
                      exact .inr rfl
                    · intro e he hl
                      simp only [List.mem_append, List.mem_cons, List.not_mem_nil, or_false] at he
                      rcases he with he | he
                      · rw [hdead e he] at hl; cases hl
                      · rw [he, h.counter]; rfl
                  · simp only [List.map_append, h.times, List.map_cons, List.map_nil, h.counter]
                    rfl
                  · rw [List.pairwise_append]
                    refine ⟨h.spaced, by simp, ?_⟩
                    intro a ha b hb
                    simp only [List.mem_cons, List.not_mem_nil, or_false] at hb
                    rw [hb]
                    exact hroom a ha
                  · intro t ht
                    simp only [List.mem_append, List.mem_cons, List.not_mem_nil, or_false] at ht
                    rcases ht with ht | rfl
                    · exact h.future t ht
                    · show s.clock < s.clock + cfg.timeout
                      omega
                · intro t ht
                  simp only [List.mem_append, List.mem_cons, List.not_mem_nil, or_false] at ht
                  rcases ht with ht | rfl
                  · exact hroom' t ht
                  · exact Nat.le_refl _
              · cases hs
            · -- it is taken as tapped
              rename_i hre
              cases hs
              have hnew : newPressedKey K i { km.ctx with chorded := ch } (.tapHold k) = .ok (.newPressedKey (.key key.tap), []) := by
                simp only [newPressedKey, TapHold.newPressedKey, h.th]
                rw [hrest] at hre
                cases hreq : cfg.requiredIdleTime with
                | none => rw [hreq] at hre; simp at hre
                | some t =>
                  rw [hreq] at hre
                  simp only [decide_eq_true_eq] at hre
                  simp only [ge_iff_le, hre, if_false, hidx, Res.ok_bind, Res.pure_eq]
                  rfl
              obtain ⟨km', h1, h2⟩ := plain key.tap t m ht hactf.1
              refine ⟨km', ?_, h2, hroom', rfl, rfl⟩
              rw [pressLoop]
              rw [show (system K).newPressedKey i { km.ctx with chorded := ch } (.tapHold k) =
                newPressedKey K i { km.ctx with chorded := ch } (.tapHold k) from rfl, hnew]
              simp only [Res.ok_bind, Sched.scheduleAll]
              exact h1
      · cases hs

/-! ## The calls -/

/-- No timer is set beyond the timeout. -/
def Near (T : Nat) (s : Timed.State) : Prop := ∀ t ∈ s.timers, t ≤ s.clock + T

/-- There is room for a new timer after the others. -/
def Roomy (T ms : Nat) (s : Timed.State) : Prop := ∀ t ∈ s.timers, t + ms ≤ s.clock + T

/-- What the theorems assume about the keymap. -/
structure TimedKeymap (K : Keys) (refs : List Ref) (cfg : TapHold.Config) (count ms : Nat) (layout : List Pos) : Prop where
  lay : timedLayoutOf K refs = some layout
  fits : ∀ p ∈ layout, p.Fits count
  len : layout.length ≤ 65535
  tick : 1 ≤ ms
  timeout : 1 ≤ cfg.timeout

theorem TCore.take (hk : TimedKeymap K refs cfg count ms layout) {km : CKM} {s s' : Timed.State} {e : InputEvent} (h : TCore K cfg count ms km s)
    (hroom : Roomy cfg.timeout ms s) (he : isPhysical e = true) (hs : s.take layout (rulesOf cfg ms) e = some s') :
    ∃ km', processInputN ⟨system K, refs, S⟩ (n + 3) km e = .ok km' ∧ TCore K cfg count ms km' s' ∧ Near cfg.timeout s' ∧ s'.delay = s.delay := by
  cases hw : s.waiting with
  | none =>
    obtain ⟨km', h1, h2, h3, _, h5⟩ := h.take_free (S := S) (n := n) hk.lay hk.fits hk.len hk.tick hk.timeout hw hroom he hs
    exact ⟨km', h1, h2, h3, h5⟩
  | some w =>
    obtain ⟨km', h1, h2, h3, h4, h5⟩ := h.take_waiting (refs := refs) (S := S) (n := n) hw he hs
    refine ⟨km', h1, h2, ?_, h5⟩
    intro t ht
    rw [h3] at ht
    have := hroom t ht
    rw [h4]
    omega

/-- The keymap and the board between two calls. -/
structure TSim (K : Keys) (cfg : TapHold.Config) (count ms : Nat) (km : CKM) (s : Timed.State) : Prop where
  core : TCore K cfg count ms km s
  near : Near cfg.timeout s
  roomy : s.delay = 0 → Roomy cfg.timeout ms s

theorem TSim.input (hk : TimedKeymap K refs cfg count ms layout) {km : CKM} {s s' : Timed.State} {e : InputEvent} (h : TSim K cfg count ms km s)
    (he : isPhysical e = true) (hs : s.input layout (rulesOf cfg ms) e = some s') :
    ∃ km', handleInput ⟨system K, refs, S⟩ (n + 3) km e = .ok km' ∧ TSim K cfg count ms km' s' := by
  have hc := h.core
  unfold Timed.State.input at hs
  unfold handleInput
  simp only [inputCap, hc.inq] at hs ⊢
  split at hs
  · rename_i hq
    cases hs
    rw [if_pos hq]
    refine ⟨_, rfl, ⟨hc.wait.congr rfl rfl rfl rfl rfl, rfl, hc.delay, hc.counter, rfl, Nat.zero_le _, hc.th, hc.msEq, hc.times, hc.spaced,
      hc.future, hc.phys⟩, h.near, h.roomy⟩
  · rename_i hq
    rw [if_neg hq]
    have hphys : ∀ x ∈ s.queue ++ [e], isPhysical x = true := by
      intro x hx
      simp only [List.mem_append, List.mem_cons, List.not_mem_nil, or_false] at hx
      rcases hx with hx | rfl
      · exact hc.phys x hx
      · exact he
    split at hs
    · rename_i hd
      rw [if_pos (by rw [hc.delay]; exact hd)]
      obtain ⟨e', q', hcons⟩ : ∃ e' q', s.queue ++ [e] = e' :: q' := by cases s.queue <;> exact ⟨_, _, rfl⟩
      rw [hcons] at hphys hs ⊢
      simp only [State.takeOldest, Option.map_eq_some_iff] at hs
      obtain ⟨s2, hs2, rfl⟩ := hs
      have hc2 : TCore K cfg count ms { km with idle := 0, inq := q', log := km.log ++ [e'] } { s with idle := 0, queue := q' } :=
        ⟨hc.wait.congr rfl rfl rfl rfl rfl, rfl, hc.delay, hc.counter, rfl, Nat.zero_le _, hc.th, hc.msEq, hc.times, hc.spaced, hc.future,
          fun x hx => hphys x (List.mem_cons_of_mem _ hx)⟩
      obtain ⟨km', h1, h2, h3, _⟩ := hc2.take (S := S) (n := n) hk (h.roomy hd) (hphys e' List.mem_cons_self) hs2
      refine ⟨{ km' with delay := inputDelay }, ?_, ⟨h2.wait.congr rfl rfl rfl rfl rfl, h2.inq, rfl, h2.counter, h2.idle, h2.idleLe, h2.th, h2.msEq, h2.times,
        h2.spaced, h2.future, h2.phys⟩, h3, fun h0 => by simp at h0⟩
      simp only
      rw [h1]
      rfl
    · rename_i hd
      rw [if_neg (by rw [hc.delay]; exact hd)]
      cases hs
      exact ⟨_, rfl, ⟨hc.wait.congr rfl rfl rfl rfl rfl, rfl, hc.delay, hc.counter, rfl, Nat.zero_le _, hc.th, hc.msEq, hc.times, hc.spaced,
        hc.future, hphys⟩, h.near, h.roomy⟩

theorem filter_rest {c m t : Nat} {ts : List Nat} (h : (t :: ts).Pairwise (fun a b => a + m ≤ b)) (ht : c < t) (hd : t ≤ c + m) :
    (t :: ts).filter (fun x => c + m < x) = ts := by
  rw [List.filter_cons, if_neg (by simpa using hd), List.filter_eq_self]
  intro x hx
  have := (List.pairwise_cons.1 h).1 x hx
  simp only [decide_eq_true_eq]
  omega

theorem filter_all {c m t : Nat} {ts : List Nat} (h : (t :: ts).Pairwise (fun a b => a + m ≤ b)) (hd : c + m < t) :
    (t :: ts).filter (fun x => c + m < x) = t :: ts := by
  rw [List.filter_eq_self]
  intro x hx
  simp only [List.mem_cons] at hx
  rcases hx with rfl | hx
  · simpa using hd
  · have := (List.pairwise_cons.1 h).1 x hx
    simp only [decide_eq_true_eq]
    omega

/-- Time passes, and no live timer is due. -/
theorem TCore.pass_quiet {km : CKM} {s s' : Timed.State} {sch : Sched Ev} (h : TCore K cfg count ms km s) (hs : s.pass (rulesOf cfg ms) = some s')
    (h1 : sch.pending = []) (h2 : sch.scheduled.map Verif.Timed.time = s.timers.filter (fun t => s.clock + ms < t)) (h3 : sch.counter = s.clock + ms)
    (h4 : ∀ e ∈ sch.scheduled, e ∈ km.sched.scheduled) (h5 : ∀ w, s.waiting = some w → timerOf w ∈ sch.scheduled) :
    TCore K cfg count ms { km with sched := sch } s' := by
  have hpnd : km.sched.pending = [] := by
    have := h.wait
    cases hw : s.waiting with
    | none => rw [hw] at this; exact this.2.1.pending
    | some w => rw [hw] at this; exact WaitsFor.core this |>.pending
  have hs' : s' = { s with clock := s.clock + ms, timers := s.timers.filter (fun t => s.clock + ms < t) } := by
    unfold State.pass at hs
    split at hs
    · simp only at hs
      split at hs
      · rename_i w hw
        have hm : w.deadline ∈ s.timers.filter (fun t => s.clock + ms < t) := by
          rw [← h2]; exact List.mem_map_of_mem (f := Verif.Timed.time) (h5 w hw)
        have := (List.mem_filter.1 hm).2
        simp only [decide_eq_true_eq] at this
        rw [if_neg (by show ¬ w.deadline ≤ s.clock + ms; omega)] at hs
        cases hs; rfl
      · cases hs; rfl
    · cases hs
  subst hs'
  refine ⟨?_, h.inq, h.delay, h3, h.idle, by have := h.idleLe; show s.idle ≤ s.clock + ms; omega, h.th, h.msEq, h2, h.spaced.filter _, ?_, h.phys⟩
  · have hwait := h.wait
    show Waits K count _ s.board s.waiting
    cases hw : s.waiting with
    | none =>
      rw [hw] at hwait
      exact ⟨hwait.1, hwait.2.1.congr (h1.trans hpnd.symm) rfl rfl, fun e he => hwait.2.2 e (h4 e he)⟩
    | some w =>
      rw [hw] at hwait
      have hwf : WaitsFor K count km s.board w := hwait
      exact ⟨hwf.key, hwf.tapFits, hwf.holdFits, hwf.notHeld, hwf.room, hwf.core.congr (h1.trans hpnd.symm) rfl rfl, h5 w hw,
        fun e he => hwf.live e (h4 e he), hwf.phys⟩
  · intro t ht
    have := (List.mem_filter.1 ht).2
    simpa using this

/-- Time passes. -/
theorem TCore.pass {km : CKM} {s s' : Timed.State} (h : TCore K cfg count ms km s) (hs : s.pass (rulesOf cfg ms) = some s') :
    ∃ sch km', km.sched.tick ms = .ok sch ∧ drainN ⟨system K, refs, S⟩ (n + 3) { km with sched := sch } = .ok km' ∧ TCore K cfg count ms km' s' ∧
      s'.clock = s.clock + ms ∧ (∀ t ∈ s'.timers, t ∈ s.timers) ∧ s'.delay = s.delay ∧ s'.idle = s.idle := by
  have hwait := h.wait
  have hpnd : km.sched.pending = [] := by
    cases hw : s.waiting with
    | none => rw [hw] at hwait; exact hwait.2.1.pending
    | some w => rw [hw] at hwait; exact WaitsFor.core hwait |>.pending
  have hclk : s.clock + ms < 2 ^ 32 := by
    unfold State.pass at hs
    split at hs
    · assumption
    · cases hs
  have hframe : s'.clock = s.clock + ms ∧ (∀ t ∈ s'.timers, t ∈ s.timers) ∧ s'.delay = s.delay ∧ s'.idle = s.idle := by
    have hbase : ∀ s2 : Timed.State, s2.clock = s.clock + ms → s2.timers = s.timers.filter (fun t => s.clock + ms < t) → s2.delay = s.delay → s2.idle = s.idle →
        s2.clock = s.clock + ms ∧ (∀ t ∈ s2.timers, t ∈ s.timers) ∧ s2.delay = s.delay ∧ s2.idle = s.idle :=
      fun s2 a b c d => ⟨a, by rw [b]; exact fun t ht => (List.mem_filter.1 ht).1, c, d⟩
    unfold State.pass at hs
    split at hs
    · simp only at hs
      split at hs
      · split at hs
        · unfold State.settle at hs
          split at hs
          · cases hs; exact hbase _ rfl rfl rfl rfl
          · cases hs
        · cases hs; exact hbase _ rfl rfl rfl rfl
      · cases hs; exact hbase _ rfl rfl rfl rfl
    · cases hs
  have hu : km.sched.counter + ms < u32Size := by rw [h.counter]; unfold u32Size; omega
  suffices hmain : ∃ sch km', km.sched.tick ms = .ok sch ∧ drainN ⟨system K, refs, S⟩ (n + 3) { km with sched := sch } = .ok km' ∧
      TCore K cfg count ms km' s' by
    obtain ⟨sch, km', a, b, c⟩ := hmain
    exact ⟨sch, km', a, b, c, hframe⟩
  have htimes := h.times
  have hsp := h.spaced
  have hfut := h.future
  -- no live timer is due
  have quiet : ∀ sch : Sched Ev, sch.pending = [] → sch.scheduled.map Verif.Timed.time = s.timers.filter (fun t => s.clock + ms < t) →
      sch.counter = s.clock + ms → (∀ e ∈ sch.scheduled, e ∈ km.sched.scheduled) → (∀ w, s.waiting = some w → timerOf w ∈ sch.scheduled) →
      TCore K cfg count ms { km with sched := sch } s' := fun sch => h.pass_quiet hs
  cases hl : km.sched.scheduled with
  | nil =>
    have ht : s.timers = [] := by rw [← htimes, hl]; rfl
    have hst : km.sched.tick ms = .ok { km.sched with counter := km.sched.counter + ms } := by
      simp only [Sched.tick, hu, if_true, hl]
    refine ⟨_, _, hst, drain_empty hpnd, ?_⟩
    refine quiet _ hpnd (by rw [hl, ht]; rfl) (by show km.sched.counter + ms = _; rw [h.counter]) (fun e he => he) ?_
    intro w hw
    rw [hw] at hwait
    exact WaitsFor.timer hwait
  | cons t rest =>
    rw [hl, List.map_cons] at htimes
    have hft : s.clock < t.time := hfut _ (by rw [← htimes]; exact List.mem_cons_self)
    by_cases hdue : t.time ≤ s.clock + ms
    · have hfilter : s.timers.filter (fun t => s.clock + ms < t) = rest.map Verif.Timed.time := by
        rw [← htimes]
        exact filter_rest (by rw [htimes]; exact hsp) hft hdue
      have hst : km.sched.tick ms = .ok { km.sched with counter := km.sched.counter + ms, scheduled := rest, pending := [if t.live then some t.event else none] } := by
        simp only [Sched.tick, hu, if_true, hl]
        rw [if_pos (by rw [h.counter]; exact hdue)]
        simp only [Sched.enqueue, hpnd]
        rfl
      cases hlive : t.live with
      | false =>
        rw [hlive] at hst
        refine ⟨_, _, hst, rfl, ?_⟩
        refine quiet { km.sched with counter := km.sched.counter + ms, scheduled := rest, pending := [] } rfl hfilter.symm
          (by show km.sched.counter + ms = _; rw [h.counter]) (fun e he => by rw [hl]; exact List.mem_cons_of_mem _ he) ?_
        intro w hw
        rw [hw] at hwait
        have := WaitsFor.timer hwait
        rw [hl, List.mem_cons] at this
        rcases this with rfl | this
        · simp [timerOf] at hlive
        · exact this
      | true =>
        rw [hlive] at hst
        cases hw : s.waiting with
        | none =>
          rw [hw] at hwait
          have := hwait.2.2 t (by rw [hl]; exact List.mem_cons_self)
          rw [hlive] at this; cases this
        | some w =>
          rw [hw] at hwait
          have hwf : WaitsFor K count km s.board w := hwait
          have htw : t = timerOf w := hwf.live t (by rw [hl]; exact List.mem_cons_self) hlive
          obtain ⟨k, key, hp, hk, ht, hh⟩ := hwf.key
          have hdl : w.deadline ≤ s.clock + ms := by rw [htw] at hdue; exact hdue
          -- the state with the timer removed
          have hset : State.settle { s with clock := s.clock + ms, timers := s.timers.filter (fun t => s.clock + ms < t) } w w.hold = some s' := by
            unfold State.pass at hs
            rw [if_pos (by exact hclk)] at hs
            simp only [hw] at hs
            rw [if_pos (by exact hdl)] at hs
            rw [← hs]
            rw [hw]
            rfl
          have htwait : TWait K cfg count ms { km with sched := { km.sched with counter := km.sched.counter + ms, scheduled := rest, pending := [] } }
              { s with clock := s.clock + ms, timers := s.timers.filter (fun t => s.clock + ms < t) } w :=
            ⟨hwf.notHeld, hwf.room, hwf.core.congr hpnd.symm rfl rfl, fun e he => hwf.live e (by rw [hl]; exact List.mem_cons_of_mem _ he), h.inq, h.delay,
              by show km.sched.counter + ms = s.clock + ms; rw [h.counter], h.idle, by have := h.idleLe; show s.idle ≤ s.clock + ms; omega, h.th, h.msEq,
              hfilter.symm, hsp.filter _, fun t ht => by simpa using (List.mem_filter.1 ht).2, h.phys⟩
          obtain ⟨km', h1, h2, _, _, _, h6, h7⟩ := htwait.settle (refs := refs) (S := S) (n := n + 1)
            (p := ⟨w.key, .tapHold k, .tapHold ⟨w.other⟩, w.seen.map Event.input⟩) rfl hwf.phys rfl rfl hh hwf.holdFits hset n (n + 1)
          refine ⟨_, km', hst, ?_, h2⟩
          have hcore' : Core K count km' s'.board (s'.board.held.map Prod.fst) := by have := h2.wait; rw [h7] at this; exact this.2.1
          have hev : t.event = .key w.key (.tapHold .timeout) := by rw [htw]; rfl
          have hhe : handleEvent ⟨system K, refs, S⟩ (n + 3)
              { km with sched := { km.sched with counter := km.sched.counter + ms, scheduled := rest, pending := [] } } (.key w.key (.tapHold .timeout)) =
              .ok km' := by
            simp only [handleEvent, handleBody, KM.fire, Verif.updatePending, hp]
            rw [show (system K).updatePending (.tapHold ⟨w.other⟩) w.key km.ctx (.tapHold k) (.key w.key (.tapHold .timeout)) =
              updatePending K (.tapHold ⟨w.other⟩) w.key km.ctx (.tapHold k) (.key w.key (.tapHold .timeout)) from rfl, timeout_decides hk]
            simp only [Res.ok_bind, Sched.scheduleAll]
            have h1' := h1
            simp only at h1'
            rw [show handleBody (⟨system K, refs, S⟩ : Cfg Ref Ev Ctx PKS KS) (handleBody ⟨system K, refs, S⟩ (handleEvent ⟨system K, refs, S⟩ n) n) (n + 1) =
              handleEvent ⟨system K, refs, S⟩ (n + 1 + 1) from rfl]
            rw [h1']
            simp only [Res.ok_bind]
            rw [notifyAll_quiet (C := ⟨system K, refs, S⟩) (km := km') (ev := .key w.key (.tapHold .timeout)) (ctx := km'.ctx)
              (fun j r ks hm => updateState_quiet hcore'.held km'.ctx (.key w.key (.tapHold .timeout)) (by intro j; simp) j r ks hm)
              (ctx_tapHold km'.ctx w.key .timeout)]
            rfl
          unfold drainN
          rw [drain_one (ev := .key w.key (.tapHold .timeout)) (q := []) (by simp [hev])]
          rw [hhe]
          exact drain_empty h6
    · have hnd : s.clock + ms < t.time := by omega
      have hfilter : s.timers.filter (fun t => s.clock + ms < t) = s.timers := by
        rw [← htimes]
        exact filter_all (by rw [htimes]; exact hsp) hnd
      have hst : km.sched.tick ms = .ok { km.sched with counter := km.sched.counter + ms } := by
        simp only [Sched.tick, hu, if_true, hl]
        rw [if_neg (by rw [h.counter]; exact hdue)]
      refine ⟨_, _, hst, drain_empty hpnd, ?_⟩
      refine quiet _ hpnd (by rw [hfilter]; exact h.times) (by show km.sched.counter + ms = _; rw [h.counter]) (fun e he => he) ?_
      intro w hw
      rw [hw] at hwait
      exact WaitsFor.timer hwait

theorem pass_clock {r : Rules} {s s' : Timed.State} (h : s.pass r = some s') : s.clock + r.ms < 2 ^ 32 := by
  unfold State.pass at h
  split at h
  · assumption
  · cases h

theorem TSim.tick (hk : TimedKeymap K refs cfg count ms layout) {km : CKM} {s s' : Timed.State} (h : TSim K cfg count ms km s)
    (hs : s.tick layout (rulesOf cfg ms) = some s') :
    ∃ km', Verif.tick ⟨system K, refs, S⟩ (n + 3) km = .ok km' ∧ TSim K cfg count ms km' s' := by
  have hc := h.core
  -- the context learns the idle time
  obtain ⟨km1, hkm1⟩ : ∃ km1 : CKM, km1 = { km with ctx := km.ctx.setKeymapContext km.sched.counter km.idle } := ⟨_, rfl⟩
  have hcore : ∀ (b : Board.State) is, Core K count km b is → Core K count km1 b is := by
    intro b is h
    subst hkm1
    exact ⟨h.pending, h.held, h.nodup, h.len, h.active, h.pressedIdx, h.caps, h.layers, h.dflt, h.layerCount, h.dfltOk, h.fits, h.idle.setIdle _⟩
  have h1 : TCore K cfg count ms km1 { s with idleSeen := s.idle } := by
    have hwait := hc.wait
    have hth : km1.ctx.tapHold = ⟨cfg, s.idle⟩ := by
      subst hkm1
      show km.ctx.tapHold.setIdle km.idle = _
      rw [hc.th, hc.idle]; rfl
    have hpend : km1.pend = km.pend := by subst hkm1; rfl
    have hsch : km1.sched = km.sched := by subst hkm1; rfl
    refine ⟨?_, by subst hkm1; exact hc.inq, by subst hkm1; exact hc.delay, by rw [hsch]; exact hc.counter, by subst hkm1; exact hc.idle, hc.idleLe, hth,
      by subst hkm1; exact hc.msEq, by rw [hsch]; exact hc.times, hc.spaced, hc.future, hc.phys⟩
    show Waits K count km1 s.board s.waiting
    cases hw : s.waiting with
    | none =>
      rw [hw] at hwait
      exact ⟨hpend.trans hwait.1, hcore _ _ hwait.2.1, by rw [hsch]; exact hwait.2.2⟩
    | some w =>
      rw [hw] at hwait
      have hwf : WaitsFor K count km s.board w := hwait
      exact ⟨by rw [hpend]; exact hwf.key, hwf.tapFits, hwf.holdFits, hwf.notHeld, hwf.room, hcore _ _ hwf.core, by rw [hsch]; exact hwf.timer,
        by rw [hsch]; exact hwf.live, hwf.phys⟩
  have htick : Verif.tick ⟨system K, refs, S⟩ (n + 3) km = (tickInput ⟨system K, refs, S⟩ (n + 3) km1 >>= fun km2 => do
        let s ← km2.sched.tick km2.msPerTick
        let km ← drainN ⟨system K, refs, S⟩ (n + 3) { km2 with delay := km2.delay - 1, sched := s }
        if km.idle + km.msPerTick < u32Size then pure { km with idle := km.idle + km.msPerTick } else .panic .arith) := by
    subst hkm1; rfl
  -- time passes
  have clock : ∀ (km2 : CKM) (s2 s3 : Timed.State), TCore K cfg count ms { km2 with delay := km2.delay - 1 } s2 → Near cfg.timeout s2 →
      s2.pass (rulesOf cfg ms) = some s3 →
      ∃ km', (do
        let s ← km2.sched.tick km2.msPerTick
        let km ← drainN ⟨system K, refs, S⟩ (n + 3) { km2 with delay := km2.delay - 1, sched := s }
        if km.idle + km.msPerTick < u32Size then pure { km with idle := km.idle + km.msPerTick } else .panic .arith) = Res.ok km' ∧
      TSim K cfg count ms km' { s3 with idle := s3.idle + ms } := by
    intro km2 s2 s3 h2 hnear hp
    obtain ⟨sch, km', a1, a2, a3, a4, a5, a6, a7⟩ := h2.pass (refs := refs) (S := S) (n := n) hp
    have hm : km2.msPerTick = ms := h2.msEq
    have hle := h2.idleLe
    have hclk := pass_clock hp
    simp only [rulesOf] at hclk
    refine ⟨{ km' with idle := km'.idle + km'.msPerTick }, ?_, ?_⟩
    · simp only at a1 a2
      rw [← hm] at a1
      rw [a1]
      simp only [Res.ok_bind]
      rw [a2]
      simp only [Res.ok_bind]
      rw [if_pos (by rw [a3.idle, a3.msEq, a7]; unfold u32Size; omega)]
      rfl
    · refine ⟨⟨a3.wait.congr rfl rfl rfl rfl rfl, a3.inq, a3.delay, a3.counter, ?_, ?_, a3.th, a3.msEq, a3.times, a3.spaced, a3.future, a3.phys⟩, ?_, ?_⟩
      · show km'.idle + km'.msPerTick = s3.idle + ms
        rw [a3.idle, a3.msEq]
      · show s3.idle + ms ≤ s3.clock
        omega
      · intro t ht
        have := hnear t (a5 t ht)
        show t ≤ s3.clock + cfg.timeout
        omega
      · intro _ t ht
        have := hnear t (a5 t ht)
        show t + ms ≤ s3.clock + cfg.timeout
        omega
  rw [htick]
  unfold Timed.State.tick at hs
  simp only [Option.map_eq_some_iff] at hs
  obtain ⟨s3, hs3, rfl⟩ := hs
  by_cases hcond : s.delay = 0 ∧ s.queue ≠ []
  · rw [if_pos hcond, Option.bind_eq_some_iff] at hs3
    obtain ⟨s2, hs2, hp⟩ := hs3
    cases hq : s.queue with
    | nil => exact absurd hq hcond.2
    | cons e q =>
      have hphys : ∀ x ∈ e :: q, isPhysical x = true := by rw [← hq]; exact hc.phys
      simp only [State.takeOldest, hq] at hs2
      have hc2 : TCore K cfg count ms { km1 with inq := q, log := km1.log ++ [e] } { s with idleSeen := s.idle, queue := q } :=
        ⟨h1.wait.congr rfl rfl rfl rfl rfl, rfl, h1.delay, h1.counter, h1.idle, h1.idleLe, h1.th, h1.msEq, h1.times, h1.spaced, h1.future,
          fun x hx => hphys x (List.mem_cons_of_mem _ hx)⟩
      obtain ⟨km2, b1, b2, b3, b4⟩ := hc2.take (S := S) (n := n) hk (h.roomy hcond.1) (hphys e List.mem_cons_self) hs2
      have hti : tickInput ⟨system K, refs, S⟩ (n + 3) km1 = .ok { km2 with delay := inputDelay } := by
        unfold tickInput
        rw [h1.inq]
        simp only [hq]
        rw [if_pos (by rw [h1.delay]; exact hcond.1), b1]
        rfl
      rw [hti]
      simp only [Res.ok_bind]
      refine clock { km2 with delay := inputDelay } s2 s3 ?_ b3 hp
      refine ⟨b2.wait.congr rfl rfl rfl rfl rfl, b2.inq, ?_, b2.counter, b2.idle, b2.idleLe, b2.th, b2.msEq, b2.times, b2.spaced, b2.future, b2.phys⟩
      show inputDelay - 1 = s2.delay
      rw [b4]
      exact hcond.1.symm
  · rw [if_neg hcond] at hs3
    simp only [Option.bind_some] at hs3
    have hti : tickInput ⟨system K, refs, S⟩ (n + 3) km1 = .ok km1 := by
      unfold tickInput
      rw [h1.inq]
      cases hq : s.queue with
      | nil => rfl
      | cons e q =>
        simp only
        rw [if_neg]
        rw [h1.delay]
        intro hd
        exact hcond ⟨hd, by rw [hq]; simp⟩
    rw [hti]
    simp only [Res.ok_bind]
    refine clock km1 { s with idleSeen := s.idle, delay := s.delay - 1 } s3 ?_ h.near hs3
    refine ⟨h1.wait.congr rfl rfl rfl rfl rfl, h1.inq, ?_, h1.counter, h1.idle, h1.idleLe, h1.th, h1.msEq, h1.times, h1.spaced, h1.future, h1.phys⟩
    show km1.delay - 1 = s.delay - 1
    rw [h1.delay]

theorem TCore.outputs {km : CKM} {s : Timed.State} (h : TCore K cfg count ms km s) : km.pressedKeys ⟨system K, refs, S⟩ = .ok s.board.outputs := by
  have hwait := h.wait
  cases hw : s.waiting with
  | none => rw [hw] at hwait; exact pressedOutputs_held hwait.2.1.held
  | some w => rw [hw] at hwait; exact pressedOutputs_held (WaitsFor.core hwait).held

theorem TSim.run (hk : TimedKeymap K refs cfg count ms layout) (calls : List Board.Call) {km : CKM} {s s' : Timed.State} (h : TSim K cfg count ms km s)
    (hp : ∀ e ∈ eventsIn calls, isPhysical e = true) (hs : s.run layout (rulesOf cfg ms) calls = some s') :
    ∃ km', Verif.run ⟨system K, refs, S⟩ (n + 3) km (calls.map toOp) = .ok km' ∧ TSim K cfg count ms km' s' := by
  induction calls generalizing km s with
  | nil => cases hs; exact ⟨km, rfl, h⟩
  | cons c cs ih =>
    cases c with
    | input e =>
      simp only [eventsIn, List.mem_cons, forall_eq_or_imp] at hp
      simp only [Timed.State.run, Option.bind_eq_some_iff] at hs
      obtain ⟨s1, hs1, hs2⟩ := hs
      obtain ⟨km1, h1, h2⟩ := h.input (S := S) (n := n) hk hp.1 hs1
      obtain ⟨km2, h3, h4⟩ := ih h2 hp.2 hs2
      refine ⟨km2, ?_, h4⟩
      simp only [List.map_cons, toOp, Verif.run, step, h1, Res.ok_bind]
      exact h3
    | tick =>
      simp only [Timed.State.run, Option.bind_eq_some_iff] at hs
      obtain ⟨s1, hs1, hs2⟩ := hs
      obtain ⟨km1, h1, h2⟩ := h.tick (S := S) (n := n) hk hs1
      obtain ⟨km2, h3, h4⟩ := ih h2 hp hs2
      refine ⟨km2, ?_, h4⟩
      simp only [List.map_cons, toOp, Verif.run, step, h1, Res.ok_bind]
      exact h3
    | report =>
      have hc := h.core
      have h2 : TSim K cfg count ms { km with rep := (km.rep.report s.board.outputs).1 } s :=
        ⟨⟨hc.wait.congr rfl rfl rfl rfl rfl, hc.inq, hc.delay, hc.counter, hc.idle, hc.idleLe, hc.th, hc.msEq, hc.times, hc.spaced, hc.future, hc.phys⟩,
          h.near, h.roomy⟩
      obtain ⟨km2, h3, h4⟩ := ih h2 hp hs
      refine ⟨km2, ?_, h4⟩
      simp only [List.map_cons, toOp, Verif.run, step, reportOutput, hc.outputs (refs := refs) (S := S), Res.ok_bind, Res.pure_eq]
      exact h3

theorem TSim.start {c : Config} (h : c.chorded.maxPressed = 0 ∨ 16 ≤ c.chorded.maxPressed) :
    TSim K c.tapHold c.layerCount ms ((KM.new (Ctx.fromConfig c)).setMsPerTick ms) (Timed.State.new c.layerCount) := by
  have hsim := (SimQ.start (K := K) h).sim
  refine ⟨⟨⟨rfl, hsim.core.congr rfl rfl rfl, ?_⟩, rfl, rfl, rfl, rfl, Nat.le_refl _, rfl, rfl, rfl, ?_, ?_, ?_⟩, ?_, ?_⟩
  · intro e he; simp [KM.setMsPerTick, KM.new, Sched.new] at he
  all_goals simp [Timed.State.new, Near, Roomy]

end Verif.Comp
