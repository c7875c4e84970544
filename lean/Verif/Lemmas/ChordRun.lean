import Verif.Lemmas.ChordSettle

/-!
# The keymap with chords follows the board
-/

namespace Verif.Comp.CH

open Board (Cell Entry)
open Chords (Pos Outcome Waiting Rules State)
open _root_.Verif.Chorded (resolutionOf Tracks)

/-- The timer of a waiting key. -/
def timerOf (w : Waiting) : Verif.Timed Ev := ⟨w.deadline, .key w.key (.chorded .timeout), true⟩

/-- The waiting key, for the lemmas that only look at its key and its events. -/
def asTimed (w : Waiting) : Timed.Waiting := ⟨w.key, .nothing, .nothing, w.deadline, none, w.seen⟩

theorem ofKey_eq : Chords.ofKey = Timed.ofKey := by
  funext i e; cases e <;> rfl

theorem asTimed_kept (w : Waiting) : (asTimed w).kept = w.kept := by
  simp only [Timed.Waiting.kept, Chords.Waiting.kept, ofKey_eq]
  rfl

theorem kept_phys {w : Waiting} (h : ∀ e ∈ w.seen, isPhysical e = true) : ∀ e ∈ w.kept, isPhysical e = true := by
  rw [← asTimed_kept]; exact Comp.kept_phys (w := asTimed w) h

theorem cancel_all {s : Sched Ev} {w : Waiting} (h : ∀ e ∈ s.scheduled, e.live = true → e = timerOf w) :
    ∀ e ∈ (s.cancel w.key).scheduled, e.live = false := by
  intro e he
  simp only [Sched.cancel, List.mem_map] at he
  obtain ⟨e', he', rfl⟩ := he
  cases hl : e'.live with
  | false => exact cancelOne_dead hl
  | true =>
    rw [h e' he' hl]
    simp [timerOf, Sched.cancelOne]

theorem entry_fits {n : Nat} {p : Pos} (h : p.Fits n) (r : Rules) (i : Nat) (o : Outcome) : (p.entry r i o).Fits n := by
  cases p with
  | plain e => cases o <;> exact h
  | other e =>
    cases o with
    | alone => exact h
    | chord id => trivial
  | first cs e =>
    cases o with
    | alone => exact h.1
    | chord id =>
      simp only [Pos.entry]
      split
      · cases hl : cs.lookup id with
        | none => trivial
        | some e' => exact h.2 _ (chord_lookup_mem hl)
      · trivial

/-- A waiting key and the keymap's pending key. -/
structure WaitsFor (K : Keys) (cfg : Chorded.Config) (count ms : Nat) (km : CKM) (s : State) (w : Waiting) : Prop where
  key : ∃ cr, km.pend = some ⟨w.key, .chorded cr, .chorded (asPks (chordRulesOf cfg ms) w), w.seen.map Event.input⟩ ∧
    chordPosOf K (.chorded cr) = some w.pos
  fits : w.pos.Fits count
  leads : w.pos.Leads (chordRulesOf cfg ms) w.key
  maybe : ∀ id ∈ w.maybe, id < cfg.chords.length
  notHeld : w.key ∉ s.board.held.map Prod.fst
  room : s.board.held.length < 16
  core : CoreWith K count (Tracks cfg ms s (s.board.held.map Prod.fst ++ [w.key])) km s.board
  timer : timerOf w ∈ km.sched.scheduled
  live : ∀ e ∈ km.sched.scheduled, e.live = true → e = timerOf w
  phys : ∀ e ∈ w.seen, isPhysical e = true

/-- The pending key of the keymap. -/
def Waits (K : Keys) (cfg : Chorded.Config) (count ms : Nat) (km : CKM) (s : State) : Option Waiting → Prop
  | none => km.pend = none ∧ CoreWith K count (Tracks cfg ms s (s.board.held.map Prod.fst)) km s.board ∧ ∀ e ∈ km.sched.scheduled, e.live = false
  | some w => WaitsFor K cfg count ms km s w

/-- Queue, clock and timers. -/
structure Book (ms : Nat) (km : CKM) (s : State) : Prop where
  inq : km.inq = s.queue
  delay : km.delay = s.delay
  counter : km.sched.counter = s.clock
  idle : km.idle = s.idle
  idleLe : s.idle ≤ s.clock
  msEq : km.msPerTick = ms
  times : km.sched.scheduled.map Verif.Timed.time = s.timers
  spaced : s.timers.Pairwise (fun a b => a + ms ≤ b)
  future : ∀ t ∈ s.timers, s.clock < t
  phys : ∀ e ∈ s.queue, isPhysical e = true

/-- The keymap is in the state of the board. -/
structure CCore (K : Keys) (cfg : Chorded.Config) (count ms : Nat) (km : CKM) (s : State) : Prop where
  wait : Waits K cfg count ms km s s.waiting
  book : Book ms km s

theorem Waits.congr {K : Keys} {cfg : Chorded.Config} {count ms : Nat} {km km' : CKM} {s s' : State} {w : Option Waiting} (h : Waits K cfg count ms km s w)
    (h1 : km'.pend = km.pend) (h2 : km'.pressed = km.pressed) (h3 : km'.ctx = km.ctx) (h4 : km'.sched.pending = km.sched.pending)
    (h5 : km'.sched.scheduled = km.sched.scheduled) (h6 : s'.board = s.board) (h7 : s'.down = s.down) (h8 : s'.latest = s.latest)
    (h9 : s'.idleSeen = s.idleSeen) : Waits K cfg count ms km' s' w := by
  have hJ : ∀ is, CoreWith K count (Tracks cfg ms s is) km s.board → CoreWith K count (Tracks cfg ms s' is) km' s'.board := by
    intro is h
    rw [h6]
    have h' := h.congr h4 h2 h3
    exact ⟨h'.pending, h'.held, h'.nodup, h'.len, h'.active, h'.pressedIdx, h'.caps, h'.layers, h'.dflt, h'.layerCount, h'.dfltOk, h'.fits,
      h'.idle.congr h7 h8 h9⟩
  cases w with
  | none => exact ⟨h1.trans h.1, by have := hJ _ h.2.1; rw [← h6] at this; exact this, by rw [h5]; exact h.2.2⟩
  | some w =>
    have h : WaitsFor K cfg count ms km s w := h
    exact ⟨by rw [h1]; exact h.key, h.fits, h.leads, h.maybe, by rw [h6]; exact h.notHeld, by rw [h6]; exact h.room,
      by have := hJ _ h.core; rw [← h6] at this; exact this, by rw [h5]; exact h.timer, by rw [h5]; exact h.live, h.phys⟩

variable {K : Keys} {refs : List Ref} {S : Search} {cfg : Chorded.Config} {count ms n : Nat} {layout : List Pos}

/-- The keymap while a key waits, except that its timer may be gone. -/
structure CWait (K : Keys) (cfg : Chorded.Config) (count ms : Nat) (km : CKM) (s : State) (w : Waiting) : Prop where
  notHeld : w.key ∉ s.board.held.map Prod.fst
  room : s.board.held.length < 16
  core : CoreWith K count (Tracks cfg ms s (s.board.held.map Prod.fst ++ [w.key])) km s.board
  live : ∀ e ∈ km.sched.scheduled, e.live = true → e = timerOf w
  book : Book ms km s

theorem CCore.cwait {km : CKM} {s : State} {w : Waiting} (h : CCore K cfg count ms km s) (hw : s.waiting = some w) :
    CWait K cfg count ms km s w := by
  have hwf : WaitsFor K cfg count ms km s w := by have := h.wait; rw [hw] at this; exact this
  exact ⟨hwf.notHeld, hwf.room, hwf.core, hwf.live, h.book⟩

theorem mark_frame (s : State) (o : Outcome) : (s.mark o).board = s.board ∧ (s.mark o).idleSeen = s.idleSeen ∧ (s.mark o).timers = s.timers ∧
    (s.mark o).clock = s.clock ∧ (s.mark o).delay = s.delay ∧ (s.mark o).idle = s.idle ∧ (s.mark o).queue = s.queue := by
  cases o <;> exact ⟨rfl, rfl, rfl, rfl, rfl, rfl, rfl⟩

theorem hold_held (b : Board.State) (i : Nat) (c : Cell) : (Chords.hold b i c).held.map Prod.fst = b.held.map Prod.fst ++ [i] := by
  unfold Chords.hold; cases c <;> simp [Cell.press]

/-- The waiting key is decided. -/
theorem CWait.settle {km : CKM} {s s' : State} {w w' : Waiting} {o : Outcome} (h : CWait K cfg count ms km s w)
    (hkey : w'.key = w.key) (hph : ∀ e ∈ w'.seen, isPhysical e = true) {p : Pending Ref Ev PKS} (hi : p.idx = w.key) {cr : Chorded.Ref}
    (hpr : p.ref = .chorded cr) (hq : p.queued = w'.seen.map Event.input) {nk : NPK Ref}
    (hnk : NpkIs K nk (w'.pos.entry (chordRulesOf cfg ms) w'.key o)) (hf : w'.pos.Fits count)
    (ho : ∀ id, o = .chord id → id < cfg.chords.length) (hs : s.settle (chordRulesOf cfg ms) w' o = some s') (N m : Nat) :
    ∃ km', pendLoop ⟨system K, refs, S⟩ (handleEvent ⟨system K, refs, S⟩ (n + 1)) (N + 3) (m + 2)
        { km with pend := some p, sched := { km.sched with pending := [some (decidedEv w.key o)] } } p nk = .ok km' ∧
      CCore K cfg count ms km' s' ∧ s'.timers = s.timers ∧ s'.clock = s.clock ∧ s'.delay = s.delay ∧ km'.sched.pending = [] ∧
      s'.waiting = none := by
  obtain ⟨mb, mi, mt, mc, md, mid, mq⟩ := mark_frame s o
  unfold State.settle at hs
  split at hs
  · rename_i h31
    cases hs
    obtain ⟨ch, hch, htr⟩ := h.core.idle.resolved (j := w'.key) ho
    obtain ⟨l, f, r, h1, h2⟩ := chord_settle (K := K) (refs := refs) (S := S) (n := n) (m := m) (N := N) (km := { km with pend := some p })
      (w := asTimed w') (p := p) (J' := Tracks cfg ms (s.mark o) (s.board.held.map Prod.fst ++ [w.key]))
      (h.core.congr (km' := { km with pend := some p }) rfl rfl rfl) (by rw [hi, ← hkey]; rfl) hq hpr
      (by show w'.key ∉ _; rw [hkey]; exact h.notHeld) h.room hnk (entry_fits hf _ _ _)
      (by show ((asTimed w').kept ++ km.inq).length ≤ 31; rw [asTimed_kept, h.book.inq]; exact h31) hch htr
    have hk' : (asTimed w').key = w.key := hkey
    rw [hk'] at h1 h2
    refine ⟨_, h1, ?_, mt, mc, md, h.core.pending, rfl⟩
    have hb := h.book
    refine ⟨⟨rfl, ?_, ?_⟩, ?_, ?_, ?_, ?_, ?_, h.book.msEq, ?_, ?_, ?_, ?_⟩
    · show CoreWith K count (Tracks cfg ms _ ((Chords.hold s.board w'.key _).held.map Prod.fst)) _ (Chords.hold s.board w'.key _)
      rw [hold_held, hkey]
      rw [show w'.key = w.key from hkey] at h2
      exact ⟨h2.pending, h2.held, h2.nodup, h2.len, h2.active, h2.pressedIdx, h2.caps, h2.layers, h2.dflt, h2.layerCount, h2.dfltOk, h2.fits,
        h2.idle.congr rfl rfl rfl⟩
    · exact cancel_all h.live
    · show (asTimed w').kept ++ km.inq = w'.kept ++ s.queue
      rw [hb.inq, asTimed_kept]
    · rw [show km.delay = s.delay from hb.delay]; exact md.symm
    · show km.sched.counter = _; rw [hb.counter]; exact mc.symm
    · show km.idle = _; rw [hb.idle]; exact mid.symm
    · show (s.mark o).idle ≤ (s.mark o).clock; rw [mid, mc]; exact hb.idleLe
    · show (km.sched.cancel w.key).scheduled.map Verif.Timed.time = (s.mark o).timers
      rw [cancel_times, mt]; exact hb.times
    · show (s.mark o).timers.Pairwise _; rw [mt]; exact hb.spaced
    · show ∀ t ∈ (s.mark o).timers, (s.mark o).clock < t; rw [mt, mc]; exact hb.future
    · intro e he
      simp only [List.mem_append] at he
      rcases he with he | he
      · exact kept_phys hph e he
      · exact hb.phys e he
  · cases hs

theorem outcome_lt {r : Rules} {w : Waiting} {m : Nat} (h : ∀ id ∈ w.maybe, id < m) : ∀ id, w.outcome r = .chord id → id < m := by
  intro id hid
  unfold Waiting.outcome at hid
  split at hid
  · rename_i id' hf
    cases hid
    exact h _ (List.mem_of_find?_eq_some hf)
  · cases hid

theorem join_maybe {r : Rules} {w : Waiting} {m j : Nat} (h : ∀ id ∈ w.maybe, id < m) : ∀ id ∈ (w.join r j).maybe, id < m :=
  fun id hid => h id (List.mem_filter.1 hid).1

theorem decided_lt {r : Rules} {w : Waiting} {m j : Nat} {o : Outcome} (h : ∀ id ∈ w.maybe, id < m) (hd : w.decided r j = some o) :
    ∀ id, o = .chord id → id < m := by
  intro id hid
  subst hid
  unfold Waiting.decided at hd
  split at hd
  · simp only [Option.some.injEq] at hd
    exact outcome_lt h id hd
  · rename_i id' hm
    split at hd
    · cases hd
      exact join_maybe (r := r) (j := j) h id (by rw [hm]; exact List.mem_cons_self)
    · cases hd
  · cases hd

/-- An event comes while a key waits. -/
theorem CCore.take_waiting (hone : ∀ ch ∈ cfg.chords, ch ≠ []) {km : CKM} {s s' : State} {w : Waiting} {e : InputEvent} (h : CCore K cfg count ms km s)
    (hw : s.waiting = some w) (he : isPhysical e = true) (hs : s.take layout (chordRulesOf cfg ms) e = some s') :
    ∃ km', processInputN ⟨system K, refs, S⟩ (n + 4) km e = .ok km' ∧ CCore K cfg count ms km' s' ∧ s'.timers = s.timers ∧ s'.clock = s.clock ∧
      s'.delay = s.delay := by
  have hwf : WaitsFor K cfg count ms km s w := by have := h.wait; rw [hw] at this; exact this
  obtain ⟨cr, hp, hpos⟩ := hwf.key
  simp only [State.take, hw] at hs
  split at hs
  · rename_i hlen
    have hpush : pushCap maxPressedKeys (w.seen.map (Event.input : InputEvent → Event Ev)) (.input e) = .ok ((w.seen ++ [e]).map Event.input) := by
      unfold pushCap maxPressedKeys
      rw [if_pos (by simpa using hlen)]
      simp
    have hph : ∀ x ∈ w.seen ++ [e], isPhysical x = true := by
      intro x hx
      simp only [List.mem_append, List.mem_cons, List.not_mem_nil, or_false] at hx
      rcases hx with hx | rfl
      · exact hwf.phys x hx
      · exact he
    have hproc : processInputN ⟨system K, refs, S⟩ (n + 4) km e =
        (Verif.updatePending ⟨system K, refs, S⟩ (handleEvent ⟨system K, refs, S⟩ (n + 4)) (n + 4)
          { km with pend := some ⟨w.key, .chorded cr, .chorded (asPks (chordRulesOf cfg ms) w), (w.seen ++ [e]).map Event.input⟩ } (.input e) >>=
          fun km => drain (handleEvent ⟨system K, refs, S⟩ (n + 4)) (n + 4) km) := by
      simp only [processInputN, processInput, hp, hpush, Res.ok_bind]
    rw [hproc]
    have hcfg : km.ctx.chorded.config = cfg := hwf.core.idle.config
    -- the key is decided
    have settled : ∀ (w1 : Waiting) (o : Outcome), w1.key = w.key → w1.pos = w.pos → w1.seen = w.seen ++ [e] →
        (asPks (chordRulesOf cfg ms) w).handleEvent cfg.maxChordSize w.key (.input e) = .ok (asPks (chordRulesOf cfg ms) w1, some (resolutionOf o)) →
        (∀ id, o = .chord id → id < cfg.chords.length) → s.settle (chordRulesOf cfg ms) w1 o = some s' →
        ∃ km', (Verif.updatePending ⟨system K, refs, S⟩ (handleEvent ⟨system K, refs, S⟩ (n + 4)) (n + 4)
          { km with pend := some ⟨w.key, .chorded cr, .chorded (asPks (chordRulesOf cfg ms) w), (w.seen ++ [e]).map Event.input⟩ } (.input e) >>=
          fun km => drain (handleEvent ⟨system K, refs, S⟩ (n + 4)) (n + 4) km) = .ok km' ∧ CCore K cfg count ms km' s' ∧ s'.timers = s.timers ∧
          s'.clock = s.clock ∧ s'.delay = s.delay := by
      intro w1 o hk1 hp1 hs1 hpe ho hset
      obtain ⟨nk, hnk, _, hup⟩ := chord_outcome (cfg := cfg) (ms := ms) hpos w.key hwf.leads hone o ho
      have hup' := hup km.ctx _ _ (.input e) (.input e) hcfg rfl hpe
      obtain ⟨km', h1, h2, h3, h4, h5, h6, _⟩ := (h.cwait hw).settle (refs := refs) (S := S) (n := n + 3) (w' := w1) (nk := nk)
        (p := ⟨w.key, .chorded cr, .chorded (asPks (chordRulesOf cfg ms) w1), (w.seen ++ [e]).map Event.input⟩) hk1 (by rw [hs1]; exact hph) rfl rfl
        (by rw [hs1]) (by rw [hp1, hk1]; exact hnk) (by rw [hp1]; exact hwf.fits) ho hset (n + 1) (n + 2)
      refine ⟨km', ?_, h2, h3, h4, h5⟩
      simp only [Verif.updatePending]
      rw [show (system K).updatePending (.chorded (asPks (chordRulesOf cfg ms) w)) w.key km.ctx (.chorded cr) (.input e) =
        updatePending K (.chorded (asPks (chordRulesOf cfg ms) w)) w.key km.ctx (.chorded cr) (.input e) from rfl, hup']
      simp only [Res.ok_bind]
      rw [Sched.scheduleAll_imm S _ hwf.core.pending]
      simp only [Res.ok_bind]
      rw [h1]
      exact drain_empty h6
    -- it goes on waiting
    have waits : ∀ (w1 : Waiting), w1.key = w.key → w1.pos = w.pos → w1.seen = w.seen ++ [e] → w1.deadline = w.deadline →
        (∀ id ∈ w1.maybe, id < cfg.chords.length) →
        (asPks (chordRulesOf cfg ms) w).handleEvent cfg.maxChordSize w.key (.input e) = .ok (asPks (chordRulesOf cfg ms) w1, none) →
        s' = { s with waiting := some w1 } →
        ∃ km', (Verif.updatePending ⟨system K, refs, S⟩ (handleEvent ⟨system K, refs, S⟩ (n + 4)) (n + 4)
          { km with pend := some ⟨w.key, .chorded cr, .chorded (asPks (chordRulesOf cfg ms) w), (w.seen ++ [e]).map Event.input⟩ } (.input e) >>=
          fun km => drain (handleEvent ⟨system K, refs, S⟩ (n + 4)) (n + 4) km) = .ok km' ∧ CCore K cfg count ms km' s' ∧ s'.timers = s.timers ∧
          s'.clock = s.clock ∧ s'.delay = s.delay := by
      intro w1 hk1 hp1 hs1 hd1 hm1 hpe hs'
      subst hs'
      refine ⟨{ km with pend := some ⟨w.key, .chorded cr, .chorded (asPks (chordRulesOf cfg ms) w1), (w.seen ++ [e]).map Event.input⟩ }, ?_, ?_, rfl, rfl, rfl⟩
      · simp only [Verif.updatePending]
        rw [show (system K).updatePending (.chorded (asPks (chordRulesOf cfg ms) w)) w.key km.ctx (.chorded cr) (.input e) =
          updatePending K (.chorded (asPks (chordRulesOf cfg ms) w)) w.key km.ctx (.chorded cr) (.input e) from rfl,
          chord_waits hpos w.key km.ctx _ _ (.input e) (.input e) hcfg rfl hpe]
        simp only [Res.ok_bind, Sched.scheduleAll]
        exact drain_empty hwf.core.pending
      · have hb := h.book
        have htm : timerOf w1 = timerOf w := by simp only [timerOf, hk1, hd1]
        refine ⟨?_, hb.inq, hb.delay, hb.counter, hb.idle, hb.idleLe, hb.msEq, hb.times, hb.spaced, hb.future, hb.phys⟩
        have hc' := hwf.core.congr (km' := { km with pend := some ⟨w.key, .chorded cr, .chorded (asPks (chordRulesOf cfg ms) w1), (w.seen ++ [e]).map Event.input⟩ })
          rfl rfl rfl
        refine ⟨⟨cr, by rw [hk1, hs1], by rw [hp1]; exact hpos⟩, by rw [hp1]; exact hwf.fits, by rw [hp1, hk1]; exact hwf.leads, hm1,
          by rw [hk1]; exact hwf.notHeld, hwf.room, ?_, by rw [htm]; exact hwf.timer, by rw [htm]; exact hwf.live, by rw [hs1]; exact hph⟩
        rw [hk1]
        exact ⟨hc'.pending, hc'.held, hc'.nodup, hc'.len, hc'.active, hc'.pressedIdx, hc'.caps, hc'.layers, hc'.dflt, hc'.layerCount, hc'.dfltOk, hc'.fits,
          hc'.idle.congr rfl rfl rfl⟩
    cases e with
    | vpress ko => simp [isPhysical] at he
    | vrelease ko => simp [isPhysical] at he
    | press j =>
      simp only at hs
      split at hs
      · rename_i hsz
        have hpe := pks_press (chordRulesOf cfg ms) w w.key j hsz
        split at hs
        · rename_i o ho
          rw [ho] at hpe
          exact settled ({ w.join (chordRulesOf cfg ms) j with seen := w.seen ++ [.press j] } : Waiting) o rfl rfl rfl hpe (decided_lt hwf.maybe ho) hs
        · rename_i ho
          rw [ho] at hpe
          cases hs
          exact waits ({ w.join (chordRulesOf cfg ms) j with seen := w.seen ++ [.press j] } : Waiting) rfl rfl rfl rfl (join_maybe hwf.maybe) hpe rfl
      · cases hs
    | release j =>
      simp only at hs
      have hpe := pks_release (chordRulesOf cfg ms) w cfg.maxChordSize w.key j
      split at hs
      · rename_i hj
        rw [if_pos hj] at hpe
        exact settled ({ w with seen := w.seen ++ [.release j] } : Waiting) (w.outcome (chordRulesOf cfg ms)) rfl rfl rfl hpe (outcome_lt hwf.maybe) hs
      · rename_i hj
        rw [if_neg hj] at hpe
        cases hs
        exact waits ({ w with seen := w.seen ++ [.release j] } : Waiting) rfl rfl rfl rfl hwf.maybe hpe rfl
  · cases hs

/-! ## An event comes while no key waits -/

theorem layout_get {K : Keys} {refs : List Ref} {layout : List Pos} (h : chordLayoutOf K refs = some layout) (i : Nat) :
    (refs[i]?).map (chordPosOf K) = (layout[i]?).map some := by
  induction refs generalizing layout i with
  | nil => simp only [chordLayoutOf, Option.some.injEq] at h; subst h; simp
  | cons r rs ih =>
    simp only [chordLayoutOf] at h
    split at h
    · rename_i e es he hes
      cases h
      cases i with
      | zero => simp [he]
      | succ i => simpa using ih hes i
    · cases h

/-- The reference of a position: a plain key, or a key of a chord. -/
theorem posOf_cases {r : Ref} {p : Pos} (h : chordPosOf K r = some p) :
    (∃ e, p = .plain e ∧ entryOf K r = some e) ∨ (∃ cr, r = .chorded cr ∧ ∀ e, p ≠ .plain e) := by
  unfold chordPosOf at h
  split at h
  · split at h
    · split at h
      · cases h; exact .inr ⟨_, rfl, by intro e; simp⟩
      · cases h
    · cases h
  · split at h
    · simp only [Option.map_eq_some_iff] at h
      obtain ⟨e, _, rfl⟩ := h
      exact .inr ⟨_, rfl, by intro e; simp⟩
    · cases h
  · simp only [Option.map_eq_some_iff] at h
    obtain ⟨e, he, rfl⟩ := h
    exact .inl ⟨e, rfl, he⟩

/-- A key is pressed and held at once. -/
theorem press_entry_holds {m : Nat} {J : Chorded.Ctx → Prop} {km : CKM} {b : Board.State} {i : Nat} {r0 : Ref} {e : Entry} (h : CoreWith K count J km b)
    (hp : km.pend = none) (hn : i ∉ b.held.map Prod.fst) (h16 : b.held.length < 16) (hr : entryOf K r0 = some e) (hf : e.Fits count) :
    ∃ l f r, (pressLoop ⟨system K, refs, S⟩ (handleEvent ⟨system K, refs, S⟩ (n + 2)) i (m + 2) km r0 >>=
        fun km => drain (handleEvent ⟨system K, refs, S⟩ (n + 2)) (n + 2) km) =
        .ok { km with ctx := { km.ctx with layered := l }, pressed := km.pressed ++ [.key i r (ksOf r)], fired := f } ∧
      CoreWith K count J { km with ctx := { km.ctx with layered := l }, pressed := km.pressed ++ [.key i r (ksOf r)], fired := f }
        (Chords.hold b i (e.pick b)) := by
  obtain ⟨r, m', hc, hcf, hloop⟩ := press_entry (K := K) (refs := refs) (S := S) (he := handleEvent ⟨system K, refs, S⟩ (n + 2)) (m := m) (i := i) (s := b)
    (km := km) hr h.layers h.dflt (by rw [h.layerCount]; exact h.dfltOk) (by rw [h.layerCount]; exact hf)
  rw [hloop]
  rw [h.layerCount] at hcf
  obtain ⟨l, f, h1, h2⟩ := press_plain (K := K) (refs := refs) (S := S) (n := n) (m := m') h hp hn h16 hc hcf
  exact ⟨l, f, r, h1, h2⟩

theorem press_npk_holds {m : Nat} {J : Chorded.Ctx → Prop} {km : CKM} {b : Board.State} {i : Nat} {cr : Chorded.Ref} {nk : NPK Ref} {e : Entry}
    (h : CoreWith K count J km b) (hp : km.pend = none) (hn : i ∉ b.held.map Prod.fst) (h16 : b.held.length < 16)
    (hnew : newPressedKey K i km.ctx (.chorded cr) = .ok (.newPressedKey nk, [])) (hnk : NpkIs K nk e) (hf : e.Fits count) :
    ∃ l f r, (pressLoop ⟨system K, refs, S⟩ (handleEvent ⟨system K, refs, S⟩ (n + 2)) i (m + 3) km (.chorded cr) >>=
        fun km => drain (handleEvent ⟨system K, refs, S⟩ (n + 2)) (n + 2) km) =
        .ok { km with ctx := { km.ctx with layered := l }, pressed := km.pressed ++ [.key i r (ksOf r)], fired := f } ∧
      CoreWith K count J { km with ctx := { km.ctx with layered := l }, pressed := km.pressed ++ [.key i r (ksOf r)], fired := f }
        (Chords.hold b i (e.pick b)) := by
  rw [pressLoop]
  rw [show (system K).newPressedKey i km.ctx (.chorded cr) = newPressedKey K i km.ctx (.chorded cr) from rfl, hnew]
  simp only [Res.ok_bind, Sched.scheduleAll]
  rcases hnk with ⟨r, rfl, hr⟩ | ⟨rfl, rfl⟩
  · exact press_entry_holds h hp hn h16 hr hf
  · refine ⟨km.ctx.layered, km.fired, .chorded cr, ?_, ?_⟩
    · have hpush : pushCap maxPressedKeys km.pressed (.key i (Ref.chorded cr) (system K).noOp) = .ok (km.pressed ++ [.key i (.chorded cr) (system K).noOp]) := by
        unfold pushCap maxPressedKeys
        rw [if_pos (by rw [h.length]; exact h16)]
      simp only [hpush, Res.ok_bind, Res.pure_eq]
      rw [drain_empty (by exact h.pending)]
      rfl
    · exact h.hold (l := km.ctx.layered) (c := .nothing) (r := .chorded cr) hn h16 rfl trivial h.pending rfl rfl h.layers h.dflt

theorem press_chorded {r : Rules} {s : State} {i : Nat} {p : Pos} (h : ∀ e, p ≠ .plain e) :
    s.press r i p = match s.downWith r i with
      | some id => some { s with board := Chords.hold s.board i ((p.entry r i (.chord id)).pick s.board) }
      | none =>
        if s.maybe r i = [] ∨ s.rested r i = false then some { s with board := Chords.hold s.board i ((p.entry r i .alone).pick s.board) }
        else if s.timers.length < 32 ∧ s.clock + r.timeout < 2 ^ 32 then
          some { s with
            waiting := some ⟨i, p, s.maybe r i, [i], s.clock + r.timeout, []⟩
            timers := s.timers ++ [s.clock + r.timeout] }
        else none := by
  cases p with
  | plain e => exact absurd rfl (h e)
  | first cs a => rfl
  | other a => rfl

/-- What the theorems assume about the keymap. -/
structure ChordKeymap (K : Keys) (refs : List Ref) (cfg : Chorded.Config) (count ms : Nat) (layout : List Pos) : Prop where
  lay : chordLayoutOf K refs = some layout
  fits : ∀ p ∈ layout, p.Fits count
  leads : ∀ (i : Nat) p, layout[i]? = some p → p.Leads (chordRulesOf cfg ms) i
  len : layout.length ≤ 65535
  tick : 1 ≤ ms
  timeout : 1 ≤ cfg.timeout
  size : 1 ≤ cfg.maxChordSize
  two : ∀ ch ∈ cfg.chords, ∃ k ∈ ch, ∃ l ∈ ch, k ≠ l

theorem ChordKeymap.one (h : ChordKeymap K refs cfg count ms layout) : ∀ ch ∈ cfg.chords, ch ≠ [] := by
  intro ch hch hn
  obtain ⟨k, hk, _⟩ := h.two ch hch
  rw [hn] at hk
  cases hk

/-- No timer is set beyond the timeout. -/
def Near (T : Nat) (s : State) : Prop := ∀ t ∈ s.timers, t ≤ s.clock + T

/-- There is room for a new timer after the others. -/
def Roomy (T ms : Nat) (s : State) : Prop := ∀ t ∈ s.timers, t + ms ≤ s.clock + T

/-- An event comes while no key waits. -/
theorem CCore.take_free (hk : ChordKeymap K refs cfg count ms layout) {km : CKM} {s s' : State} {e : InputEvent} (h : CCore K cfg count ms km s)
    (hw : s.waiting = none) (hroom : Roomy cfg.timeout ms s) (he : isPhysical e = true) (hs : s.take layout (chordRulesOf cfg ms) e = some s') :
    ∃ km', processInputN ⟨system K, refs, S⟩ (n + 4) km e = .ok km' ∧ CCore K cfg count ms km' s' ∧ Near cfg.timeout s' ∧ s'.delay = s.delay := by
  have hroom' : Near cfg.timeout s := fun t ht => by have := hroom t ht; omega
  have hb := h.book
  have hwt := h.wait
  rw [hw] at hwt
  obtain ⟨hpend, hcore, hdead⟩ := hwt
  have hsim := hcore.simWith hpend
  unfold State.take at hs
  split at hs
  · rename_i w hw'; rw [hw] at hw'; cases hw'
  cases e with
  | vpress ko => simp [isPhysical] at he
  | vrelease ko => simp [isPhysical] at he
  | release j =>
    cases hs
    obtain ⟨ch, hch, htr⟩ := hcore.idle.release (i := j) hcore.nodup
    have hto := process_release_with (K := K) (refs := refs) (S := S) (layout := []) (n := n + 2) hsim j hch htr
    obtain ⟨ctx, ps, f, h1, h2, h3⟩ := hto
    refine ⟨_, h1, ⟨?_, hb.inq, hb.delay, hb.counter, hb.idle, hb.idleLe, hb.msEq, hb.times, hb.spaced, hb.future, hb.phys⟩, hroom', rfl⟩
    show Waits K cfg count ms _ _ s.waiting
    rw [hw]
    refine ⟨h2.pend, ?_, hdead⟩
    have h2' := h2.coreWith
    rw [← release_indices [] s.board j] at h2'
    exact ⟨h2'.pending, h2'.held, h2'.nodup, h2'.len, h2'.active, h2'.pressedIdx, h2'.caps, h2'.layers, h2'.dflt, h2'.layerCount, h2'.dfltOk, h2'.fits,
      h2'.idle.congr rfl rfl rfl⟩
  | press i =>
    simp only at hs
    split at hs
    case isFalse => cases hs
    rename_i hspan
    split at hs
    · rename_i hh
      cases hs
      obtain ⟨ch, hch, htr⟩ := hcore.idle.press_held (i := i) (holds_iff.1 hh) hspan
      have hhas : hasPressed i km.pressed = true := by rw [hasPressed_held hcore.held i]; exact hh
      refine ⟨{ km with ctx := { km.ctx with chorded := ch } }, ?_,
        ⟨?_, hb.inq, hb.delay, hb.counter, hb.idle, hb.idleLe, hb.msEq, hb.times, hb.spaced, hb.future, hb.phys⟩, hroom', rfl⟩
      · simp only [processInputN, processInput_none _ hpend, processDirect, notify_press hcore.held hcore.quiet hch, Res.ok_bind, hhas, if_true]
        exact drain_empty hcore.pending
      · rw [hw]
        exact ⟨hpend, ⟨hcore.pending, hcore.held, hcore.nodup, hcore.len, hcore.active, hcore.pressedIdx, hcore.caps, hcore.layers, hcore.dflt,
          hcore.layerCount, hcore.dfltOk, hcore.fits, htr⟩, hdead⟩
    · rename_i hh
      simp only [Bool.not_eq_true] at hh
      split at hs
      case isFalse => cases hs
      rename_i h16
      cases hle : layout[i]? with
      | none => rw [hle] at hs; cases hs
      | some p =>
        rw [hle] at hs
        simp only [Option.bind_some] at hs
        have hlt : i < layout.length := (List.getElem?_eq_some_iff.1 hle).1
        obtain ⟨r0, hr0, hp0⟩ : ∃ r0, refs[i]? = some r0 ∧ chordPosOf K r0 = some p := by
          have := layout_get hk.lay i
          rw [hle] at this
          simpa [Option.map_eq_some_iff] using this
        have hpf : p.Fits count := hk.fits p (List.mem_of_getElem? hle)
        have hni : i ∉ s.board.held.map Prod.fst := fun hm => by rw [holds_iff.2 hm] at hh; cases hh
        obtain ⟨ch, hch, htr, hidle⟩ := hcore.idle.press hni (by have := hk.len; omega) (by rw [List.length_map]; exact h16.2) hspan
        have hhas : hasPressed i km.pressed = false := by rw [hasPressed_held hcore.held i]; exact hh
        have hri : Res.index refs i = .ok r0 := by simpa using hr0
        have hproc : processInputN ⟨system K, refs, S⟩ (n + 4) km (.press i) =
            (pressLoop ⟨system K, refs, S⟩ (handleEvent ⟨system K, refs, S⟩ (n + 4)) i (n + 4) { km with ctx := { km.ctx with chorded := ch } } r0 >>=
              fun km => drain (handleEvent ⟨system K, refs, S⟩ (n + 4)) (n + 4) km) := by
          simp only [processInputN, processInput_none _ hpend, processDirect, notify_press hcore.held hcore.quiet hch, Res.ok_bind, hhas,
            Bool.false_eq_true, if_false, hri]
        rw [hproc]
        have hcore' : CoreWith K count (Tracks cfg ms s (s.board.held.map Prod.fst ++ [i])) { km with ctx := { km.ctx with chorded := ch } } s.board :=
          ⟨hcore.pending, hcore.held, hcore.nodup, hcore.len, hcore.active, hcore.pressedIdx, hcore.caps, hcore.layers, hcore.dflt, hcore.layerCount,
            hcore.dfltOk, hcore.fits, htr⟩
        -- a key that is held at once
        have holds : ∀ (e : Entry) (l : Layered.Ctx) (f : _) (r : Ref),
            CoreWith K count (Tracks cfg ms s (s.board.held.map Prod.fst ++ [i]))
              { km with ctx := { km.ctx with chorded := ch, layered := l }, pressed := km.pressed ++ [.key i r (ksOf r)], fired := f }
              (Chords.hold s.board i (e.pick s.board)) →
            CCore K cfg count ms { km with ctx := { km.ctx with chorded := ch, layered := l }, pressed := km.pressed ++ [.key i r (ksOf r)], fired := f }
              { s with board := Chords.hold s.board i (e.pick s.board) } := by
          intro e l f r h2
          refine ⟨?_, hb.inq, hb.delay, hb.counter, hb.idle, hb.idleLe, hb.msEq, hb.times, hb.spaced, hb.future, hb.phys⟩
          show Waits K cfg count ms _ _ s.waiting
          rw [hw]
          refine ⟨hpend, ?_, hdead⟩
          show CoreWith K count (Tracks cfg ms _ ((Chords.hold s.board i _).held.map Prod.fst)) _ (Chords.hold s.board i _)
          rw [hold_held]
          exact ⟨h2.pending, h2.held, h2.nodup, h2.len, h2.active, h2.pressedIdx, h2.caps, h2.layers, h2.dflt, h2.layerCount, h2.dfltOk, h2.fits,
            h2.idle.congr rfl rfl rfl⟩
        rcases posOf_cases hp0 with ⟨e, rfl, hre⟩ | ⟨cr, rfl, hnp⟩
        · simp only [State.press, Option.some.injEq] at hs
          subst hs
          obtain ⟨l, f, r, h1, h2⟩ := press_entry_holds (refs := refs) (S := S) (n := n + 2) (m := n + 2) hcore' hpend hni h16.1 hre hpf
          exact ⟨_, h1, holds e l f r h2, hroom', rfl⟩
        · rw [press_chorded hnp] at hs
          have hpc := pressCommon_eq htr hspan hk.size hk.two hidle p (s.clock + cfg.timeout)
          have hcfg : ch.config = cfg := htr.config
          have now : ∀ o : Outcome, (∀ id, o = .chord id → id < cfg.chords.length) → Chorded.pressCommon ch i = .ok (.inl (resolutionOf o)) →
              ∃ km', (pressLoop ⟨system K, refs, S⟩ (handleEvent ⟨system K, refs, S⟩ (n + 4)) i (n + 4) { km with ctx := { km.ctx with chorded := ch } } (.chorded cr) >>=
                fun km => drain (handleEvent ⟨system K, refs, S⟩ (n + 4)) (n + 4) km) = .ok km' ∧
              CCore K cfg count ms km' { s with board := Chords.hold s.board i ((p.entry (chordRulesOf cfg ms) i o).pick s.board) } := by
            intro o ho hpo
            obtain ⟨nk, hnk, hnew, _⟩ := chord_outcome (cfg := cfg) (ms := ms) hp0 i (hk.leads i p hle) hk.one o ho
            obtain ⟨l, f, r, h1, h2⟩ := press_npk_holds (refs := refs) (S := S) (n := n + 2) (m := n + 1) hcore' hpend hni h16.1
              (hnew { km.ctx with chorded := ch } hcfg hpo) hnk (entry_fits hpf _ _ _)
            exact ⟨_, h1, holds _ l f r h2⟩
          cases hd : s.downWith (chordRulesOf cfg ms) i with
          | some id =>
            rw [hd] at hs hpc
            simp only [Option.some.injEq] at hs
            subst hs
            have hid : id < cfg.chords.length := by
              have := List.mem_of_find?_eq_some hd
              simpa [Rules.ids, chordRulesOf] using this
            obtain ⟨km', h1, h2⟩ := now (.chord id) (by intro id' h; cases h; exact hid) hpc
            exact ⟨km', h1, h2, hroom', rfl⟩
          | none =>
            rw [hd] at hs hpc
            simp only at hs hpc
            by_cases hm : s.maybe (chordRulesOf cfg ms) i = [] ∨ s.rested (chordRulesOf cfg ms) i = false
            · rw [if_pos hm] at hs hpc
              simp only [Option.some.injEq] at hs
              subst hs
              obtain ⟨km', h1, h2⟩ := now .alone (by intro id' h; cases h) hpc
              exact ⟨km', h1, h2, hroom', rfl⟩
            · rw [if_neg hm] at hs hpc
              split at hs
              case isFalse => cases hs
              rename_i hcap
              cases hs
              have hnew := chord_begins (cfg := cfg) hp0 i { km.ctx with chorded := ch } _ hcfg hpc
              have hlen' : km.sched.scheduled.length = s.timers.length := by rw [← hb.times, List.length_map]
              have hsch : km.sched.scheduleAll S [SchEv.after cfg.timeout (.key i (.chorded .timeout))] =
                  .ok { km.sched with scheduled := km.sched.scheduled ++ [⟨km.sched.counter + cfg.timeout, .key i (.chorded .timeout), true⟩] } := by
                simp only [Sched.scheduleAll, Sched.scheduleEvent, SchEv.after]
                rw [scheduleAfter_last S ?_ ?_ (by rw [hlen']; exact hcap.1) (by rw [hb.counter]; exact hcap.2)]
                · rfl
                · rw [hb.times]; exact hb.spaced.imp (fun hab => by omega)
                · rw [hb.times, hb.counter]
                  intro x hx
                  have := hroom x hx
                  have := hk.tick
                  omega
              refine ⟨{ km with ctx := { km.ctx with chorded := ch },
                                pend := some ⟨i, .chorded cr, .chorded (asPks (chordRulesOf cfg ms) ⟨i, p, s.maybe (chordRulesOf cfg ms) i, [i], s.clock + cfg.timeout, []⟩), []⟩,
                                sched := { km.sched with scheduled := km.sched.scheduled ++ [⟨km.sched.counter + cfg.timeout, .key i (.chorded .timeout), true⟩] } }, ?_, ?_, ?_, rfl⟩
              · rw [pressLoop]
                rw [show (system K).newPressedKey i { km.ctx with chorded := ch } (.chorded cr) =
                  newPressedKey K i { km.ctx with chorded := ch } (.chorded cr) from rfl, hnew]
                simp only [Res.ok_bind, hsch, Res.pure_eq]
                exact drain_empty hcore.pending
              · refine ⟨?_, hb.inq, hb.delay, hb.counter, hb.idle, hb.idleLe, hb.msEq, ?_, ?_, ?_, hb.phys⟩
                · refine ⟨⟨cr, rfl, hp0⟩, hpf, hk.leads i p hle, ?_, hni, h16.1, ?_, ?_, ?_, by simp⟩
                  · intro id hid
                    have := (List.mem_filter.1 hid).1
                    simpa [Rules.ids, chordRulesOf] using this
                  · have h2 := hcore'
                    exact ⟨h2.pending, h2.held, h2.nodup, h2.len, h2.active, h2.pressedIdx, h2.caps, h2.layers, h2.dflt, h2.layerCount, h2.dfltOk, h2.fits,
                      h2.idle.congr rfl rfl rfl⟩
                  · simp only [List.mem_append, List.mem_cons, List.not_mem_nil, or_false, timerOf, hb.counter]
                    exact .inr rfl
                  · intro e he hl
                    simp only [List.mem_append, List.mem_cons, List.not_mem_nil, or_false] at he
                    rcases he with he | he
                    · rw [hdead e he] at hl; cases hl
                    · rw [he, hb.counter]; rfl
                · simp only [List.map_append, hb.times, List.map_cons, List.map_nil, hb.counter]
                  rfl
                · rw [List.pairwise_append]
                  refine ⟨hb.spaced, by simp, ?_⟩
                  intro a ha b hb
                  simp only [List.mem_cons, List.not_mem_nil, or_false] at hb
                  rw [hb]
                  exact hroom a ha
                · intro t ht
                  simp only [List.mem_append, List.mem_cons, List.not_mem_nil, or_false] at ht
                  rcases ht with ht | rfl
                  · exact hb.future t ht
                  · show s.clock < s.clock + cfg.timeout
                    have := hk.timeout
                    omega
              · intro t ht
                simp only [List.mem_append, List.mem_cons, List.not_mem_nil, or_false] at ht
                rcases ht with ht | rfl
                · exact hroom' t ht
                · exact Nat.le_refl _

/-! ## The calls -/

theorem CCore.take (hk : ChordKeymap K refs cfg count ms layout) {km : CKM} {s s' : State} {e : InputEvent} (h : CCore K cfg count ms km s)
    (hroom : Roomy cfg.timeout ms s) (he : isPhysical e = true) (hs : s.take layout (chordRulesOf cfg ms) e = some s') :
    ∃ km', processInputN ⟨system K, refs, S⟩ (n + 4) km e = .ok km' ∧ CCore K cfg count ms km' s' ∧ Near cfg.timeout s' ∧ s'.delay = s.delay := by
  cases hw : s.waiting with
  | none => exact h.take_free (S := S) (n := n) hk hw hroom he hs
  | some w =>
    obtain ⟨km', h1, h2, h3, h4, h5⟩ := h.take_waiting (refs := refs) (S := S) (n := n) hk.one hw he hs
    refine ⟨km', h1, h2, ?_, h5⟩
    intro t ht
    rw [h3] at ht
    have := hroom t ht
    rw [h4]
    omega

/-- The keymap and the board between two calls. -/
structure CSim (K : Keys) (cfg : Chorded.Config) (count ms : Nat) (km : CKM) (s : State) : Prop where
  core : CCore K cfg count ms km s
  near : Near cfg.timeout s
  roomy : s.delay = 0 → Roomy cfg.timeout ms s

theorem CSim.input (hk : ChordKeymap K refs cfg count ms layout) {km : CKM} {s s' : State} {e : InputEvent} (h : CSim K cfg count ms km s)
    (he : isPhysical e = true) (hs : s.input layout (chordRulesOf cfg ms) e = some s') :
    ∃ km', handleInput ⟨system K, refs, S⟩ (n + 4) km e = .ok km' ∧ CSim K cfg count ms km' s' := by
  have hc := h.core
  have hb := hc.book
  unfold State.input at hs
  unfold handleInput
  simp only [inputCap, hb.inq] at hs ⊢
  split at hs
  · rename_i hq
    cases hs
    rw [if_pos hq]
    exact ⟨_, rfl, ⟨hc.wait.congr rfl rfl rfl rfl rfl rfl rfl rfl rfl, rfl, hb.delay, hb.counter, rfl, Nat.zero_le _, hb.msEq, hb.times, hb.spaced,
      hb.future, hb.phys⟩, h.near, h.roomy⟩
  · rename_i hq
    rw [if_neg hq]
    have hphys : ∀ x ∈ s.queue ++ [e], isPhysical x = true := by
      intro x hx
      simp only [List.mem_append, List.mem_cons, List.not_mem_nil, or_false] at hx
      rcases hx with hx | rfl
      · exact hb.phys x hx
      · exact he
    split at hs
    · rename_i hd
      rw [if_pos (by rw [hb.delay]; exact hd)]
      obtain ⟨e', q', hcons⟩ : ∃ e' q', s.queue ++ [e] = e' :: q' := by cases s.queue <;> exact ⟨_, _, rfl⟩
      rw [hcons] at hphys hs ⊢
      simp only [State.takeOldest, Option.map_eq_some_iff] at hs
      obtain ⟨s2, hs2, rfl⟩ := hs
      have hc2 : CCore K cfg count ms { km with idle := 0, inq := q', log := km.log ++ [e'] } { s with idle := 0, queue := q' } :=
        ⟨hc.wait.congr rfl rfl rfl rfl rfl rfl rfl rfl rfl, rfl, hb.delay, hb.counter, rfl, Nat.zero_le _, hb.msEq, hb.times, hb.spaced, hb.future,
          fun x hx => hphys x (List.mem_cons_of_mem _ hx)⟩
      obtain ⟨km', h1, h2, h3, _⟩ := hc2.take (S := S) (n := n) hk (h.roomy hd) (hphys e' List.mem_cons_self) hs2
      have hb2 := h2.book
      refine ⟨{ km' with delay := inputDelay }, ?_, ⟨h2.wait.congr rfl rfl rfl rfl rfl rfl rfl rfl rfl, hb2.inq, rfl, hb2.counter, hb2.idle, hb2.idleLe,
        hb2.msEq, hb2.times, hb2.spaced, hb2.future, hb2.phys⟩, h3, fun h0 => by simp at h0⟩
      simp only
      rw [h1]
      rfl
    · rename_i hd
      rw [if_neg (by rw [hb.delay]; exact hd)]
      cases hs
      exact ⟨_, rfl, ⟨hc.wait.congr rfl rfl rfl rfl rfl rfl rfl rfl rfl, rfl, hb.delay, hb.counter, rfl, Nat.zero_le _, hb.msEq, hb.times, hb.spaced,
        hb.future, hphys⟩, h.near, h.roomy⟩

theorem CCore.pending {km : CKM} {s : State} (h : CCore K cfg count ms km s) : km.sched.pending = [] := by
  have hwait := h.wait
  cases hw : s.waiting with
  | none => rw [hw] at hwait; exact hwait.2.1.pending
  | some w => rw [hw] at hwait; exact WaitsFor.core hwait |>.pending

/-- Time passes, and no live timer is due. -/
theorem CCore.pass_quiet {km : CKM} {s s' : State} {sch : Sched Ev} (h : CCore K cfg count ms km s) (hs : s.pass (chordRulesOf cfg ms) = some s')
    (h1 : sch.pending = []) (h2 : sch.scheduled.map Verif.Timed.time = s.timers.filter (fun t => s.clock + ms < t)) (h3 : sch.counter = s.clock + ms)
    (h4 : ∀ e ∈ sch.scheduled, e ∈ km.sched.scheduled) (h5 : ∀ w, s.waiting = some w → timerOf w ∈ sch.scheduled) :
    CCore K cfg count ms { km with sched := sch } s' := by
  have hpnd := h.pending
  have hb := h.book
  have hs' : s' = { s with clock := s.clock + ms, timers := s.timers.filter (fun t => s.clock + ms < t) } := by
    unfold State.pass at hs
    split at hs
    · simp only at hs
      split at hs
      · rename_i w hw
        have hm : w.deadline ∈ s.timers.filter (fun t => s.clock + ms < t) := by
          rw [← h2]; exact List.mem_map_of_mem (f := Verif.Timed.time) (h5 w hw)
        have := (List.mem_filter.1 hm).2
        simp only [decide_eq_true_eq] at this
        rw [if_neg (by show ¬ w.deadline ≤ s.clock + ms; omega)] at hs
        cases hs; rfl
      · cases hs; rfl
    · cases hs
  subst hs'
  refine ⟨?_, hb.inq, hb.delay, h3, hb.idle, by have := hb.idleLe; show s.idle ≤ s.clock + ms; omega, hb.msEq, h2, hb.spaced.filter _, ?_, hb.phys⟩
  · have hwait := h.wait
    show Waits K cfg count ms _ _ s.waiting
    have hJ : ∀ wt is, CoreWith K count (Tracks cfg ms s is) km s.board →
        CoreWith K count (Tracks cfg ms { s with waiting := wt, clock := s.clock + ms, timers := s.timers.filter (fun t => s.clock + ms < t) } is)
          { km with sched := sch } s.board := by
      intro wt is hc
      exact ⟨h1, hc.held, hc.nodup, hc.len, hc.active, hc.pressedIdx, hc.caps, hc.layers, hc.dflt, hc.layerCount, hc.dfltOk, hc.fits, hc.idle.congr rfl rfl rfl⟩
    cases hw : s.waiting with
    | none =>
      rw [hw] at hwait
      exact ⟨hwait.1, hJ _ _ hwait.2.1, fun e he => hwait.2.2 e (h4 e he)⟩
    | some w =>
      rw [hw] at hwait
      have hwf : WaitsFor K cfg count ms km s w := hwait
      exact ⟨hwf.key, hwf.fits, hwf.leads, hwf.maybe, hwf.notHeld, hwf.room, hJ _ _ hwf.core, h5 w hw, fun e he => hwf.live e (h4 e he), hwf.phys⟩
  · intro t ht
    have := (List.mem_filter.1 ht).2
    simpa using this

/-- The timer and the context. -/
theorem ctx_timeout (c : Ctx) (i : Nat) : c.handleEvent (.key i (.chorded .timeout)) = .ok (c, []) := by
  rw [ctx_chorded]; rfl

/-- Time passes. -/
theorem CCore.pass (hone : ∀ ch ∈ cfg.chords, ch ≠ []) {km : CKM} {s s' : State} (h : CCore K cfg count ms km s) (hs : s.pass (chordRulesOf cfg ms) = some s') :
    ∃ sch km', km.sched.tick ms = .ok sch ∧ drainN ⟨system K, refs, S⟩ (n + 4) { km with sched := sch } = .ok km' ∧ CCore K cfg count ms km' s' ∧
      s'.clock = s.clock + ms ∧ (∀ t ∈ s'.timers, t ∈ s.timers) ∧ s'.delay = s.delay ∧ s'.idle = s.idle := by
  have hwait := h.wait
  have hb := h.book
  have hpnd := h.pending
  have hclk : s.clock + ms < 2 ^ 32 := by
    unfold State.pass at hs
    split at hs
    · assumption
    · cases hs
  have hframe : s'.clock = s.clock + ms ∧ (∀ t ∈ s'.timers, t ∈ s.timers) ∧ s'.delay = s.delay ∧ s'.idle = s.idle := by
    have hbase : ∀ s2 : State, s2.clock = s.clock + ms → s2.timers = s.timers.filter (fun t => s.clock + ms < t) → s2.delay = s.delay → s2.idle = s.idle →
        s2.clock = s.clock + ms ∧ (∀ t ∈ s2.timers, t ∈ s.timers) ∧ s2.delay = s.delay ∧ s2.idle = s.idle :=
      fun s2 a b c d => ⟨a, by rw [b]; exact fun t ht => (List.mem_filter.1 ht).1, c, d⟩
    unfold State.pass at hs
    split at hs
    · simp only at hs
      split at hs
      · rename_i w hw
        split at hs
        · unfold State.settle at hs
          split at hs
          · cases hs
            obtain ⟨_, _, mt, mc, md, mid, _⟩ := mark_frame { s with clock := s.clock + (chordRulesOf cfg ms).ms, timers := s.timers.filter (fun t => s.clock + (chordRulesOf cfg ms).ms < t) }
              (w.outcome (chordRulesOf cfg ms))
            exact hbase _ mc mt md mid
          · cases hs
        · cases hs; exact hbase _ rfl rfl rfl rfl
      · cases hs; exact hbase _ rfl rfl rfl rfl
    · cases hs
  have hu : km.sched.counter + ms < u32Size := by rw [hb.counter]; unfold u32Size; omega
  suffices hmain : ∃ sch km', km.sched.tick ms = .ok sch ∧ drainN ⟨system K, refs, S⟩ (n + 4) { km with sched := sch } = .ok km' ∧
      CCore K cfg count ms km' s' by
    obtain ⟨sch, km', a, b, c⟩ := hmain
    exact ⟨sch, km', a, b, c, hframe⟩
  have htimes := hb.times
  have hsp := hb.spaced
  have hfut := hb.future
  -- no live timer is due
  have quiet : ∀ sch : Sched Ev, sch.pending = [] → sch.scheduled.map Verif.Timed.time = s.timers.filter (fun t => s.clock + ms < t) →
      sch.counter = s.clock + ms → (∀ e ∈ sch.scheduled, e ∈ km.sched.scheduled) → (∀ w, s.waiting = some w → timerOf w ∈ sch.scheduled) →
      CCore K cfg count ms { km with sched := sch } s' := fun sch => h.pass_quiet hs
  cases hl : km.sched.scheduled with
  | nil =>
    have ht : s.timers = [] := by rw [← htimes, hl]; rfl
    have hst : km.sched.tick ms = .ok { km.sched with counter := km.sched.counter + ms } := by
      simp only [Sched.tick, hu, if_true, hl]
    refine ⟨_, _, hst, drain_empty hpnd, ?_⟩
    refine quiet _ hpnd (by rw [hl, ht]; rfl) (by show km.sched.counter + ms = _; rw [hb.counter]) (fun e he => he) ?_
    intro w hw
    rw [hw] at hwait
    exact WaitsFor.timer hwait
  | cons t rest =>
    rw [hl, List.map_cons] at htimes
    have hft : s.clock < t.time := hfut _ (by rw [← htimes]; exact List.mem_cons_self)
    by_cases hdue : t.time ≤ s.clock + ms
    · have hfilter : s.timers.filter (fun t => s.clock + ms < t) = rest.map Verif.Timed.time := by
        rw [← htimes]
        exact filter_rest (by rw [htimes]; exact hsp) hft hdue
      have hst : km.sched.tick ms = .ok { km.sched with counter := km.sched.counter + ms, scheduled := rest, pending := [if t.live then some t.event else none] } := by
        simp only [Sched.tick, hu, if_true, hl]
        rw [if_pos (by rw [hb.counter]; exact hdue)]
        simp only [Sched.enqueue, hpnd]
        rfl
      cases hlive : t.live with
      | false =>
        rw [hlive] at hst
        refine ⟨_, _, hst, rfl, ?_⟩
        refine quiet { km.sched with counter := km.sched.counter + ms, scheduled := rest, pending := [] } rfl hfilter.symm
          (by show km.sched.counter + ms = _; rw [hb.counter]) (fun e he => by rw [hl]; exact List.mem_cons_of_mem _ he) ?_
        intro w hw
        rw [hw] at hwait
        have := WaitsFor.timer hwait
        rw [hl, List.mem_cons] at this
        rcases this with rfl | this
        · simp [timerOf] at hlive
        · exact this
      | true =>
        rw [hlive] at hst
        cases hw : s.waiting with
        | none =>
          rw [hw] at hwait
          have := hwait.2.2 t (by rw [hl]; exact List.mem_cons_self)
          rw [hlive] at this; cases this
        | some w =>
          rw [hw] at hwait
          have hwf : WaitsFor K cfg count ms km s w := hwait
          have htw : t = timerOf w := hwf.live t (by rw [hl]; exact List.mem_cons_self) hlive
          obtain ⟨cr, hp, hpos⟩ := hwf.key
          have hcfg : km.ctx.chorded.config = cfg := hwf.core.idle.config
          have hdl : w.deadline ≤ s.clock + ms := by rw [htw] at hdue; exact hdue
          have holt := outcome_lt (r := chordRulesOf cfg ms) hwf.maybe
          -- the state with the timer removed
          have hset : State.settle (chordRulesOf cfg ms) { s with clock := s.clock + ms, timers := s.timers.filter (fun t => s.clock + ms < t) } w
              (w.outcome (chordRulesOf cfg ms)) = some s' := by
            unfold State.pass at hs
            rw [if_pos (by exact hclk)] at hs
            simp only [hw] at hs
            rw [if_pos (by exact hdl)] at hs
            rw [← hs]
            rw [hw]
            rfl
          have hcwait : CWait K cfg count ms { km with sched := { km.sched with counter := km.sched.counter + ms, scheduled := rest, pending := [] } }
              { s with clock := s.clock + ms, timers := s.timers.filter (fun t => s.clock + ms < t) } w := by
            have hc := hwf.core
            refine ⟨hwf.notHeld, hwf.room, ⟨rfl, hc.held, hc.nodup, hc.len, hc.active, hc.pressedIdx, hc.caps, hc.layers, hc.dflt, hc.layerCount, hc.dfltOk,
              hc.fits, hc.idle.congr rfl rfl rfl⟩, fun e he => hwf.live e (by rw [hl]; exact List.mem_cons_of_mem _ he), hb.inq, hb.delay,
              by show km.sched.counter + ms = s.clock + ms; rw [hb.counter], hb.idle, by have := hb.idleLe; show s.idle ≤ s.clock + ms; omega, hb.msEq,
              hfilter.symm, hsp.filter _, fun t ht => by simpa using (List.mem_filter.1 ht).2, hb.phys⟩
          obtain ⟨nk, hnk, _, hup⟩ := chord_outcome (cfg := cfg) (ms := ms) hpos w.key hwf.leads hone (w.outcome (chordRulesOf cfg ms)) holt
          obtain ⟨km', h1, h2, _, _, _, h6, h7⟩ := hcwait.settle (refs := refs) (S := S) (n := n + 2) (nk := nk)
            (p := ⟨w.key, .chorded cr, .chorded (asPks (chordRulesOf cfg ms) w), w.seen.map Event.input⟩) rfl hwf.phys rfl rfl rfl hnk hwf.fits holt hset n (n + 1)
          refine ⟨_, km', hst, ?_, h2⟩
          have hcore' : CoreWith K count (Tracks cfg ms s' (s'.board.held.map Prod.fst)) km' s'.board := by have := h2.wait; rw [h7] at this; exact this.2.1
          have hev : t.event = .key w.key (.chorded .timeout) := by rw [htw]; rfl
          have hup' := hup km.ctx _ _ (.key w.key (.chorded .timeout)) (.key w.key .timeout) hcfg rfl (pks_timeout (chordRulesOf cfg ms) w cfg.maxChordSize w.key w.key)
          have hhe : handleEvent ⟨system K, refs, S⟩ (n + 4)
              { km with sched := { km.sched with counter := km.sched.counter + ms, scheduled := rest, pending := [] } } (.key w.key (.chorded .timeout)) =
              .ok km' := by
            rw [handleEvent]
            simp only [handleBody, KM.fire, Verif.updatePending, hp]
            rw [show (system K).updatePending (.chorded (asPks (chordRulesOf cfg ms) w)) w.key km.ctx (.chorded cr) (.key w.key (.chorded .timeout)) =
              updatePending K (.chorded (asPks (chordRulesOf cfg ms) w)) w.key km.ctx (.chorded cr) (.key w.key (.chorded .timeout)) from rfl, hup']
            simp only [Res.ok_bind]
            rw [Sched.scheduleAll_imm S _ rfl]
            simp only [Res.ok_bind]
            have h1' := h1
            simp only at h1'
            rw [h1']
            simp only [Res.ok_bind]
            rw [notifyAll_quiet (C := ⟨system K, refs, S⟩) (km := km') (ev := .key w.key (.chorded .timeout)) (ctx := km'.ctx)
              (fun j r ks hm => updateState_quiet hcore'.held km'.ctx (.key w.key (.chorded .timeout)) (by intro j; simp) j r ks hm)
              (ctx_timeout km'.ctx w.key)]
            rfl
          unfold drainN
          rw [drain_one (ev := .key w.key (.chorded .timeout)) (q := []) (by simp [hev])]
          rw [hhe]
          exact drain_empty h6
    · have hnd : s.clock + ms < t.time := by omega
      have hfilter : s.timers.filter (fun t => s.clock + ms < t) = s.timers := by
        rw [← htimes]
        exact filter_all (by rw [htimes]; exact hsp) hnd
      have hst : km.sched.tick ms = .ok { km.sched with counter := km.sched.counter + ms } := by
        simp only [Sched.tick, hu, if_true, hl]
        rw [if_neg (by rw [hb.counter]; exact hdue)]
      refine ⟨_, _, hst, drain_empty hpnd, ?_⟩
      refine quiet _ hpnd (by rw [hfilter]; exact hb.times) (by show km.sched.counter + ms = _; rw [hb.counter]) (fun e he => he) ?_
      intro w hw
      rw [hw] at hwait
      exact WaitsFor.timer hwait

theorem pass_clock {r : Rules} {s s' : State} (h : s.pass r = some s') : s.clock + r.ms < 2 ^ 32 := by
  unfold State.pass at h
  split at h
  · assumption
  · cases h

theorem CSim.tick (hk : ChordKeymap K refs cfg count ms layout) {km : CKM} {s s' : State} (h : CSim K cfg count ms km s)
    (hs : s.tick layout (chordRulesOf cfg ms) = some s') :
    ∃ km', Verif.tick ⟨system K, refs, S⟩ (n + 4) km = .ok km' ∧ CSim K cfg count ms km' s' := by
  have hc := h.core
  have hb := hc.book
  -- the context learns the idle time
  obtain ⟨km1, hkm1⟩ : ∃ km1 : CKM, km1 = { km with ctx := km.ctx.setKeymapContext km.sched.counter km.idle } := ⟨_, rfl⟩
  have hcore : ∀ (b : Board.State) wt is, CoreWith K count (Tracks cfg ms s is) km b →
      CoreWith K count (Tracks cfg ms { s with waiting := wt, idleSeen := s.idle } is) km1 b := by
    intro b wt is h
    subst hkm1
    refine ⟨h.pending, h.held, h.nodup, h.len, h.active, h.pressedIdx, h.caps, h.layers, h.dflt, h.layerCount, h.dfltOk, h.fits, ?_⟩
    have := h.idle.setIdle km.idle
    rw [hb.idle] at this
    show Tracks _ _ _ _ (km.ctx.chorded.setIdle km.idle)
    rw [hb.idle]
    exact this.congr rfl rfl rfl
  have h1 : CCore K cfg count ms km1 { s with idleSeen := s.idle } := by
    have hwait := hc.wait
    have hpend : km1.pend = km.pend := by subst hkm1; rfl
    have hsch : km1.sched = km.sched := by subst hkm1; rfl
    refine ⟨?_, by subst hkm1; exact hb.inq, by subst hkm1; exact hb.delay, by rw [hsch]; exact hb.counter, by subst hkm1; exact hb.idle, hb.idleLe,
      by subst hkm1; exact hb.msEq, by rw [hsch]; exact hb.times, hb.spaced, hb.future, hb.phys⟩
    show Waits K cfg count ms km1 _ s.waiting
    cases hw : s.waiting with
    | none =>
      rw [hw] at hwait
      exact ⟨hpend.trans hwait.1, hcore _ _ _ hwait.2.1, by rw [hsch]; exact hwait.2.2⟩
    | some w =>
      rw [hw] at hwait
      have hwf : WaitsFor K cfg count ms km s w := hwait
      exact ⟨by rw [hpend]; exact hwf.key, hwf.fits, hwf.leads, hwf.maybe, hwf.notHeld, hwf.room, hcore _ _ _ hwf.core, by rw [hsch]; exact hwf.timer,
        by rw [hsch]; exact hwf.live, hwf.phys⟩
  have hb1 := h1.book
  have htick : Verif.tick ⟨system K, refs, S⟩ (n + 4) km = (tickInput ⟨system K, refs, S⟩ (n + 4) km1 >>= fun km2 => do
        let s ← km2.sched.tick km2.msPerTick
        let km ← drainN ⟨system K, refs, S⟩ (n + 4) { km2 with delay := km2.delay - 1, sched := s }
        if km.idle + km.msPerTick < u32Size then pure { km with idle := km.idle + km.msPerTick } else .panic .arith) := by
    subst hkm1; rfl
  -- time passes
  have clock : ∀ (km2 : CKM) (s2 s3 : State), CCore K cfg count ms { km2 with delay := km2.delay - 1 } s2 → Near cfg.timeout s2 →
      s2.pass (chordRulesOf cfg ms) = some s3 →
      ∃ km', (do
        let s ← km2.sched.tick km2.msPerTick
        let km ← drainN ⟨system K, refs, S⟩ (n + 4) { km2 with delay := km2.delay - 1, sched := s }
        if km.idle + km.msPerTick < u32Size then pure { km with idle := km.idle + km.msPerTick } else .panic .arith) = Res.ok km' ∧
      CSim K cfg count ms km' { s3 with idle := s3.idle + ms } := by
    intro km2 s2 s3 h2 hnear hp
    obtain ⟨sch, km', a1, a2, a3, a4, a5, a6, a7⟩ := h2.pass (refs := refs) (S := S) (n := n) hk.one hp
    have hb2 := h2.book
    have b3 := a3.book
    have hm : km2.msPerTick = ms := hb2.msEq
    have hle := hb2.idleLe
    have hclk := pass_clock hp
    simp only [chordRulesOf] at hclk
    refine ⟨{ km' with idle := km'.idle + km'.msPerTick }, ?_, ?_⟩
    · simp only at a1 a2
      rw [← hm] at a1
      rw [a1]
      simp only [Res.ok_bind]
      rw [a2]
      simp only [Res.ok_bind]
      rw [if_pos (by rw [b3.idle, b3.msEq, a7]; unfold u32Size; omega)]
      rfl
    · refine ⟨⟨a3.wait.congr rfl rfl rfl rfl rfl rfl rfl rfl rfl, b3.inq, b3.delay, b3.counter, ?_, ?_, b3.msEq, b3.times, b3.spaced, b3.future, b3.phys⟩, ?_, ?_⟩
      · show km'.idle + km'.msPerTick = s3.idle + ms
        rw [b3.idle, b3.msEq]
      · show s3.idle + ms ≤ s3.clock
        omega
      · intro t ht
        have := hnear t (a5 t ht)
        show t ≤ s3.clock + cfg.timeout
        omega
      · intro _ t ht
        have := hnear t (a5 t ht)
        show t + ms ≤ s3.clock + cfg.timeout
        omega
  rw [htick]
  unfold State.tick at hs
  simp only [Option.map_eq_some_iff] at hs
  obtain ⟨s3, hs3, rfl⟩ := hs
  by_cases hcond : s.delay = 0 ∧ s.queue ≠ []
  · rw [if_pos hcond, Option.bind_eq_some_iff] at hs3
    obtain ⟨s2, hs2, hp⟩ := hs3
    cases hq : s.queue with
    | nil => exact absurd hq hcond.2
    | cons e q =>
      have hphys : ∀ x ∈ e :: q, isPhysical x = true := by rw [← hq]; exact hb.phys
      simp only [State.takeOldest, hq] at hs2
      have hc2 : CCore K cfg count ms { km1 with inq := q, log := km1.log ++ [e] } { s with idleSeen := s.idle, queue := q } :=
        ⟨h1.wait.congr rfl rfl rfl rfl rfl rfl rfl rfl rfl, rfl, hb1.delay, hb1.counter, hb1.idle, hb1.idleLe, hb1.msEq, hb1.times, hb1.spaced, hb1.future,
          fun x hx => hphys x (List.mem_cons_of_mem _ hx)⟩
      obtain ⟨km2, b1, b2, b3, b4⟩ := hc2.take (S := S) (n := n) hk (h.roomy hcond.1) (hphys e List.mem_cons_self) hs2
      have hti : tickInput ⟨system K, refs, S⟩ (n + 4) km1 = .ok { km2 with delay := inputDelay } := by
        unfold tickInput
        rw [hb1.inq]
        simp only [hq]
        rw [if_pos (by rw [hb1.delay]; exact hcond.1), b1]
        rfl
      rw [hti]
      simp only [Res.ok_bind]
      have bb := b2.book
      refine clock { km2 with delay := inputDelay } s2 s3 ?_ b3 hp
      refine ⟨b2.wait.congr rfl rfl rfl rfl rfl rfl rfl rfl rfl, bb.inq, ?_, bb.counter, bb.idle, bb.idleLe, bb.msEq, bb.times, bb.spaced, bb.future, bb.phys⟩
      show inputDelay - 1 = s2.delay
      rw [b4]
      exact hcond.1.symm
  · rw [if_neg hcond] at hs3
    simp only [Option.bind_some] at hs3
    have hti : tickInput ⟨system K, refs, S⟩ (n + 4) km1 = .ok km1 := by
      unfold tickInput
      rw [hb1.inq]
      cases hq : s.queue with
      | nil => rfl
      | cons e q =>
        simp only
        rw [if_neg]
        rw [hb1.delay]
        intro hd
        exact hcond ⟨hd, by rw [hq]; simp⟩
    rw [hti]
    simp only [Res.ok_bind]
    refine clock km1 { s with idleSeen := s.idle, delay := s.delay - 1 } s3 ?_ h.near hs3
    refine ⟨h1.wait.congr rfl rfl rfl rfl rfl rfl rfl rfl rfl, hb1.inq, ?_, hb1.counter, hb1.idle, hb1.idleLe, hb1.msEq, hb1.times, hb1.spaced, hb1.future, hb1.phys⟩
    show km1.delay - 1 = s.delay - 1
    rw [hb1.delay]

theorem CCore.outputs {km : CKM} {s : State} (h : CCore K cfg count ms km s) : km.pressedKeys ⟨system K, refs, S⟩ = .ok s.board.outputs := by
  have hwait := h.wait
  cases hw : s.waiting with
  | none => rw [hw] at hwait; exact pressedOutputs_held hwait.2.1.held
  | some w => rw [hw] at hwait; exact pressedOutputs_held (WaitsFor.core hwait).held

theorem CSim.run (hk : ChordKeymap K refs cfg count ms layout) (calls : List Board.Call) {km : CKM} {s s' : State} (h : CSim K cfg count ms km s)
    (hp : ∀ e ∈ eventsIn calls, isPhysical e = true) (hs : s.run layout (chordRulesOf cfg ms) calls = some s') :
    ∃ km', Verif.run ⟨system K, refs, S⟩ (n + 4) km (calls.map toOp) = .ok km' ∧ CSim K cfg count ms km' s' := by
  induction calls generalizing km s with
  | nil => cases hs; exact ⟨km, rfl, h⟩
  | cons c cs ih =>
    cases c with
    | input e =>
      simp only [eventsIn, List.mem_cons, forall_eq_or_imp] at hp
      simp only [State.run, Option.bind_eq_some_iff] at hs
      obtain ⟨s1, hs1, hs2⟩ := hs
      obtain ⟨km1, h1, h2⟩ := h.input (S := S) (n := n) hk hp.1 hs1
      obtain ⟨km2, h3, h4⟩ := ih h2 hp.2 hs2
      refine ⟨km2, ?_, h4⟩
      simp only [List.map_cons, toOp, Verif.run, step, h1, Res.ok_bind]
      exact h3
    | tick =>
      simp only [State.run, Option.bind_eq_some_iff] at hs
      obtain ⟨s1, hs1, hs2⟩ := hs
      obtain ⟨km1, h1, h2⟩ := h.tick (S := S) (n := n) hk hs1
      obtain ⟨km2, h3, h4⟩ := ih h2 hp hs2
      refine ⟨km2, ?_, h4⟩
      simp only [List.map_cons, toOp, Verif.run, step, h1, Res.ok_bind]
      exact h3
    | report =>
      have hc := h.core
      have hb := hc.book
      have h2 : CSim K cfg count ms { km with rep := (km.rep.report s.board.outputs).1 } s :=
        ⟨⟨hc.wait.congr rfl rfl rfl rfl rfl rfl rfl rfl rfl, hb.inq, hb.delay, hb.counter, hb.idle, hb.idleLe, hb.msEq, hb.times, hb.spaced, hb.future, hb.phys⟩,
          h.near, h.roomy⟩
      obtain ⟨km2, h3, h4⟩ := ih h2 hp hs
      refine ⟨km2, ?_, h4⟩
      simp only [List.map_cons, toOp, Verif.run, step, reportOutput, hc.outputs (refs := refs) (S := S), Res.ok_bind, Res.pure_eq]
      exact h3

theorem CSim.start {c : Config} (h : c.chorded.chords.length ≤ c.maxChords) :
    CSim K c.chorded c.layerCount ms ((KM.new (Ctx.fromConfig c)).setMsPerTick ms) (State.new c.layerCount c.chorded.chords.length) := by
  refine ⟨⟨⟨rfl, ⟨rfl, rfl, by simp [State.new], by simp [State.new], rfl, rfl, rfl, ?_, rfl, by simp [State.new], by simp [State.new], by simp [State.new], ?_⟩, ?_⟩,
    rfl, rfl, rfl, rfl, Nat.le_refl _, rfl, rfl, ?_, ?_, ?_⟩, ?_, ?_⟩
  · simp [State.new, KM.new, KM.setMsPerTick, Ctx.fromConfig, Layered.Ctx.new, Layered.act]
  · exact Tracks.new h
  · intro e he; simp [KM.setMsPerTick, KM.new, Sched.new] at he
  all_goals simp [State.new, Near, Roomy]

end Verif.Comp.CH
