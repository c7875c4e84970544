import Verif.Lemmas.TimedRun
import Verif.Spec.DanceLayout

/-!
# The keymap with tap-dance keys follows the board
-/

namespace Verif.Comp

open Board

/-! ## The layout -/

section

open Dance

variable {K : Keys} {refs : List Ref} {S : Search}

theorem dancesOf_spec {rs : List (Option Ref)} {cs : List (Option Act)} (h : dancesOf K rs = some cs) :
    rs.length = cs.length ∧ (∀ i : Nat, rs[i]? = some none → cs[i]? = some none) ∧
      (∀ (i : Nat) r, rs[i]? = some (some r) → ∃ c, danceOf K r = some c ∧ cs[i]? = some (some c)) := by
  induction rs generalizing cs with
  | nil => simp only [dancesOf, Option.some.injEq] at h; subst h; simp
  | cons o rs ih =>
    cases o with
    | none =>
      simp only [dancesOf, Option.map_eq_some_iff] at h
      obtain ⟨cs', h1, rfl⟩ := h
      obtain ⟨a, b, d⟩ := ih h1
      refine ⟨by simp [a], ?_, ?_⟩
      · intro i hi
        cases i with
        | zero => rfl
        | succ i => exact b i (by simpa using hi)
      · intro i r hi
        cases i with
        | zero => simp at hi
        | succ i => exact d i r (by simpa using hi)
    | some r =>
      simp only [dancesOf] at h
      split at h
      · rename_i c cs' hc h1
        cases h
        obtain ⟨a, b, d⟩ := ih h1
        refine ⟨by simp [a], ?_, ?_⟩
        · intro i hi
          cases i with
          | zero => simp at hi
          | succ i => exact b i (by simpa using hi)
        · intro i r' hi
          cases i with
          | zero => simp only [List.getElem?_cons_zero, Option.some.injEq] at hi; subst hi; exact ⟨c, hc, rfl⟩
          | succ i => exact d i r' (by simpa using hi)
      · cases h

theorem danceLayoutOf_get {layout : List Pos} (h : danceLayoutOf K refs = some layout) (i : Nat) :
    (refs[i]?).map (dancePosOf K) = (layout[i]?).map some := by
  induction refs generalizing layout i with
  | nil => simp only [danceLayoutOf, Option.some.injEq] at h; subst h; simp
  | cons r rs ih =>
    simp only [danceLayoutOf] at h
    split at h
    · rename_i e es he hes
      cases h
      cases i with
      | zero => simp [he]
      | succ i => simpa using ih hes i
    · cases h

/-- The keys of a tap-dance key. -/
theorem dancersOf_spec {rs : List (Option Ref)} {cs : List Cell} (h : dancersOf K rs = some cs) :
    rs.countP Option.isSome = cs.length ∧ ∀ (i : Nat) c, cs[i]? = some c → ∃ r, rs[i]? = some (some r) ∧ cellOf K r = some c := by
  induction rs generalizing cs with
  | nil => simp only [dancersOf, Option.some.injEq] at h; subst h; simp
  | cons o rs ih =>
    cases o with
    | none =>
      simp only [dancersOf] at h
      split at h
      · rename_i hall
        cases h
        refine ⟨?_, by simp⟩
        rw [List.countP_cons_of_neg (by simp), List.length_nil, List.countP_eq_zero]
        intro x hx
        have := List.all_eq_true.1 hall x hx
        cases x <;> simp_all
      · cases h
    | some r =>
      simp only [dancersOf] at h
      split at h
      · rename_i c cs' hc h1
        cases h
        obtain ⟨a, b⟩ := ih h1
        refine ⟨by rw [List.countP_cons_of_pos rfl, a]; rfl, ?_⟩
        intro i c' hi
        cases i with
        | zero =>
          simp only [List.getElem?_cons_zero, Option.some.injEq] at hi
          subst hi
          exact ⟨r, rfl, hc⟩
        | succ i => exact b i c' hi
      · cases h

theorem danceOf_cases {r : Ref} {a : Act} (h : danceOf K r = some a) :
    (∃ c, a = .cell c ∧ cellOf K r = some c) ∨
    (∃ k key cs, r = .tapDance k ∧ K.tapDance[k]? = some key ∧ dancersOf K key.definitions = some cs ∧ a = .dance cs) := by
  unfold danceOf at h
  split at h
  · rename_i k
    split at h
    · rename_i key hk
      simp only [Option.map_eq_some_iff] at h
      obtain ⟨cs, h1, rfl⟩ := h
      exact .inr ⟨k, key, cs, rfl, hk, h1, rfl⟩
    · cases h
  · simp only [Option.map_eq_some_iff] at h
    obtain ⟨c, hc, rfl⟩ := h
    exact .inl ⟨c, rfl, hc⟩

/-- A layered key becomes the key the board picks. -/
theorem press_dancePos {he : Handler Ref Ev Ctx PKS KS} {m : Nat} {km : CKM} {s : Board.State} {i : Nat} {r0 : Ref} {p : Pos}
    (h : dancePosOf K r0 = some p) (hl : km.ctx.layered.layers = s.on.map Layered.act) (hd : km.ctx.layered.defaultLayer = s.dflt)
    (hdf : ∀ d, s.dflt = some d → 0 < d ∧ d ≤ s.on.length) (hf : p.Fits s.on.length) :
    ∃ r m', m ≤ m' ∧ danceOf K r = some (p.pick s) ∧ (p.pick s).Fits s.on.length ∧
      pressLoop ⟨system K, refs, S⟩ he i (m + 1) km r0 = pressLoop ⟨system K, refs, S⟩ he i m' km r := by
  have plain : ∀ a, danceOf K r0 = some a → p = .act a → ∃ r m', m ≤ m' ∧ danceOf K r = some (p.pick s) ∧ (p.pick s).Fits s.on.length ∧
      pressLoop ⟨system K, refs, S⟩ he i (m + 1) km r0 = pressLoop ⟨system K, refs, S⟩ he i m' km r := by
    rintro a ha rfl
    exact ⟨r0, m + 1, by omega, ha, hf, rfl⟩
  unfold dancePosOf at h
  split at h
  · rename_i j
    split at h
    · rename_i k hk
      split at h
      · rename_i b as hb has
        cases h
        obtain ⟨hl1, hl2, hl3⟩ := dancesOf_spec has
        refine ⟨lookup s.on s.dflt k.base k.layered, m, Nat.le_refl _,
          lookup_decode hb hl1 hl2 hl3 s.on (by rw [hl1, hf.2.1]) s.dflt, ?_, ?_⟩
        · exact Cell.Fits_lookup (P := fun a : Act => a.Fits s.on.length) hf.1 hf.2.2 hf.2.1.symm
        · have hi : Res.index K.layered j = .ok k := by simpa using hk
          have hn := Layered.newPressedKey_lookup (k := k) hl (by rw [hl1, hf.2.1]) (by rw [hd]; exact hdf)
          rw [hd] at hn
          have : newPressedKey K i km.ctx (.layered (.layered j)) = .ok (.newPressedKey (.key (lookup s.on s.dflt k.base k.layered)), []) := by
            simp only [newPressedKey, Layered.sysNewPressedKey, hi, hn, Res.ok_bind, Res.pure_eq, KeyEvents.mapEv, List.map_nil]
          rw [pressLoop]
          rw [show (system K).newPressedKey i km.ctx (.layered (.layered j)) = newPressedKey K i km.ctx (.layered (.layered j)) from rfl, this]
          simp only [Res.ok_bind, Sched.scheduleAll]
      · cases h
    · cases h
  · simp only [Option.map_eq_some_iff] at h
    obtain ⟨a, ha, rfl⟩ := h
    exact plain a ha rfl

end

/-! ## The waiting key -/

/-- The waiting key as one of `Spec/Timed.lean`, which keeps the same events. -/
def asTimed (w : Dance.Waiting) : Timed.Waiting := ⟨w.key, .nothing, .nothing, w.deadline, none, w.seen⟩

theorem ofKey_eq : Dance.ofKey = Timed.ofKey := by
  funext i e
  cases e <;> rfl

theorem asTimed_kept (w : Dance.Waiting) : (asTimed w).kept = w.kept := by
  simp only [Timed.Waiting.kept, Dance.Waiting.kept, ofKey_eq]
  rfl

theorem hold_eq : Dance.hold = Timed.hold := rfl

theorem ctx_tapDance (c : Ctx) (i : Nat) (e : TapDance.Ev) : c.handleEvent (.key i (.tapDance e)) = .ok (c, []) := by
  unfold Ctx.handleEvent sub
  simp only [Event.tryInto, Ev.toAutomation?, Ev.toCapsWord?, Ev.toChorded?, Ev.toLayered?, Ev.toSticky?, Option.map_none,
    Res.ok_bind, Res.pure_eq, KeyEvents.extend]

/-- A timer of a tap-dance key. -/
def danceTimer (i n t : Nat) : Verif.Timed Ev := ⟨t, .key i (.tapDance (.nextPressTimeout n)), true⟩

/-- The live timers are those of the waiting key: the one of the last press is due at the deadline. -/
structure LiveTimers (w : Dance.Waiting) (es : List (Verif.Timed Ev)) : Prop where
  all : ∀ e ∈ es, e.live = true → ∃ n t, n ≤ w.again ∧ e = danceTimer w.key n t ∧ (n = w.again → t = w.deadline)

theorem dance_cancel {s : Sched Ev} {w : Dance.Waiting} (h : LiveTimers w s.scheduled) :
    ∀ e ∈ (s.cancel w.key).scheduled, e.live = false := by
  intro e he
  simp only [Sched.cancel, List.mem_map] at he
  obtain ⟨e', he', rfl⟩ := he
  cases hl : e'.live with
  | false => exact cancelOne_dead hl
  | true =>
    obtain ⟨n, t, _, rfl, _⟩ := h.all e' he' hl
    simp [danceTimer, Sched.cancelOne]

/-- A waiting key and the keymap's pending key. -/
structure DWaitsFor (K : Keys) (count : Nat) (km : CKM) (b : Board.State) (w : Dance.Waiting) : Prop where
  key : ∃ k key, km.pend = some ⟨w.key, .tapDance k, .tapDance ⟨w.again⟩, w.seen.map Event.input⟩ ∧ K.tapDance[k]? = some key ∧
    dancersOf K key.definitions = some w.cells
  fits : ∀ c ∈ w.cells, c.Fits count
  more : w.again + 1 < w.cells.length
  max : w.cells.length ≤ 256
  notHeld : w.key ∉ b.held.map Prod.fst
  room : b.held.length < 16
  core : Core K count km b (b.held.map Prod.fst ++ [w.key])
  timer : danceTimer w.key w.again w.deadline ∈ km.sched.scheduled
  live : LiveTimers w km.sched.scheduled
  phys : ∀ e ∈ w.seen, isPhysical e = true

/-- The pending key of the keymap. -/
def DWaits (K : Keys) (count : Nat) (km : CKM) (b : Board.State) : Option Dance.Waiting → Prop
  | none => km.pend = none ∧ Core K count km b (b.held.map Prod.fst) ∧ ∀ e ∈ km.sched.scheduled, e.live = false
  | some w => DWaitsFor K count km b w

/-- Queue, clock and timers. -/
structure DClock (cfg : TapDance.Config) (ms : Nat) (km : CKM) (s : Dance.State) : Prop where
  inq : km.inq = s.queue
  delay : km.delay = s.delay
  counter : km.sched.counter = s.clock
  idleLe : km.idle ≤ s.clock
  td : km.ctx.tapDance = cfg
  msEq : km.msPerTick = ms
  times : km.sched.scheduled.map Verif.Timed.time = s.timers
  spaced : s.timers.Pairwise (fun a b => a + ms ≤ b)
  future : ∀ t ∈ s.timers, s.clock < t
  phys : ∀ e ∈ s.queue, isPhysical e = true

/-- The keymap is in the state of the board. -/
structure DCore (K : Keys) (cfg : TapDance.Config) (count ms : Nat) (km : CKM) (s : Dance.State) : Prop where
  wait : DWaits K count km s.board s.waiting
  clock : DClock cfg ms km s

theorem DWaits.congr {K : Keys} {count : Nat} {km km' : CKM} {b : Board.State} {w : Option Dance.Waiting} (h : DWaits K count km b w)
    (h1 : km'.pend = km.pend) (h2 : km'.pressed = km.pressed) (h3 : km'.ctx = km.ctx) (h4 : km'.sched.pending = km.sched.pending)
    (h5 : km'.sched.scheduled = km.sched.scheduled) : DWaits K count km' b w := by
  cases w with
  | none => exact ⟨h1.trans h.1, h.2.1.congr h4 h2 h3, by rw [h5]; exact h.2.2⟩
  | some w =>
    have h : DWaitsFor K count km b w := h
    exact ⟨by rw [h1]; exact h.key, h.fits, h.more, h.max, h.notHeld, h.room, h.core.congr h4 h2 h3, by rw [h5]; exact h.timer,
      by rw [h5]; exact h.live, h.phys⟩

theorem DCore.pending {K : Keys} {cfg : TapDance.Config} {count ms : Nat} {km : CKM} {s : Dance.State} (h : DCore K cfg count ms km s) :
    km.sched.pending = [] := by
  have := h.wait
  cases hw : s.waiting with
  | none => rw [hw] at this; exact this.2.1.pending
  | some w => rw [hw] at this; exact DWaitsFor.core this |>.pending

open Dance

variable {K : Keys} {refs : List Ref} {S : Search} {cfg : TapDance.Config} {count ms n : Nat} {layout : List Pos}

/-- The settings. -/
def danceRules (c : TapDance.Config) (ms : Nat) : Dance.Rules := ⟨c.timeout, ms⟩

/-! ## Events and the waiting key -/

theorem dkept_phys {w : Waiting} (h : ∀ e ∈ w.seen, isPhysical e = true) : ∀ e ∈ w.kept, isPhysical e = true := by
  intro e he
  simp only [Waiting.kept, List.mem_append, List.mem_filter, Option.mem_toList] at he
  rcases he with he | he
  · exact h e he.1
  · exact h e (List.mem_filter.1 (List.mem_of_getLast? he)).1

/-- The keymap while a key waits; its timer may be gone. -/
structure DWait (K : Keys) (cfg : TapDance.Config) (count ms : Nat) (km : CKM) (s : Dance.State) (w : Waiting) : Prop where
  notHeld : w.key ∉ s.board.held.map Prod.fst
  room : s.board.held.length < 16
  core : Core K count km s.board (s.board.held.map Prod.fst ++ [w.key])
  live : LiveTimers w km.sched.scheduled
  clock : DClock cfg ms km s

/-- The waiting key is decided. -/
theorem DWait.settle {km : CKM} {s s' : Dance.State} {w : Waiting} (h : DWait K cfg count ms km s w)
    (hph : ∀ e ∈ w.seen, isPhysical e = true) {p : Pending Ref Ev PKS} (hi : p.idx = w.key) (hq : p.queued = w.seen.map Event.input)
    {r : Ref} {c : Cell} (hc : w.cells[w.again]? = some c) (hr : cellOf K r = some c) (hf : c.Fits count)
    (hs : s.settle w = some s') (N m : Nat) :
    ∃ km', pendLoop ⟨system K, refs, S⟩ (handleEvent ⟨system K, refs, S⟩ (n + 1)) (N + 2) (m + 1) { km with pend := some p } p (.key r) = .ok km' ∧
      DCore K cfg count ms km' s' ∧ s'.timers = s.timers ∧ s'.clock = s.clock ∧ s'.delay = s.delay ∧ km'.sched.pending = [] ∧
      s'.waiting = none := by
  unfold State.settle at hs
  rw [hc] at hs
  split at hs
  · rename_i h31
    cases hs
    obtain ⟨l, f, h1, h2⟩ := settle_cell (K := K) (refs := refs) (S := S) (n := n) (m := m) (N := N) (km := { km with pend := some p })
      (w := asTimed w) (p := p) (h.core.congr (km' := { km with pend := some p }) rfl rfl rfl) hi hq h.notHeld h.room hr hf
      (by show ((asTimed w).kept ++ km.inq).length ≤ 31; rw [asTimed_kept, h.clock.inq]; exact h31)
    refine ⟨_, h1, ?_, rfl, rfl, rfl, h.core.pending, rfl⟩
    have hheld : (hold s.board w.key c).held.map Prod.fst = s.board.held.map Prod.fst ++ [w.key] := by
      unfold Dance.hold; cases c <;> simp [Cell.press]
    have hk := h.clock
    refine ⟨⟨rfl, by rw [hheld]; exact h2, ?_⟩, ?_, hk.delay, hk.counter, hk.idleLe, hk.td, hk.msEq, ?_, hk.spaced, hk.future, ?_⟩
    · exact dance_cancel h.live
    · show (asTimed w).kept ++ km.inq = w.kept ++ s.queue
      rw [hk.inq, asTimed_kept]
    · show (km.sched.cancel w.key).scheduled.map Verif.Timed.time = s.timers
      rw [cancel_times]; exact hk.times
    · intro e he
      simp only [List.mem_append] at he
      rcases he with he | he
      · exact dkept_phys hph e he
      · exact hk.phys e he
  · cases hs

/-- A timer can be set after the others. -/
theorem DClock.set {km : CKM} {s s' : Dance.State} (h : DClock cfg ms km s) (hms : 1 ≤ ms) (hT : 1 ≤ cfg.timeout)
    (hroom : ∀ t ∈ s.timers, t + ms ≤ s.clock + cfg.timeout) (hs : s.set (danceRules cfg ms) = some s') (e : Event Ev) :
    km.sched.scheduleAfter S cfg.timeout e = .ok { km.sched with scheduled := km.sched.scheduled ++ [⟨s.clock + cfg.timeout, e, true⟩] } ∧
      s' = { s with timers := s.timers ++ [s.clock + cfg.timeout] } ∧
      DClock cfg ms { km with sched := { km.sched with scheduled := km.sched.scheduled ++ [⟨s.clock + cfg.timeout, e, true⟩] } } s' ∧
      (∀ t ∈ s'.timers, t ≤ s'.clock + cfg.timeout) := by
  unfold State.set at hs
  split at hs
  · rename_i hcap
    cases hs
    have hlen' : km.sched.scheduled.length = s.timers.length := by rw [← h.times, List.length_map]
    refine ⟨?_, rfl, ⟨h.inq, h.delay, h.counter, h.idleLe, h.td, h.msEq, ?_, ?_, ?_, h.phys⟩, ?_⟩
    · have hlast := scheduleAfter_last S (e := e) (s := km.sched) (d := cfg.timeout) ?_ ?_ (by rw [hlen']; exact hcap.1)
        (by rw [h.counter]; exact hcap.2)
      · rw [hlast, ← h.counter]
      · rw [h.times]; exact h.spaced.imp (fun hab => by omega)
      · rw [h.times, h.counter]
        intro x hx
        have := hroom x hx
        omega
    · simp only [List.map_append, h.times, List.map_cons, List.map_nil]
      rfl
    · show (s.timers ++ [s.clock + cfg.timeout]).Pairwise _
      rw [List.pairwise_append]
      refine ⟨h.spaced, by simp, ?_⟩
      intro a ha b hb
      simp only [List.mem_cons, List.not_mem_nil, or_false] at hb
      rw [hb]
      exact hroom a ha
    · intro t ht
      simp only [danceRules, List.mem_append, List.mem_cons, List.not_mem_nil, or_false] at ht
      rcases ht with ht | rfl
      · exact h.future t ht
      · show s.clock < s.clock + cfg.timeout
        omega
    · intro t ht
      simp only [danceRules, List.mem_append, List.mem_cons, List.not_mem_nil, or_false] at ht
      show t ≤ s.clock + cfg.timeout
      rcases ht with ht | rfl
      · have := hroom t ht
        omega
      · exact Nat.le_refl _
  · cases hs

/-- An event that is not a press of the waiting key. -/
theorem dance_keep {w : Waiting} {c : Ctx} {k : Nat} {key : TapDance.Key Ref} (hk : K.tapDance[k]? = some key)
    (hd : dancersOf K key.definitions = some w.cells) (hm : w.again + 1 < w.cells.length) {e : InputEvent} (he : e ≠ .press w.key) :
    updatePending K (.tapDance ⟨w.again⟩) w.key c (.tapDance k) (.input e) = .ok (.tapDance ⟨w.again⟩, none, []) := by
  have hi : Res.index K.tapDance k = .ok key := by simpa using hk
  have hcnt : key.definitionCount = w.cells.length := (dancersOf_spec hd).1
  have hev : TapDance.PKS.handleEvent ⟨w.again⟩ c.tapDance w.key (.input e) = .ok (⟨w.again⟩, none, []) := by
    cases e with
    | press j =>
      have : j ≠ w.key := fun h => he (by rw [h])
      simp [TapDance.PKS.handleEvent, this]
    | _ => rfl
  simp only [updatePending, Event.tryInto, TapDance.updatePending, hi, Res.ok_bind, hev, hcnt]
  rw [if_neg (by omega), if_neg (by omega)]
  rfl

/-- The waiting key is pressed again. -/
theorem dance_press {w : Waiting} {c : Ctx} {k : Nat} {key : TapDance.Key Ref} (hk : K.tapDance[k]? = some key)
    (hd : dancersOf K key.definitions = some w.cells) (hm : w.again + 1 < w.cells.length) (hx : w.cells.length ≤ 256) (hc : c.tapDance = cfg) :
    (w.again + 2 < w.cells.length →
      updatePending K (.tapDance ⟨w.again⟩) w.key c (.tapDance k) (.input (.press w.key)) =
        .ok (.tapDance ⟨w.again + 1⟩, none, [SchEv.after cfg.timeout (.key w.key (.tapDance (.nextPressTimeout (w.again + 1))))])) ∧
    (w.again + 2 = w.cells.length → ∀ cl, w.cells[w.again + 1]? = some cl → ∃ r, cellOf K r = some cl ∧
      updatePending K (.tapDance ⟨w.again⟩) w.key c (.tapDance k) (.input (.press w.key)) =
        .ok (.tapDance ⟨w.again + 1⟩, some (.key r), [SchEv.after cfg.timeout (.key w.key (.tapDance (.nextPressTimeout (w.again + 1))))])) := by
  have hi : Res.index K.tapDance k = .ok key := by simpa using hk
  have hcnt : key.definitionCount = w.cells.length := (dancersOf_spec hd).1
  have hev : TapDance.PKS.handleEvent ⟨w.again⟩ c.tapDance w.key (.input (.press w.key)) =
      .ok (⟨w.again + 1⟩, none, [SchEv.after cfg.timeout (.key w.key (.nextPressTimeout (w.again + 1)))]) := by
    simp only [TapDance.PKS.handleEvent, hc, if_true]
    rw [if_pos (by omega)]
  refine ⟨fun h2 => ?_, fun h2 cl hcl => ?_⟩
  · simp only [updatePending, Event.tryInto, TapDance.updatePending, hi, Res.ok_bind, hev, hcnt]
    rw [if_neg (by omega), if_neg (by omega)]
    rfl
  · obtain ⟨r, hr, hcr⟩ := (dancersOf_spec hd).2 _ _ hcl
    refine ⟨r, hcr, ?_⟩
    simp only [updatePending, Event.tryInto, TapDance.updatePending, hi, Res.ok_bind, hev, hcnt]
    rw [if_neg (by omega), if_pos (by omega)]
    have : Res.index key.definitions (w.cells.length - 1) = .ok (some r) := by
      rw [show w.cells.length - 1 = w.again + 1 by omega]
      simpa using hr
    simp only [this, Res.ok_bind, Res.unwrap]
    rfl

/-- A timer and the waiting key. -/
theorem dance_timeout {w : Waiting} {c : Ctx} {k : Nat} {key : TapDance.Key Ref} (hk : K.tapDance[k]? = some key)
    (hd : dancersOf K key.definitions = some w.cells) (hm : w.again + 1 < w.cells.length) (j : Nat) :
    (j ≠ w.again → updatePending K (.tapDance ⟨w.again⟩) w.key c (.tapDance k) (.key w.key (.tapDance (.nextPressTimeout j))) =
      .ok (.tapDance ⟨w.again⟩, none, [])) ∧
    (j = w.again → ∀ cl, w.cells[w.again]? = some cl → ∃ r, cellOf K r = some cl ∧
      updatePending K (.tapDance ⟨w.again⟩) w.key c (.tapDance k) (.key w.key (.tapDance (.nextPressTimeout j))) =
        .ok (.tapDance ⟨w.again⟩, some (.key r), [])) := by
  have hi : Res.index K.tapDance k = .ok key := by simpa using hk
  have hcnt : key.definitionCount = w.cells.length := (dancersOf_spec hd).1
  refine ⟨fun hj => ?_, fun hj cl hcl => ?_⟩
  · simp only [updatePending, Event.tryInto, Ev.toTapDance?, Option.map_some, TapDance.updatePending, hi, Res.ok_bind, TapDance.PKS.handleEvent, hcnt]
    rw [if_neg (by simp [hj])]
    simp only [Res.ok_bind]
    rw [if_neg (by omega), if_neg (by omega)]
    rfl
  · subst hj
    obtain ⟨r, hr, hcr⟩ := (dancersOf_spec hd).2 _ _ hcl
    refine ⟨r, hcr, ?_⟩
    have : Res.index key.definitions w.again = .ok (some r) := by simpa using hr
    simp only [updatePending, Event.tryInto, Ev.toTapDance?, Option.map_some, TapDance.updatePending, hi, Res.ok_bind, TapDance.PKS.handleEvent,
      and_self, if_true, this, Res.unwrap]
    rfl

/-- An event comes while a key waits. -/
theorem DCore.take_waiting (hms : 1 ≤ ms) (hT : 1 ≤ cfg.timeout) {km : CKM} {s s' : Dance.State} {w : Waiting} {e : InputEvent}
    (h : DCore K cfg count ms km s) (hw : s.waiting = some w) (hroom : ∀ t ∈ s.timers, t + ms ≤ s.clock + cfg.timeout)
    (he : isPhysical e = true) (hs : s.take layout (danceRules cfg ms) e = some s') :
    ∃ km', processInputN ⟨system K, refs, S⟩ (n + 3) km e = .ok km' ∧ DCore K cfg count ms km' s' ∧
      (∀ t ∈ s'.timers, t ≤ s'.clock + cfg.timeout) ∧ s'.delay = s.delay := by
  have hwf : DWaitsFor K count km s.board w := by have := h.wait; rw [hw] at this; exact this
  obtain ⟨k, key, hp, hk, hd⟩ := hwf.key
  simp only [State.take, hw] at hs
  split at hs
  · rename_i hlen
    obtain ⟨w1, hw1⟩ : ∃ w1 : Waiting, w1 = { w with seen := w.seen ++ [e] } := ⟨_, rfl⟩
    have hpush : pushCap maxPressedKeys (w.seen.map (Event.input : InputEvent → Event Ev)) (.input e) = .ok (w1.seen.map Event.input) := by
      unfold pushCap maxPressedKeys
      rw [if_pos (by simpa using hlen), hw1]
      simp
    have hph : ∀ x ∈ w1.seen, isPhysical x = true := by
      intro x hx
      rw [hw1] at hx
      simp only [List.mem_append, List.mem_cons, List.not_mem_nil, or_false] at hx
      rcases hx with hx | rfl
      · exact hwf.phys x hx
      · exact he
    have hproc : processInputN ⟨system K, refs, S⟩ (n + 3) km e =
        (Verif.updatePending ⟨system K, refs, S⟩ (handleEvent ⟨system K, refs, S⟩ (n + 3)) (n + 3)
          { km with pend := some ⟨w.key, .tapDance k, .tapDance ⟨w.again⟩, w1.seen.map Event.input⟩ } (.input e) >>=
          fun km => drain (handleEvent ⟨system K, refs, S⟩ (n + 3)) (n + 3) km) := by
      simp only [processInputN, processInput, hp, hpush, Res.ok_bind]
    have hnear : ∀ t ∈ s.timers, t ≤ s.clock + cfg.timeout := fun t ht => by have := hroom t ht; omega
    rw [hproc]
    split at hs
    · rename_i hown
      subst hown
      unfold State.again at hs
      obtain ⟨s1, hset, hs1⟩ := Option.bind_eq_some_iff.1 hs
      obtain ⟨c1, rfl, c3, c4⟩ := h.clock.set (S := S) hms hT hroom hset (.key w.key (.tapDance (.nextPressTimeout (w.again + 1))))
      obtain ⟨d1, d2⟩ := dance_press (cfg := cfg) (c := km.ctx) hk hd hwf.more hwf.max h.clock.td
      have hall : km.sched.scheduleAll S [SchEv.after cfg.timeout (.key w.key (.tapDance (.nextPressTimeout (w.again + 1))))] =
          .ok { km.sched with scheduled := km.sched.scheduled ++ [danceTimer w.key (w.again + 1) (s.clock + cfg.timeout)] } := by
        simp only [Sched.scheduleAll, Sched.scheduleEvent, SchEv.after, c1, Res.ok_bind]
        rfl
      obtain ⟨w2, hw2⟩ : ∃ w2 : Waiting, w2 = { w1 with again := w.again + 1, deadline := s.clock + cfg.timeout } := ⟨_, rfl⟩
      have hlive : LiveTimers w2 (km.sched.scheduled ++ [danceTimer w.key (w.again + 1) (s.clock + cfg.timeout)]) := by
        refine ⟨?_⟩
        intro x hx hl
        rw [hw2, hw1]
        simp only [List.mem_append, List.mem_cons, List.not_mem_nil, or_false] at hx
        rcases hx with hx | rfl
        · obtain ⟨j, t, a1, a2, a3⟩ := hwf.live.all x hx hl
          exact ⟨j, t, Nat.le_succ_of_le a1, a2, fun hj => by simp only at hj; omega⟩
        · exact ⟨w.again + 1, _, Nat.le_refl _, rfl, fun _ => rfl⟩
      have hw2s : w2.seen = w1.seen := by rw [hw2]
      have hw2k : w2.key = w.key := by rw [hw2, hw1]
      have hw2c : w2.cells = w.cells := by rw [hw2, hw1]
      have hw2a : w2.again = w.again + 1 := by rw [hw2]
      have hs2 : (if w2.again + 1 < w2.cells.length then
          some { s with timers := s.timers ++ [s.clock + cfg.timeout], waiting := some w2 }
        else State.settle { s with timers := s.timers ++ [s.clock + cfg.timeout] } w2) = some s' := by
        rw [hw2, hw1]; exact hs1
      rw [hw2c, hw2a] at hs2
      split at hs2
      · rename_i hlt
        cases hs2
        refine ⟨{ km with pend := some ⟨w.key, .tapDance k, .tapDance ⟨w.again + 1⟩, w1.seen.map Event.input⟩,
                          sched := { km.sched with scheduled := km.sched.scheduled ++ [danceTimer w.key (w.again + 1) (s.clock + cfg.timeout)] } }, ?_, ?_, c4, rfl⟩
        · simp only [Verif.updatePending]
          rw [show (system K).updatePending (.tapDance ⟨w.again⟩) w.key km.ctx (.tapDance k) (.input (.press w.key)) =
            updatePending K (.tapDance ⟨w.again⟩) w.key km.ctx (.tapDance k) (.input (.press w.key)) from rfl, d1 (by omega)]
          simp only [Res.ok_bind, hall]
          exact drain_empty hwf.core.pending
        · refine ⟨?_, ⟨c3.inq, c3.delay, c3.counter, c3.idleLe, c3.td, c3.msEq, c3.times, c3.spaced, c3.future, c3.phys⟩⟩
          refine ⟨⟨k, key, by rw [hw2k, hw2a, hw2s], hk, by rw [hw2c]; exact hd⟩, by rw [hw2c]; exact hwf.fits, by rw [hw2a, hw2c]; exact hlt,
            by rw [hw2c]; exact hwf.max, by rw [hw2k]; exact hwf.notHeld, hwf.room, by rw [hw2k]; exact hwf.core.congr rfl rfl rfl, ?_, hlive,
            by rw [hw2s]; exact hph⟩
          rw [hw2]
          simp [hw1]
      · rename_i hge
        have hmore := hwf.more
        have hlast : w.again + 2 = w.cells.length := by omega
        obtain ⟨cl, hcl⟩ : ∃ cl, w.cells[w.again + 1]? = some cl := ⟨_, List.getElem?_eq_getElem (by omega)⟩
        obtain ⟨r, hr, hup⟩ := d2 hlast cl hcl
        have hdw : DWait K cfg count ms { km with
            sched := { km.sched with scheduled := km.sched.scheduled ++ [danceTimer w.key (w.again + 1) (s.clock + cfg.timeout)] } }
            { s with timers := s.timers ++ [s.clock + cfg.timeout] } w2 :=
          ⟨by rw [hw2k]; exact hwf.notHeld, hwf.room, by rw [hw2k]; exact hwf.core.congr rfl rfl rfl, hlive, c3⟩
        obtain ⟨km', h1, h2, h3, h4, h5, h6, _⟩ := hdw.settle (refs := refs) (S := S) (n := n + 2)
          (p := ⟨w.key, .tapDance k, .tapDance ⟨w.again + 1⟩, w1.seen.map Event.input⟩) (by rw [hw2s]; exact hph) hw2k.symm (by rw [hw2s])
          (by rw [hw2c, hw2a]; exact hcl) hr (hwf.fits cl (List.mem_of_getElem? hcl)) hs2 (n + 1) (n + 2)
        refine ⟨km', ?_, h2, by rw [h3, h4]; exact c4, h5⟩
        simp only [Verif.updatePending]
        rw [show (system K).updatePending (.tapDance ⟨w.again⟩) w.key km.ctx (.tapDance k) (.input (.press w.key)) =
          updatePending K (.tapDance ⟨w.again⟩) w.key km.ctx (.tapDance k) (.input (.press w.key)) from rfl, hup]
        simp only [Res.ok_bind, hall]
        simp only at h1
        rw [h1]
        exact drain_empty h6
    · rename_i hown
      cases hs
      refine ⟨{ km with pend := some ⟨w.key, .tapDance k, .tapDance ⟨w.again⟩, w1.seen.map Event.input⟩ }, ?_, ?_, hnear, rfl⟩
      · simp only [Verif.updatePending]
        rw [show (system K).updatePending (.tapDance ⟨w.again⟩) w.key km.ctx (.tapDance k) (.input e) =
          updatePending K (.tapDance ⟨w.again⟩) w.key km.ctx (.tapDance k) (.input e) from rfl, dance_keep hk hd hwf.more hown]
        simp only [Res.ok_bind, Sched.scheduleAll]
        exact drain_empty hwf.core.pending
      · have hc := h.clock
        refine ⟨?_, hc.inq, hc.delay, hc.counter, hc.idleLe, hc.td, hc.msEq, hc.times, hc.spaced, hc.future, hc.phys⟩
        rw [← hw1]
        refine ⟨⟨k, key, by rw [hw1], hk, by rw [hw1]; exact hd⟩, by rw [hw1]; exact hwf.fits, by rw [hw1]; exact hwf.more, by rw [hw1]; exact hwf.max,
          by rw [hw1]; exact hwf.notHeld, hwf.room, by rw [hw1]; exact hwf.core.congr rfl rfl rfl, by rw [hw1]; exact hwf.timer, ?_, hph⟩
        rw [hw1]
        exact ⟨hwf.live.all⟩
  · cases hs

theorem DCore.sim {km : CKM} {s : Dance.State} (h : DCore K cfg count ms km s) (hw : s.waiting = none) :
    Sim K count km s.board ∧ ∀ e ∈ km.sched.scheduled, e.live = false := by
  have := h.wait
  rw [hw] at this
  exact ⟨this.2.1.sim this.1, this.2.2⟩

theorem DCore.takes {km : CKM} {s : Dance.State} (h : DCore K cfg count ms km s) (hw : s.waiting = none) {b : Board.State} {x : Res CKM}
    (ht : Takes K count km b x) : ∃ km', x = .ok km' ∧ DCore K cfg count ms km' { s with board := b } := by
  obtain ⟨ctx, ps, f, h1, h2, h3⟩ := ht
  have hc := h.clock
  refine ⟨_, h1, ?_, hc.inq, hc.delay, hc.counter, hc.idleLe, (congrArg Prod.snd h3).trans hc.td, hc.msEq, hc.times, hc.spaced, hc.future, hc.phys⟩
  show DWaits K count _ b s.waiting
  rw [hw]
  exact ⟨h2.pend, h2.coreWith, (h.sim hw).2⟩

/-- An event comes while no key waits. -/
theorem DCore.take_free (hlay : danceLayoutOf K refs = some layout) (hfit : ∀ p ∈ layout, p.Fits count) (hlen : layout.length ≤ 65535)
    (hms : 1 ≤ ms) (hT : 1 ≤ cfg.timeout) {km : CKM} {s s' : Dance.State} {e : InputEvent} (h : DCore K cfg count ms km s) (hw : s.waiting = none)
    (hroom : ∀ t ∈ s.timers, t + ms ≤ s.clock + cfg.timeout) (he : isPhysical e = true) (hs : s.take layout (danceRules cfg ms) e = some s') :
    ∃ km', processInputN ⟨system K, refs, S⟩ (n + 3) km e = .ok km' ∧ DCore K cfg count ms km' s' ∧
      (∀ t ∈ s'.timers, t ≤ s'.clock + cfg.timeout) ∧ s'.delay = s.delay := by
  obtain ⟨hsim, hdead⟩ := h.sim hw
  have hroom' : ∀ t ∈ s.timers, t ≤ s.clock + cfg.timeout := fun t ht => by have := hroom t ht; omega
  unfold State.take at hs
  split at hs
  · rename_i w hw'; rw [hw] at hw'; cases hw'
  cases e with
  | vpress ko => simp [isPhysical] at he
  | vrelease ko => simp [isPhysical] at he
  | release j =>
    cases hs
    obtain ⟨km', h1, h2⟩ := h.takes hw (process_release (K := K) (refs := refs) (S := S) (layout := []) (n := n + 1) hsim j)
    exact ⟨km', h1, h2, hroom', rfl⟩
  | press i =>
    simp only at hs
    split at hs
    · rename_i hh
      cases hs
      obtain ⟨km', h1, h2⟩ := h.takes hw (press_held (K := K) (refs := refs) (S := S) (n := n + 2) hsim hh)
      refine ⟨km', h1, h2, hroom', rfl⟩
    · rename_i hh
      simp only [Bool.not_eq_true] at hh
      split at hs
      · rename_i h16
        cases hle : layout[i]? with
        | none => rw [hle] at hs; cases hs
        | some p =>
          rw [hle] at hs
          simp only [Option.bind_some] at hs
          have hlt : i < layout.length := (List.getElem?_eq_some_iff.1 hle).1
          obtain ⟨r0, hr0, hp0⟩ : ∃ r0, refs[i]? = some r0 ∧ dancePosOf K r0 = some p := by
            have := danceLayoutOf_get hlay i
            rw [hle] at this
            simpa [Option.map_eq_some_iff] using this
          have hpf : p.Fits s.board.on.length := by rw [hsim.layerCount]; exact hfit p (List.mem_of_getElem? hle)
          have hni : i ∉ s.board.held.map Prod.fst := fun hm => by rw [holds_iff.2 hm] at hh; cases hh
          obtain ⟨ch, hidle, hproc⟩ := press_new (K := K) (refs := refs) (S := S) (n := n + 3) hsim hh h16 (by omega) hr0
          obtain ⟨r, m', hm', hact, hactf, hloop⟩ := press_dancePos (K := K) (refs := refs) (S := S) (he := handleEvent ⟨system K, refs, S⟩ (n + 3))
            (m := n + 2) (i := i) (km := { km with ctx := { km.ctx with chorded := ch } }) hp0 hsim.layers hsim.dflt
            (by rw [hsim.layerCount]; exact hsim.dfltOk) hpf
          rw [hproc, hloop]
          rw [hsim.layerCount] at hactf
          have hcore : Core K count { km with ctx := { km.ctx with chorded := ch } } s.board (s.board.held.map Prod.fst ++ [i]) :=
            ⟨hsim.pending, hsim.held, hsim.nodup, hsim.len, hsim.active, hsim.pressedIdx, hsim.caps, hsim.layers, hsim.dflt, hsim.layerCount,
              hsim.dfltOk, hsim.fits, hidle⟩
          have hc0 := h.clock
          rcases danceOf_cases hact with ⟨c, hc, hr⟩ | ⟨k, key, cs, rfl, hk, hd, hc⟩
          · rw [hc] at hs hactf
            cases hs
            obtain ⟨m, rfl⟩ : ∃ m, m' = m + 1 := ⟨m' - 1, by omega⟩
            obtain ⟨l, f, h1, h2⟩ := press_plain (K := K) (refs := refs) (S := S) (n := n + 1) (m := m) hcore hsim.pend hni h16 hr hactf
            refine ⟨_, h1, ⟨?_, hc0.inq, hc0.delay, hc0.counter, hc0.idleLe, hc0.td, hc0.msEq, hc0.times, hc0.spaced, hc0.future, hc0.phys⟩, hroom', rfl⟩
            show DWaits K count _ (hold s.board i c) s.waiting
            rw [hw]
            have hheld : (hold s.board i c).held.map Prod.fst = s.board.held.map Prod.fst ++ [i] := by
              unfold Dance.hold; cases c <;> simp [Cell.press]
            exact ⟨hsim.pend, by rw [hheld]; exact h2, hdead⟩
          · rw [hc] at hs hactf
            obtain ⟨m, rfl⟩ : ∃ m, m' = m + 1 := ⟨m' - 1, by omega⟩
            simp only [State.press, Option.map_eq_some_iff] at hs
            obtain ⟨s1, hset, rfl⟩ := hs
            obtain ⟨c1, rfl, c3, c4⟩ := h.clock.set (S := S) hms hT hroom hset (.key i (.tapDance (.nextPressTimeout 0)))
            have hnew : newPressedKey K i { km.ctx with chorded := ch } (.tapDance k) =
                .ok (.pending (.tapDance ⟨0⟩), [SchEv.after cfg.timeout (.key i (.tapDance (.nextPressTimeout 0)))]) := by
              simp only [newPressedKey, TapDance.newPressedKey, hc0.td]
              rfl
            have hall : km.sched.scheduleAll S [SchEv.after cfg.timeout (.key i (.tapDance (.nextPressTimeout 0)))] =
                .ok { km.sched with scheduled := km.sched.scheduled ++ [danceTimer i 0 (s.clock + cfg.timeout)] } := by
              simp only [Sched.scheduleAll, Sched.scheduleEvent, SchEv.after, c1, Res.ok_bind]
              rfl
            refine ⟨{ km with ctx := { km.ctx with chorded := ch }, pend := some ⟨i, .tapDance k, .tapDance ⟨0⟩, []⟩,
                              sched := { km.sched with scheduled := km.sched.scheduled ++ [danceTimer i 0 (s.clock + cfg.timeout)] } }, ?_, ⟨?_, ?_⟩, c4, rfl⟩
            · rw [pressLoop]
              rw [show (system K).newPressedKey i { km.ctx with chorded := ch } (.tapDance k) =
                newPressedKey K i { km.ctx with chorded := ch } (.tapDance k) from rfl, hnew]
              simp only [Res.ok_bind, hall, Res.pure_eq]
              exact drain_empty hsim.pending
            · have h2 := hactf.1
              refine ⟨⟨k, key, rfl, hk, hd⟩, hactf.2.2, by show 0 + 1 < cs.length; omega, hactf.2.1, hni, h16, hcore.congr rfl rfl rfl, ?_, ⟨?_⟩, by simp⟩
              · simp only [List.mem_append, List.mem_cons, List.not_mem_nil, or_false]
                exact .inr rfl
              · intro e he hl
                simp only [List.mem_append, List.mem_cons, List.not_mem_nil, or_false] at he
                rcases he with he | rfl
                · rw [hdead e he] at hl; cases hl
                · exact ⟨0, _, Nat.le_refl _, rfl, fun _ => rfl⟩
            · exact ⟨c3.inq, c3.delay, c3.counter, c3.idleLe, c3.td, c3.msEq, c3.times, c3.spaced, c3.future, c3.phys⟩
      · cases hs

/-! ## The calls -/

/-- What the theorems assume about the keymap. -/
structure DanceKeymap (K : Keys) (refs : List Ref) (cfg : TapDance.Config) (count ms : Nat) (layout : List Pos) : Prop where
  lay : danceLayoutOf K refs = some layout
  fits : ∀ p ∈ layout, p.Fits count
  len : layout.length ≤ 65535
  tick : 1 ≤ ms
  timeout : 1 ≤ cfg.timeout

theorem DCore.take (hk : DanceKeymap K refs cfg count ms layout) {km : CKM} {s s' : Dance.State} {e : InputEvent} (h : DCore K cfg count ms km s)
    (hroom : ∀ t ∈ s.timers, t + ms ≤ s.clock + cfg.timeout) (he : isPhysical e = true) (hs : s.take layout (danceRules cfg ms) e = some s') :
    ∃ km', processInputN ⟨system K, refs, S⟩ (n + 3) km e = .ok km' ∧ DCore K cfg count ms km' s' ∧
      (∀ t ∈ s'.timers, t ≤ s'.clock + cfg.timeout) ∧ s'.delay = s.delay := by
  cases hw : s.waiting with
  | none => exact h.take_free (S := S) (n := n) hk.lay hk.fits hk.len hk.tick hk.timeout hw hroom he hs
  | some w => exact h.take_waiting (refs := refs) (S := S) (n := n) hk.tick hk.timeout hw hroom he hs

/-- The keymap and the board between two calls. -/
structure DSim (K : Keys) (cfg : TapDance.Config) (count ms : Nat) (km : CKM) (s : Dance.State) : Prop where
  core : DCore K cfg count ms km s
  near : ∀ t ∈ s.timers, t ≤ s.clock + cfg.timeout
  roomy : s.delay = 0 → ∀ t ∈ s.timers, t + ms ≤ s.clock + cfg.timeout

theorem DSim.input (hk : DanceKeymap K refs cfg count ms layout) {km : CKM} {s s' : Dance.State} {e : InputEvent} (h : DSim K cfg count ms km s)
    (he : isPhysical e = true) (hs : s.input layout (danceRules cfg ms) e = some s') :
    ∃ km', handleInput ⟨system K, refs, S⟩ (n + 3) km e = .ok km' ∧ DSim K cfg count ms km' s' := by
  have hc := h.core
  have hcl := hc.clock
  unfold Dance.State.input at hs
  unfold handleInput
  simp only [inputCap, hcl.inq] at hs ⊢
  split at hs
  · rename_i hq
    cases hs
    rw [if_pos hq]
    exact ⟨_, rfl, ⟨hc.wait.congr rfl rfl rfl rfl rfl, rfl, hcl.delay, hcl.counter, Nat.zero_le _, hcl.td, hcl.msEq, hcl.times, hcl.spaced,
      hcl.future, hcl.phys⟩, h.near, h.roomy⟩
  · rename_i hq
    rw [if_neg hq]
    have hphys : ∀ x ∈ s.queue ++ [e], isPhysical x = true := by
      intro x hx
      simp only [List.mem_append, List.mem_cons, List.not_mem_nil, or_false] at hx
      rcases hx with hx | rfl
      · exact hcl.phys x hx
      · exact he
    split at hs
    · rename_i hd
      rw [if_pos (by rw [hcl.delay]; exact hd)]
      obtain ⟨e', q', hcons⟩ : ∃ e' q', s.queue ++ [e] = e' :: q' := by cases s.queue <;> exact ⟨_, _, rfl⟩
      rw [hcons] at hphys hs ⊢
      simp only [State.takeOldest, Option.map_eq_some_iff] at hs
      obtain ⟨s2, hs2, rfl⟩ := hs
      have hc2 : DCore K cfg count ms { km with idle := 0, inq := q', log := km.log ++ [e'] } { s with queue := q' } :=
        ⟨hc.wait.congr rfl rfl rfl rfl rfl, rfl, hcl.delay, hcl.counter, Nat.zero_le _, hcl.td, hcl.msEq, hcl.times, hcl.spaced, hcl.future,
          fun x hx => hphys x (List.mem_cons_of_mem _ hx)⟩
      obtain ⟨km', h1, h2, h3, _⟩ := hc2.take (S := S) (n := n) hk (h.roomy hd) (hphys e' List.mem_cons_self) hs2
      have hcl2 := h2.clock
      refine ⟨{ km' with delay := inputDelay }, ?_, ⟨h2.wait.congr rfl rfl rfl rfl rfl, hcl2.inq, rfl, hcl2.counter, hcl2.idleLe, hcl2.td, hcl2.msEq,
        hcl2.times, hcl2.spaced, hcl2.future, hcl2.phys⟩, h3, fun h0 => by simp at h0⟩
      simp only
      rw [h1]
      rfl
    · rename_i hd
      rw [if_neg (by rw [hcl.delay]; exact hd)]
      cases hs
      exact ⟨_, rfl, ⟨hc.wait.congr rfl rfl rfl rfl rfl, rfl, hcl.delay, hcl.counter, Nat.zero_le _, hcl.td, hcl.msEq, hcl.times, hcl.spaced,
        hcl.future, hphys⟩, h.near, h.roomy⟩

/-- What passing time does, besides deciding the waiting key. -/
def State.aged (s : Dance.State) (ms : Nat) : Dance.State :=
  { s with clock := s.clock + ms, timers := s.timers.filter (fun t => s.clock + ms < t) }

theorem pass_cases {s s' : Dance.State} (hs : s.pass (danceRules cfg ms) = some s') :
    s.clock + ms < 2 ^ 32 ∧
    ((s' = State.aged s ms ∧ ∀ w, s.waiting = some w → s.clock + ms < w.deadline) ∨
      (∃ w, s.waiting = some w ∧ w.deadline ≤ s.clock + ms ∧ (State.aged s ms).settle w = some s')) := by
  unfold State.pass at hs
  split at hs
  · rename_i hc
    refine ⟨hc, ?_⟩
    simp only at hs
    split at hs
    · rename_i w hw
      split at hs
      · rename_i hd
        exact .inr ⟨w, hw, hd, hs⟩
      · rename_i hd
        cases hs
        refine .inl ⟨rfl, ?_⟩
        intro w' hw'
        rw [hw] at hw'
        cases hw'
        simp only [danceRules] at hd
        omega
    · rename_i hw
      cases hs
      exact .inl ⟨rfl, fun w hw' => by rw [hw] at hw'; cases hw'⟩
  · cases hs

theorem settle_frame {s s' : Dance.State} {w : Waiting} (h : s.settle w = some s') :
    s'.clock = s.clock ∧ s'.timers = s.timers ∧ s'.delay = s.delay := by
  unfold State.settle at h
  split at h
  · obtain ⟨c, _, rfl⟩ := Option.map_eq_some_iff.1 h
    exact ⟨rfl, rfl, rfl⟩
  · cases h

/-- The scheduler after a tick, when no timer of the waiting key's last press is due. -/
theorem DCore.pass_quiet {km : CKM} {s : Dance.State} {sch : Sched Ev} (h : DCore K cfg count ms km s)
    (h1 : sch.pending = []) (h2 : sch.scheduled.map Verif.Timed.time = s.timers.filter (fun t => s.clock + ms < t)) (h3 : sch.counter = s.clock + ms)
    (h4 : ∀ e ∈ sch.scheduled, e ∈ km.sched.scheduled) (h5 : ∀ w, s.waiting = some w → danceTimer w.key w.again w.deadline ∈ sch.scheduled) :
    DCore K cfg count ms { km with sched := sch } (State.aged s ms) := by
  have hpnd := h.pending
  have hcl := h.clock
  refine ⟨?_, hcl.inq, hcl.delay, h3, by have := hcl.idleLe; show km.idle ≤ s.clock + ms; omega, hcl.td, hcl.msEq, h2, hcl.spaced.filter _, ?_, hcl.phys⟩
  · have hwait := h.wait
    show DWaits K count _ s.board s.waiting
    cases hw : s.waiting with
    | none =>
      rw [hw] at hwait
      exact ⟨hwait.1, hwait.2.1.congr (h1.trans hpnd.symm) rfl rfl, fun e he => hwait.2.2 e (h4 e he)⟩
    | some w =>
      rw [hw] at hwait
      have hwf : DWaitsFor K count km s.board w := hwait
      exact ⟨hwf.key, hwf.fits, hwf.more, hwf.max, hwf.notHeld, hwf.room, hwf.core.congr (h1.trans hpnd.symm) rfl rfl, h5 w hw,
        ⟨fun e he => hwf.live.all e (h4 e he)⟩, hwf.phys⟩
  · intro t ht
    have := (List.mem_filter.1 ht).2
    show s.clock + ms < t
    simpa using this

/-- Time passes. -/
theorem DCore.pass {km : CKM} {s s' : Dance.State} (h : DCore K cfg count ms km s) (hs : s.pass (danceRules cfg ms) = some s') :
    ∃ sch km', km.sched.tick ms = .ok sch ∧ drainN ⟨system K, refs, S⟩ (n + 3) { km with sched := sch } = .ok km' ∧ DCore K cfg count ms km' s' ∧
      s'.clock = s.clock + ms ∧ (∀ t ∈ s'.timers, t ∈ s.timers) ∧ s'.delay = s.delay ∧ km'.idle = km.idle := by
  have hwait := h.wait
  have hpnd := h.pending
  have hcl := h.clock
  obtain ⟨hclk, hcase⟩ := pass_cases hs
  have hframe : s'.clock = s.clock + ms ∧ (∀ t ∈ s'.timers, t ∈ s.timers) ∧ s'.delay = s.delay := by
    rcases hcase with ⟨rfl, _⟩ | ⟨w, _, _, hset⟩
    · exact ⟨rfl, fun t ht => (List.mem_filter.1 ht).1, rfl⟩
    · obtain ⟨a, b, c⟩ := settle_frame hset
      exact ⟨a, by rw [b]; exact fun t ht => (List.mem_filter.1 ht).1, c⟩
  have hu : km.sched.counter + ms < u32Size := by rw [hcl.counter]; unfold u32Size; omega
  suffices hmain : ∃ sch km', km.sched.tick ms = .ok sch ∧ drainN ⟨system K, refs, S⟩ (n + 3) { km with sched := sch } = .ok km' ∧
      DCore K cfg count ms km' s' ∧ km'.idle = km.idle by
    obtain ⟨sch, km', a, b, c, d⟩ := hmain
    exact ⟨sch, km', a, b, c, hframe.1, hframe.2.1, hframe.2.2, d⟩
  have htimes := hcl.times
  have hsp := hcl.spaced
  have hfut := hcl.future
  -- the waiting key's timer stays: nothing is decided
  have stays : (∀ w, s.waiting = some w → s.clock + ms < w.deadline) → s' = State.aged s ms := by
    intro hn
    rcases hcase with ⟨h1, _⟩ | ⟨w, hw, hd, _⟩
    · exact h1
    · have := hn w hw
      omega
  cases hl : km.sched.scheduled with
  | nil =>
    have ht : s.timers = [] := by rw [← htimes, hl]; rfl
    have hno : s.waiting = none := by
      cases hw : s.waiting with
      | none => rfl
      | some w =>
        rw [hw] at hwait
        have := DWaitsFor.timer hwait
        rw [hl] at this
        cases this
    have hst : km.sched.tick ms = .ok { km.sched with counter := km.sched.counter + ms } := by
      simp only [Sched.tick, hu, if_true, hl]
    refine ⟨_, _, hst, drain_empty hpnd, ?_, rfl⟩
    rw [stays (fun w hw => by rw [hno] at hw; cases hw)]
    refine h.pass_quiet hpnd (by rw [hl, ht]; rfl) (by show km.sched.counter + ms = _; rw [hcl.counter]) (fun e he => he) ?_
    intro w hw
    rw [hno] at hw
    cases hw
  | cons t rest =>
    rw [hl, List.map_cons] at htimes
    have hft : s.clock < t.time := hfut _ (by rw [← htimes]; exact List.mem_cons_self)
    by_cases hdue : t.time ≤ s.clock + ms
    · have hfilter : s.timers.filter (fun t => s.clock + ms < t) = rest.map Verif.Timed.time := by
        rw [← htimes]
        exact filter_rest (by rw [htimes]; exact hsp) hft hdue
      have hrest : ∀ x ∈ rest, s.clock + ms < x.time := by
        intro x hx
        have : x.time ∈ s.timers.filter (fun t => s.clock + ms < t) := by rw [hfilter]; exact List.mem_map_of_mem hx
        simpa using (List.mem_filter.1 this).2
      have hst : km.sched.tick ms = .ok { km.sched with counter := km.sched.counter + ms, scheduled := rest, pending := [if t.live then some t.event else none] } := by
        simp only [Sched.tick, hu, if_true, hl]
        rw [if_pos (by rw [hcl.counter]; exact hdue)]
        simp only [Sched.enqueue, hpnd]
        rfl
      have hq : ∀ (hwt : ∀ w, s.waiting = some w → danceTimer w.key w.again w.deadline ∈ rest),
          DCore K cfg count ms { km with sched := { km.sched with counter := km.sched.counter + ms, scheduled := rest, pending := [] } } s' := by
        intro hwt
        rw [stays (fun w hw => hrest _ (hwt w hw))]
        exact h.pass_quiet (sch := { km.sched with counter := km.sched.counter + ms, scheduled := rest, pending := [] }) rfl hfilter.symm
          (by show km.sched.counter + ms = _; rw [hcl.counter]) (fun e he => by rw [hl]; exact List.mem_cons_of_mem _ he) hwt
      cases hlive : t.live with
      | false =>
        rw [hlive] at hst
        refine ⟨_, _, hst, rfl, ?_, rfl⟩
        refine hq ?_
        intro w hw
        rw [hw] at hwait
        have := DWaitsFor.timer hwait
        rw [hl, List.mem_cons] at this
        rcases this with rfl | this
        · simp [danceTimer] at hlive
        · exact this
      | true =>
        rw [hlive] at hst
        cases hw : s.waiting with
        | none =>
          rw [hw] at hwait
          have := hwait.2.2 t (by rw [hl]; exact List.mem_cons_self)
          rw [hlive] at this; cases this
        | some w =>
          rw [hw] at hwait
          have hwf : DWaitsFor K count km s.board w := hwait
          obtain ⟨j, tt, hj, htw, htd⟩ := hwf.live.all t (by rw [hl]; exact List.mem_cons_self) hlive
          obtain ⟨k, key, hp, hk, hd⟩ := hwf.key
          obtain ⟨e1, e2⟩ := dance_timeout (c := km.ctx) hk hd hwf.more j
          have hev : t.event = .key w.key (.tapDance (.nextPressTimeout j)) := by rw [htw]; rfl
          by_cases hjw : j = w.again
          · -- the deadline
            have hdl : w.deadline ≤ s.clock + ms := by rw [htw] at hdue; rw [← htd hjw]; exact hdue
            have hset : (State.aged s ms).settle w = some s' := by
              rcases hcase with ⟨_, h2⟩ | ⟨w', hw', _, h3⟩
              · have := h2 w hw
                omega
              · rw [hw] at hw'
                cases hw'
                exact h3
            have hdw : DWait K cfg count ms { km with sched := { km.sched with counter := km.sched.counter + ms, scheduled := rest, pending := [] } }
                (State.aged s ms) w :=
              ⟨hwf.notHeld, hwf.room, hwf.core.congr hpnd.symm rfl rfl, ⟨fun e he => hwf.live.all e (by rw [hl]; exact List.mem_cons_of_mem _ he)⟩,
                hcl.inq, hcl.delay, by show km.sched.counter + ms = s.clock + ms; rw [hcl.counter],
                by have := hcl.idleLe; show km.idle ≤ s.clock + ms; omega, hcl.td, hcl.msEq, hfilter.symm, hsp.filter _,
                fun t ht => by show s.clock + ms < t; simpa using (List.mem_filter.1 ht).2, hcl.phys⟩
            have hmore := hwf.more
            obtain ⟨cl, hclq⟩ : ∃ cl, w.cells[w.again]? = some cl := ⟨_, List.getElem?_eq_getElem (by omega)⟩
            obtain ⟨r, hr, hup⟩ := e2 hjw cl hclq
            obtain ⟨km', h1, h2, _, _, _, h6, h7⟩ := hdw.settle (refs := refs) (S := S) (n := n + 1)
              (p := ⟨w.key, .tapDance k, .tapDance ⟨w.again⟩, w.seen.map Event.input⟩) hwf.phys rfl rfl hclq hr
              (hwf.fits cl (List.mem_of_getElem? hclq)) hset n (n + 1)
            have hidle : km'.idle = km.idle := by
              obtain ⟨l, f, hs1, _⟩ := settle_cell (K := K) (refs := refs) (S := S) (n := n + 1) (m := n + 1) (N := n)
                (km := { km with sched := { km.sched with counter := km.sched.counter + ms, scheduled := rest, pending := [] },
                                 pend := some ⟨w.key, .tapDance k, .tapDance ⟨w.again⟩, w.seen.map Event.input⟩ })
                (w := asTimed w) (p := ⟨w.key, .tapDance k, .tapDance ⟨w.again⟩, w.seen.map Event.input⟩) (s := s.board)
                (hwf.core.congr hpnd.symm rfl rfl) rfl rfl hwf.notHeld hwf.room hr (hwf.fits cl (List.mem_of_getElem? hclq)) (by
                  have h31 : (w.kept ++ (State.aged s ms).queue).length ≤ 31 := by
                    unfold State.settle at hset
                    split at hset
                    · assumption
                    · cases hset
                  show ((asTimed w).kept ++ km.inq).length ≤ 31
                  rw [asTimed_kept, hcl.inq]
                  exact h31)
              rw [h1] at hs1
              cases hs1
              rfl
            refine ⟨_, km', hst, ?_, h2, hidle⟩
            have hcore' : Core K count km' s'.board (s'.board.held.map Prod.fst) := by have := h2.wait; rw [h7] at this; exact this.2.1
            have hhe : handleEvent ⟨system K, refs, S⟩ (n + 3)
                { km with sched := { km.sched with counter := km.sched.counter + ms, scheduled := rest, pending := [] } }
                (.key w.key (.tapDance (.nextPressTimeout j))) = .ok km' := by
              simp only [handleEvent, handleBody, KM.fire, Verif.updatePending, hp]
              rw [show (system K).updatePending (.tapDance ⟨w.again⟩) w.key km.ctx (.tapDance k) (.key w.key (.tapDance (.nextPressTimeout j))) =
                updatePending K (.tapDance ⟨w.again⟩) w.key km.ctx (.tapDance k) (.key w.key (.tapDance (.nextPressTimeout j))) from rfl, hup]
              simp only [Res.ok_bind, Sched.scheduleAll]
              have h1' := h1
              simp only at h1'
              rw [show handleBody (⟨system K, refs, S⟩ : Cfg Ref Ev Ctx PKS KS) (handleBody ⟨system K, refs, S⟩ (handleEvent ⟨system K, refs, S⟩ n) n) (n + 1) =
                handleEvent ⟨system K, refs, S⟩ (n + 1 + 1) from rfl]
              rw [h1']
              simp only [Res.ok_bind]
              rw [notifyAll_quiet (C := ⟨system K, refs, S⟩) (km := km') (ev := .key w.key (.tapDance (.nextPressTimeout j))) (ctx := km'.ctx)
                (fun j' r ks hm => updateState_quiet hcore'.held km'.ctx (.key w.key (.tapDance (.nextPressTimeout j))) (by intro j; simp) j' r ks hm)
                (ctx_tapDance km'.ctx w.key _)]
              rfl
            unfold drainN
            rw [drain_one (ev := .key w.key (.tapDance (.nextPressTimeout j))) (q := []) (by simp [hev])]
            rw [hhe]
            exact drain_empty h6
          · -- an earlier press
            have hin : danceTimer w.key w.again w.deadline ∈ rest := by
              have := hwf.timer
              rw [hl, List.mem_cons] at this
              rcases this with h1 | this
              · rw [htw] at h1
                simp only [danceTimer, Verif.Timed.mk.injEq, Event.key.injEq, Ev.tapDance.injEq, TapDance.Ev.nextPressTimeout.injEq] at h1
                exact absurd h1.2.1.2.symm hjw
              · exact this
            have hq' := hq (fun w' hw' => by rw [hw] at hw'; cases hw'; exact hin)
            obtain ⟨km1, hkm1⟩ : ∃ km1 : CKM, km1 =
              { km with sched := { km.sched with counter := km.sched.counter + ms, scheduled := rest, pending := [] } } := ⟨_, rfl⟩
            have hp1 : km1.pend = some ⟨w.key, .tapDance k, .tapDance ⟨w.again⟩, w.seen.map Event.input⟩ := by rw [hkm1]; exact hp
            have hx1 : km1.ctx = km.ctx := by rw [hkm1]
            have hheld1 : km1.pressed = km.pressed := by rw [hkm1]
            refine ⟨_, _, hst, ?_, hq', rfl⟩
            have hhe : handleEvent ⟨system K, refs, S⟩ (n + 3) km1 (.key w.key (.tapDance (.nextPressTimeout j))) = .ok km1 := by
              simp only [handleEvent, handleBody, KM.fire, Verif.updatePending, hp1]
              rw [show (system K).updatePending (.tapDance ⟨w.again⟩) w.key km1.ctx (.tapDance k) (.key w.key (.tapDance (.nextPressTimeout j))) =
                updatePending K (.tapDance ⟨w.again⟩) w.key km1.ctx (.tapDance k) (.key w.key (.tapDance (.nextPressTimeout j))) from rfl, hx1, e1 hjw]
              simp only [Res.ok_bind, Res.pure_eq, Sched.scheduleAll]
              rw [← hp1, ← hx1]
              rw [notifyAll_quiet (C := ⟨system K, refs, S⟩) (km := km1) (ev := .key w.key (.tapDance (.nextPressTimeout j))) (ctx := km1.ctx)
                (fun j' r ks hm => by
                  exact updateState_quiet hwf.core.held km1.ctx (.key w.key (.tapDance (.nextPressTimeout j))) (by intro j; simp) j' r ks (hheld1 ▸ hm))
                (ctx_tapDance km1.ctx w.key _)]
              rfl
            unfold drainN
            rw [drain_one (ev := .key w.key (.tapDance (.nextPressTimeout j))) (q := []) (by simp [hev])]
            rw [← hkm1]
            rw [hhe]
            exact drain_empty (by rw [hkm1])
    · have hnd : s.clock + ms < t.time := by omega
      have hfilter : s.timers.filter (fun t => s.clock + ms < t) = s.timers := by
        rw [← htimes]
        exact filter_all (by rw [htimes]; exact hsp) hnd
      have hst : km.sched.tick ms = .ok { km.sched with counter := km.sched.counter + ms } := by
        simp only [Sched.tick, hu, if_true, hl]
        rw [if_neg (by rw [hcl.counter]; exact hdue)]
      refine ⟨_, _, hst, drain_empty hpnd, ?_, rfl⟩
      rw [stays (fun w hw => by
        rw [hw] at hwait
        have : w.deadline ∈ s.timers := by rw [← hcl.times]; exact List.mem_map_of_mem (f := Verif.Timed.time) (DWaitsFor.timer hwait)
        rw [← hfilter] at this
        simpa using (List.mem_filter.1 this).2)]
      refine h.pass_quiet hpnd (by rw [hfilter]; exact hcl.times) (by show km.sched.counter + ms = _; rw [hcl.counter]) (fun e he => he) ?_
      intro w hw
      rw [hw] at hwait
      exact DWaitsFor.timer hwait

theorem DSim.tick (hk : DanceKeymap K refs cfg count ms layout) {km : CKM} {s s' : Dance.State} (h : DSim K cfg count ms km s)
    (hs : s.tick layout (danceRules cfg ms) = some s') :
    ∃ km', Verif.tick ⟨system K, refs, S⟩ (n + 3) km = .ok km' ∧ DSim K cfg count ms km' s' := by
  have hc := h.core
  have hcl := hc.clock
  -- the context learns the idle time
  obtain ⟨km1, hkm1⟩ : ∃ km1 : CKM, km1 = { km with ctx := km.ctx.setKeymapContext km.sched.counter km.idle } := ⟨_, rfl⟩
  have hcore : ∀ (b : Board.State) is, Core K count km b is → Core K count km1 b is := by
    intro b is h
    subst hkm1
    exact ⟨h.pending, h.held, h.nodup, h.len, h.active, h.pressedIdx, h.caps, h.layers, h.dflt, h.layerCount, h.dfltOk, h.fits, h.idle.setIdle _⟩
  have h1 : DCore K cfg count ms km1 s := by
    have hwait := hc.wait
    have hpend : km1.pend = km.pend := by subst hkm1; rfl
    have hsch : km1.sched = km.sched := by subst hkm1; rfl
    refine ⟨?_, by subst hkm1; exact hcl.inq, by subst hkm1; exact hcl.delay, by rw [hsch]; exact hcl.counter, by subst hkm1; exact hcl.idleLe,
      by subst hkm1; exact hcl.td, by subst hkm1; exact hcl.msEq, by rw [hsch]; exact hcl.times, hcl.spaced, hcl.future, hcl.phys⟩
    cases hw : s.waiting with
    | none =>
      rw [hw] at hwait
      exact ⟨hpend.trans hwait.1, hcore _ _ hwait.2.1, by rw [hsch]; exact hwait.2.2⟩
    | some w =>
      rw [hw] at hwait
      have hwf : DWaitsFor K count km s.board w := hwait
      exact ⟨by rw [hpend]; exact hwf.key, hwf.fits, hwf.more, hwf.max, hwf.notHeld, hwf.room, hcore _ _ hwf.core, by rw [hsch]; exact hwf.timer,
        by rw [hsch]; exact hwf.live, hwf.phys⟩
  have htick : Verif.tick ⟨system K, refs, S⟩ (n + 3) km = (tickInput ⟨system K, refs, S⟩ (n + 3) km1 >>= fun km2 => do
        let s ← km2.sched.tick km2.msPerTick
        let km ← drainN ⟨system K, refs, S⟩ (n + 3) { km2 with delay := km2.delay - 1, sched := s }
        if km.idle + km.msPerTick < u32Size then pure { km with idle := km.idle + km.msPerTick } else .panic .arith) := by
    subst hkm1; rfl
  -- time passes
  have clock : ∀ (km2 : CKM) (s2 s3 : Dance.State), DCore K cfg count ms { km2 with delay := km2.delay - 1 } s2 →
      (∀ t ∈ s2.timers, t ≤ s2.clock + cfg.timeout) → s2.pass (danceRules cfg ms) = some s3 →
      ∃ km', (do
        let s ← km2.sched.tick km2.msPerTick
        let km ← drainN ⟨system K, refs, S⟩ (n + 3) { km2 with delay := km2.delay - 1, sched := s }
        if km.idle + km.msPerTick < u32Size then pure { km with idle := km.idle + km.msPerTick } else .panic .arith) = Res.ok km' ∧
      DSim K cfg count ms km' s3 := by
    intro km2 s2 s3 h2 hnear hp
    obtain ⟨sch, km', a1, a2, a3, a4, a5, a6, a7⟩ := h2.pass (refs := refs) (S := S) (n := n) hp
    have hm : km2.msPerTick = ms := h2.clock.msEq
    have hle : km2.idle ≤ s2.clock := h2.clock.idleLe
    have hclk := (pass_cases hp).1
    have c3 := a3.clock
    have a7' : km'.idle = km2.idle := a7
    refine ⟨{ km' with idle := km'.idle + km'.msPerTick }, ?_, ?_⟩
    · simp only at a1 a2
      rw [← hm] at a1
      rw [a1]
      simp only [Res.ok_bind]
      rw [a2]
      simp only [Res.ok_bind]
      rw [if_pos (by rw [c3.msEq, a7']; unfold u32Size; omega)]
      rfl
    · refine ⟨⟨a3.wait.congr rfl rfl rfl rfl rfl, c3.inq, c3.delay, c3.counter, ?_, c3.td, c3.msEq, c3.times, c3.spaced, c3.future, c3.phys⟩, ?_, ?_⟩
      · show km'.idle + km'.msPerTick ≤ s3.clock
        rw [a7', c3.msEq]
        omega
      · intro t ht
        have := hnear t (a5 t ht)
        omega
      · intro _ t ht
        have := hnear t (a5 t ht)
        omega
  rw [htick]
  unfold Dance.State.tick at hs
  by_cases hcond : s.delay = 0 ∧ s.queue ≠ []
  · rw [if_pos hcond, Option.bind_eq_some_iff] at hs
    obtain ⟨s2, hs2, hp⟩ := hs
    cases hq : s.queue with
    | nil => exact absurd hq hcond.2
    | cons e q =>
      have hphys : ∀ x ∈ e :: q, isPhysical x = true := by rw [← hq]; exact hcl.phys
      simp only [State.takeOldest, hq] at hs2
      have hk1 := h1.clock
      have hc2 : DCore K cfg count ms { km1 with inq := q, log := km1.log ++ [e] } { s with queue := q } :=
        ⟨h1.wait.congr rfl rfl rfl rfl rfl, rfl, hk1.delay, hk1.counter, hk1.idleLe, hk1.td, hk1.msEq, hk1.times, hk1.spaced, hk1.future,
          fun x hx => hphys x (List.mem_cons_of_mem _ hx)⟩
      obtain ⟨km2, b1, b2, b3, b4⟩ := hc2.take (S := S) (n := n) hk (h.roomy hcond.1) (hphys e List.mem_cons_self) hs2
      have hti : tickInput ⟨system K, refs, S⟩ (n + 3) km1 = .ok { km2 with delay := inputDelay } := by
        unfold tickInput
        rw [hk1.inq]
        simp only [hq]
        rw [if_pos (by rw [hk1.delay]; exact hcond.1), b1]
        rfl
      rw [hti]
      simp only [Res.ok_bind]
      have k2 := b2.clock
      refine clock { km2 with delay := inputDelay } s2 s' ?_ b3 hp
      refine ⟨b2.wait.congr rfl rfl rfl rfl rfl, k2.inq, ?_, k2.counter, k2.idleLe, k2.td, k2.msEq, k2.times, k2.spaced, k2.future, k2.phys⟩
      show inputDelay - 1 = s2.delay
      rw [b4]
      exact hcond.1.symm
  · rw [if_neg hcond] at hs
    simp only [Option.bind_some] at hs
    have hk1 := h1.clock
    have hti : tickInput ⟨system K, refs, S⟩ (n + 3) km1 = .ok km1 := by
      unfold tickInput
      rw [hk1.inq]
      cases hq : s.queue with
      | nil => rfl
      | cons e q =>
        simp only
        rw [if_neg]
        rw [hk1.delay]
        intro hd
        exact hcond ⟨hd, by rw [hq]; simp⟩
    rw [hti]
    simp only [Res.ok_bind]
    refine clock km1 { s with delay := s.delay - 1 } s' ?_ h.near hs
    refine ⟨h1.wait.congr rfl rfl rfl rfl rfl, hk1.inq, ?_, hk1.counter, hk1.idleLe, hk1.td, hk1.msEq, hk1.times, hk1.spaced, hk1.future, hk1.phys⟩
    show km1.delay - 1 = s.delay - 1
    rw [hk1.delay]

theorem DCore.outputs {km : CKM} {s : Dance.State} (h : DCore K cfg count ms km s) : km.pressedKeys ⟨system K, refs, S⟩ = .ok s.board.outputs := by
  have hwait := h.wait
  cases hw : s.waiting with
  | none => rw [hw] at hwait; exact pressedOutputs_held hwait.2.1.held
  | some w => rw [hw] at hwait; exact pressedOutputs_held (DWaitsFor.core hwait).held

theorem DSim.run (hk : DanceKeymap K refs cfg count ms layout) (calls : List Board.Call) {km : CKM} {s s' : Dance.State} (h : DSim K cfg count ms km s)
    (hp : ∀ e ∈ eventsIn calls, isPhysical e = true) (hs : s.run layout (danceRules cfg ms) calls = some s') :
    ∃ km', Verif.run ⟨system K, refs, S⟩ (n + 3) km (calls.map toOp) = .ok km' ∧ DSim K cfg count ms km' s' := by
  induction calls generalizing km s with
  | nil => cases hs; exact ⟨km, rfl, h⟩
  | cons c cs ih =>
    cases c with
    | input e =>
      simp only [eventsIn, List.mem_cons, forall_eq_or_imp] at hp
      simp only [Dance.State.run, Option.bind_eq_some_iff] at hs
      obtain ⟨s1, hs1, hs2⟩ := hs
      obtain ⟨km1, h1, h2⟩ := h.input (S := S) (n := n) hk hp.1 hs1
      obtain ⟨km2, h3, h4⟩ := ih h2 hp.2 hs2
      refine ⟨km2, ?_, h4⟩
      simp only [List.map_cons, toOp, Verif.run, step, h1, Res.ok_bind]
      exact h3
    | tick =>
      simp only [Dance.State.run, Option.bind_eq_some_iff] at hs
      obtain ⟨s1, hs1, hs2⟩ := hs
      obtain ⟨km1, h1, h2⟩ := h.tick (S := S) (n := n) hk hs1
      obtain ⟨km2, h3, h4⟩ := ih h2 hp hs2
      refine ⟨km2, ?_, h4⟩
      simp only [List.map_cons, toOp, Verif.run, step, h1, Res.ok_bind]
      exact h3
    | report =>
      have hc := h.core
      have hcl := hc.clock
      have h2 : DSim K cfg count ms { km with rep := (km.rep.report s.board.outputs).1 } s :=
        ⟨⟨hc.wait.congr rfl rfl rfl rfl rfl, hcl.inq, hcl.delay, hcl.counter, hcl.idleLe, hcl.td, hcl.msEq, hcl.times, hcl.spaced, hcl.future, hcl.phys⟩,
          h.near, h.roomy⟩
      obtain ⟨km2, h3, h4⟩ := ih h2 hp hs
      refine ⟨km2, ?_, h4⟩
      simp only [List.map_cons, toOp, Verif.run, step, reportOutput, hc.outputs (refs := refs) (S := S), Res.ok_bind, Res.pure_eq]
      exact h3

theorem DSim.start {c : Config} (h : c.chorded.maxPressed = 0 ∨ 16 ≤ c.chorded.maxPressed) :
    DSim K c.tapDance c.layerCount ms ((KM.new (Ctx.fromConfig c)).setMsPerTick ms) (Dance.State.new c.layerCount) := by
  have hsim := (SimQ.start (K := K) h).sim
  refine ⟨⟨⟨rfl, hsim.core.congr rfl rfl rfl, ?_⟩, rfl, rfl, rfl, Nat.le_refl _, rfl, rfl, rfl, ?_, ?_, ?_⟩, ?_, ?_⟩
  · intro e he; simp [KM.setMsPerTick, KM.new, Sched.new] at he
  all_goals simp [Dance.State.new]

end Verif.Comp
