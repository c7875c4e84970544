import Verif.Lemmas.DanceRun
import Verif.Props.TapHoldTime

/-!
# C25 and C26 end to end: tap-dance keys, from key presses and ticks to outputs

The firmware, with all of its queues, timers and contexts, does what the board of `Spec/Dance.lean` does,
for every layout of plain keys, layer keys and tap-dance keys, every history and every length of a tick.
From this follow the key a tap-dance key becomes and the tick at which it does.
-/

namespace Verif.Comp.TD

open Board Dance

/-- The keymap data: a layout of plain keys, layer keys and tap-dance keys of 2 to 256 keys each, whose layers
exist, at most 65535 positions, a timeout and a tick of at least 1 ms, and an array of pressed indices that is
absent or as large as the number of keys that can be held. -/
structure TapDanceKeymap (K : Keys) (refs : List Ref) (c : Config) (ms : Nat) (layout : List Pos) : Prop where
  layoutEq : danceLayoutOf K refs = some layout
  fits : ∀ p ∈ layout, p.Fits c.layerCount
  size : layout.length ≤ 65535
  tick : 1 ≤ ms
  timeout : 1 ≤ c.tapDance.timeout
  chords : c.chorded.maxPressed = 0 ∨ 16 ≤ c.chorded.maxPressed

/-- The firmware after some calls: it did not panic, and shows the outputs of the held keys of the board in
press order; the same events wait to be taken, and a key is pending when one waits on the board. -/
def Shows (K : Keys) (refs : List Ref) (S : Search) (n : Nat) (c : Config) (ms : Nat) (calls : List Board.Call) (s : Dance.State) : Prop :=
  ∃ km, run ⟨system K, refs, S⟩ n ((KM.new (Ctx.fromConfig c)).setMsPerTick ms) (calls.map toOp) = .ok km ∧
    km.pressedKeys ⟨system K, refs, S⟩ = .ok s.board.outputs ∧ km.inq = s.queue ∧ km.pend.isSome = s.waiting.isSome

section Timing

variable {K : Keys} {refs : List Ref} {S : Search} {c : Config} {ms n : Nat} {layout : List Pos}

/-- C25: for every history of key events, ticks and reports that does not overload the board, the firmware does
what the board does. -/
theorem C25_refines (hk : TapDanceKeymap K refs c ms layout) (calls : List Board.Call) (hev : ∀ e ∈ eventsIn calls, isPhysical e = true)
    {s : Dance.State} (hs : (Dance.State.new c.layerCount).run layout (danceRules c.tapDance ms) calls = some s) :
    Shows K refs S (n + 3) c ms calls s := by
  have hk' : DanceKeymap K refs c.tapDance c.layerCount ms layout := ⟨hk.layoutEq, hk.fits, hk.size, hk.tick, hk.timeout⟩
  obtain ⟨km, h1, h2⟩ := (DSim.start (K := K) (ms := ms) hk.chords).run (S := S) (n := n) hk' calls hev hs
  refine ⟨km, h1, h2.core.outputs, h2.core.clock.inq, ?_⟩
  have hw := h2.core.wait
  cases hx : s.waiting with
  | none => rw [hx] at hw; rw [hw.1]; rfl
  | some w =>
    rw [hx] at hw
    obtain ⟨k, key, hp, _⟩ := DWaitsFor.key hw
    rw [hp]; rfl

/-! ## Time on the board -/

section Board

variable {r : Rules}

theorem run_append (s : Dance.State) (as bs : List Board.Call) :
    s.run layout r (as ++ bs) = (s.run layout r as).bind fun s => s.run layout r bs := by
  induction as generalizing s with
  | nil => rfl
  | cons a as ih =>
    cases a with
    | input e => simp only [List.cons_append, Dance.State.run]; cases s.input layout r e <;> simp [ih]
    | tick => simp only [List.cons_append, Dance.State.run]; cases s.tick layout r <;> simp [ih]
    | report => simp only [List.cons_append, Dance.State.run, ih]

/-- Calls without a key event are so many ticks. -/
theorem run_ticks (s : Dance.State) {cs : List Board.Call} (h : eventsIn cs = []) :
    s.run layout r cs = s.run layout r (List.replicate (ticksIn cs) .tick) := by
  induction cs generalizing s with
  | nil => rfl
  | cons a as ih =>
    cases a with
    | input e => simp [eventsIn] at h
    | tick =>
      simp only [ticksIn, List.replicate_succ, Dance.State.run]
      cases s.tick layout r with
      | none => rfl
      | some s => simpa using ih s h
    | report => simpa only [ticksIn, Dance.State.run] using ih s h

/-- No key waits, and the events `q`. -/
structure Free (s : Dance.State) (b : Board.State) (q : List InputEvent) (d t : Nat) : Prop where
  board : s.board = b
  waiting : s.waiting = none
  queue : s.queue = q
  delay : s.delay = d
  clock : s.clock = t

/-- Key `w` waits, and no event; at most `m` timers run. -/
structure Hanging (s : Dance.State) (b : Board.State) (w : Waiting) (d t m : Nat) : Prop where
  board : s.board = b
  waiting : s.waiting = some w
  queue : s.queue = []
  delay : s.delay = d
  clock : s.clock = t
  timers : s.timers.length ≤ m

theorem free_tick {s : Dance.State} {b : Board.State} {d t : Nat} (h : Free s b [] d t) (hc : t + r.ms < 2 ^ 32) :
    ∃ s', s.tick layout r = some s' ∧ Free s' b [] (d - 1) (t + r.ms) := by
  obtain ⟨b', w, q, d', t', ts⟩ := s
  obtain ⟨h1, h2, h3, h4, h5⟩ := h
  simp only at h1 h2 h3 h4 h5
  subst h1 h2 h3 h4 h5
  refine ⟨⟨b', none, [], d' - 1, t' + r.ms, ts.filter (fun x => t' + r.ms < x)⟩, ?_, rfl, rfl, rfl, rfl, rfl⟩
  simp only [Dance.State.tick, ne_eq, not_true_eq_false, and_false, if_false, Option.bind_some, State.pass, hc, if_true]

theorem free_ticks {s : Dance.State} {b : Board.State} {d t : Nat} (k : Nat) (h : Free s b [] d t) (hc : t + k * r.ms < 2 ^ 32) :
    ∃ s', s.run layout r (List.replicate k .tick) = some s' ∧ Free s' b [] (d - k) (t + k * r.ms) := by
  induction k generalizing s d t with
  | zero => exact ⟨s, rfl, by simpa using h⟩
  | succ k ih =>
    have hm : (k + 1) * r.ms = k * r.ms + r.ms := by rw [Nat.add_mul, Nat.one_mul]
    obtain ⟨s1, h1, h2⟩ := free_tick (layout := layout) (r := r) h (by omega)
    obtain ⟨s2, h3, h4⟩ := ih h2 (by omega)
    refine ⟨s2, ?_, ?_⟩
    · simp only [List.replicate_succ, Dance.State.run, h1, Option.bind_some]; exact h3
    · rw [show d - (k + 1) = d - 1 - k by omega, show t + (k + 1) * r.ms = t + r.ms + k * r.ms by omega]; exact h4

/-- Nothing happens before the deadline. -/
theorem hanging_tick {s : Dance.State} {b : Board.State} {w : Waiting} {d t m : Nat} (h : Hanging s b w d t m)
    (hd : t + r.ms < w.deadline) (hw : w.deadline < 2 ^ 32) :
    ∃ s', s.tick layout r = some s' ∧ Hanging s' b w (d - 1) (t + r.ms) m := by
  obtain ⟨b', w', q', d', t', ts⟩ := s
  obtain ⟨h1, h2, h3, h4, h5, h6⟩ := h
  simp only at h1 h2 h3 h4 h5 h6
  subst h1 h2 h3 h4 h5
  have hc : t' + r.ms < 2 ^ 32 := by omega
  have hnd : ¬ w.deadline ≤ t' + r.ms := by omega
  refine ⟨⟨b', some w, [], d' - 1, t' + r.ms, ts.filter (fun x => t' + r.ms < x)⟩, ?_, rfl, rfl, rfl, rfl, rfl, ?_⟩
  · simp only [Dance.State.tick, ne_eq, not_true_eq_false, and_false, if_false, Option.bind_some, State.pass, hc, if_true, hnd]
  · exact Nat.le_trans (List.length_filter_le _ _) h6

theorem hanging_ticks {s : Dance.State} {b : Board.State} {w : Waiting} {d t m : Nat} (k : Nat) (h : Hanging s b w d t m)
    (hd : t + k * r.ms < w.deadline) (hw : w.deadline < 2 ^ 32) :
    ∃ s', s.run layout r (List.replicate k .tick) = some s' ∧ Hanging s' b w (d - k) (t + k * r.ms) m := by
  induction k generalizing s d t with
  | zero => exact ⟨s, rfl, by simpa using h⟩
  | succ k ih =>
    have hm : (k + 1) * r.ms = k * r.ms + r.ms := by rw [Nat.add_mul, Nat.one_mul]
    obtain ⟨s1, h1, h2⟩ := hanging_tick (layout := layout) (r := r) h (by omega) hw
    obtain ⟨s2, h3, h4⟩ := ih h2 (by omega)
    refine ⟨s2, ?_, ?_⟩
    · simp only [List.replicate_succ, Dance.State.run, h1, Option.bind_some]; exact h3
    · rw [show d - (k + 1) = d - 1 - k by omega, show t + (k + 1) * r.ms = t + r.ms + k * r.ms by omega]; exact h4

/-- At the deadline the key is decided. -/
theorem hanging_timeout {s : Dance.State} {b : Board.State} {w : Waiting} {d t m : Nat} {cl : Cell} (h : Hanging s b w d t m)
    (hcl : w.cells[w.again]? = some cl) (hd : w.deadline ≤ t + r.ms) (hc : t + r.ms < 2 ^ 32) (hl : w.kept.length ≤ 31) :
    ∃ s', s.tick layout r = some s' ∧ Free s' (hold b w.key cl) w.kept (d - 1) (t + r.ms) := by
  obtain ⟨b', w', q', d', t', ts⟩ := s
  obtain ⟨h1, h2, h3, h4, h5, h6⟩ := h
  simp only at h1 h2 h3 h4 h5 h6
  subst h1 h2 h3 h4 h5
  refine ⟨⟨hold b' w.key cl, none, w.kept, d' - 1, t' + r.ms, ts.filter (fun x => t' + r.ms < x)⟩, ?_, rfl, rfl, rfl, rfl, rfl⟩
  simp only [Dance.State.tick, ne_eq, not_true_eq_false, and_false, if_false, Option.bind_some, State.pass, hc, if_true, hd, State.settle,
    List.append_nil, hl, hcl, Option.map_some]

/-- Ticks up to and beyond the deadline, when one event at most is kept: it is taken at the tick after the
deadline. -/
theorem hanging_ends {s : Dance.State} {b b' : Board.State} {w : Waiting} {d t m : Nat} {cl : Cell} (h : Hanging s b w d t m) (hd1 : d ≤ 1)
    (hms : 1 ≤ r.ms) (ht : t < w.deadline) (hcl : w.cells[w.again]? = some cl) (hkept : w.kept.length ≤ 1)
    (htake : ∀ e, w.kept = [e] → ∀ s : Dance.State, s.board = hold b w.key cl → s.waiting = none → s.take layout r e = some { s with board := b' })
    (hnone : w.kept = [] → b' = hold b w.key cl) (k : Nat) (hw : w.deadline < 2 ^ 32) (hc : t + k * r.ms < 2 ^ 32) :
    ∃ s', s.run layout r (List.replicate k .tick) = some s' ∧
      (t + k * r.ms < w.deadline → Hanging s' b w (d - k) (t + k * r.ms) m) ∧
      (w.deadline ≤ t + k * r.ms → t + (k - 1) * r.ms < w.deadline → Free s' (hold b w.key cl) w.kept 0 (t + k * r.ms)) ∧
      (w.deadline ≤ t + (k - 1) * r.ms → Free s' b' [] 0 (t + k * r.ms)) := by
  induction k with
  | zero => exact ⟨s, rfl, fun _ => by simpa using h, fun _ _ => by simp at *; omega, fun _ => by simp at *; omega⟩
  | succ k ih =>
    have hm : (k + 1) * r.ms = k * r.ms + r.ms := by rw [Nat.add_mul, Nat.one_mul]
    obtain ⟨s1, h1, h2, h3, h4⟩ := ih (by omega)
    have hrun : s.run layout r (List.replicate (k + 1) .tick) = s1.tick layout r := by
      rw [List.replicate_succ', run_append, h1]
      simp only [Option.bind_some, Dance.State.run]
      cases s1.tick layout r <;> rfl
    rw [hrun, Nat.add_sub_cancel, show t + (k + 1) * r.ms = t + k * r.ms + r.ms by omega, show d - (k + 1) = d - k - 1 by omega]
    by_cases hlt : t + k * r.ms < w.deadline
    · by_cases hlt' : t + k * r.ms + r.ms < w.deadline
      · obtain ⟨s2, h5, h6⟩ := hanging_tick (layout := layout) (r := r) (h2 hlt) hlt' hw
        exact ⟨s2, h5, fun _ => h6, fun _ _ => by omega, fun _ => by omega⟩
      · obtain ⟨s2, h5, h6⟩ := hanging_timeout (layout := layout) (r := r) (h2 hlt) hcl (by omega) (by omega) (by omega)
        rw [show d - k - 1 = 0 by omega] at h6
        exact ⟨s2, h5, fun _ => by omega, fun _ _ => h6, fun _ => by omega⟩
    · by_cases hlast : t + (k - 1) * r.ms < w.deadline
      · have hf := h3 (by omega) hlast
        match hq : w.kept with
        | [] =>
          rw [hq] at hf
          obtain ⟨s2, h5, h6⟩ := free_tick (layout := layout) (r := r) hf (by omega)
          rw [hnone hq]
          exact ⟨s2, h5, fun _ => by omega, fun _ _ => by omega, fun _ => h6⟩
        | e :: q =>
          have hq0 : q = [] := by rw [hq] at hkept; simpa using hkept
          subst hq0
          obtain ⟨b1, w1, q1, d1, t1, ts⟩ := s1
          obtain ⟨e1, e2, e3, e4, e5⟩ := hf
          simp only at e1 e2 e3 e4 e5
          rw [hq] at e3
          subst e1 e2 e3 e4 e5
          have hc' : t + k * r.ms + r.ms < 2 ^ 32 := by omega
          refine ⟨⟨b', none, [], 0, t + k * r.ms + r.ms, ts.filter (fun x => t + k * r.ms + r.ms < x)⟩, ?_, fun _ => by omega, fun _ _ => by omega,
            fun _ => ⟨rfl, rfl, rfl, rfl, rfl⟩⟩
          simp [Dance.State.tick, State.takeOldest, htake e hq ⟨hold b w.key cl, none, [], 0, t + k * r.ms, ts⟩ rfl rfl, State.pass, hc']
      · obtain ⟨s2, h5, h6⟩ := free_tick (layout := layout) (r := r) (h4 (by omega)) (by omega)
        exact ⟨s2, h5, fun _ => by omega, fun _ _ => by omega, fun _ => h6⟩

/-- The tap-dance key `i` with the keys `cs` can be pressed now, and will wait. -/
structure CanDance (layout : List Pos) (s : Dance.State) (i : Nat) (cs : List Cell) : Prop where
  /-- no key waits, and no event -/
  rest : Free s s.board [] 0 s.clock
  /-- the key is not held, and fewer than 16 are -/
  free : s.board.holds i = false
  room : s.board.held.length < 16
  /-- it is a tap-dance key (on the active layer) -/
  key : (layout[i]?).map (Pos.pick s.board) = some (.dance cs)

theorem ready_press {s : Dance.State} {i : Nat} {cs : List Cell} (h : CanDance layout s i cs) (ht : s.timers.length < 32)
    (hc : s.clock + r.timeout < 2 ^ 32) :
    ∃ s', s.input layout r (.press i) = some s' ∧ Hanging s' s.board ⟨i, cs, 0, s.clock + r.timeout, []⟩ 1 s.clock (s.timers.length + 1) := by
  obtain ⟨⟨_, hw, hq, hdl, _⟩, hf, hr, hkey⟩ := h
  obtain ⟨b', w', q', d', t', ts⟩ := s
  simp only at hw hq hdl hf hr hkey ht hc
  subst hw hq hdl
  rw [Option.map_eq_some_iff] at hkey
  obtain ⟨p, hp, hpick⟩ := hkey
  refine ⟨⟨b', some ⟨i, cs, 0, t' + r.timeout, []⟩, [], 1, t', ts ++ [t' + r.timeout]⟩, ?_, rfl, rfl, rfl, rfl, rfl, by simp⟩
  simp only [Dance.State.input, List.length_nil, ge_iff_le, show ¬ 31 ≤ 0 by decide, if_false, List.nil_append, if_true, State.takeOldest, State.take, hf,
    Bool.false_eq_true, hr, hp, Option.bind_some, hpick, State.press, State.set, ht, hc, and_self, Option.map_some]

/-- An event of another kind than a press of the waiting key. -/
theorem hanging_event {s : Dance.State} {b : Board.State} {w : Waiting} {t m : Nat} {e : InputEvent} (h : Hanging s b w 0 t m) (he : e ≠ .press w.key)
    (hs : w.seen.length < 16) :
    ∃ s', s.input layout r e = some s' ∧ Hanging s' b { w with seen := w.seen ++ [e] } 1 t m := by
  obtain ⟨b', w', q', d', t', ts⟩ := s
  obtain ⟨h1, h2, h3, h4, h5, h6⟩ := h
  simp only at h1 h2 h3 h4 h5 h6
  subst h1 h2 h3 h4 h5
  refine ⟨⟨b', some { w with seen := w.seen ++ [e] }, [], 1, t', ts⟩, ?_, rfl, rfl, rfl, rfl, rfl, h6⟩
  simp only [Dance.State.input, List.length_nil, ge_iff_le, show ¬ 31 ≤ 0 by decide, if_false, List.nil_append, if_true, State.takeOldest, State.take,
    hs, he, Option.map_some]

/-- The waiting key is pressed again, and waits on. -/
theorem hanging_again {s : Dance.State} {b : Board.State} {w : Waiting} {t m : Nat} (h : Hanging s b w 0 t m) (hs : w.seen.length < 16)
    (hm : m < 32) (hc : t + r.timeout < 2 ^ 32) (hn : w.again + 2 < w.cells.length) :
    ∃ s', s.input layout r (.press w.key) = some s' ∧
      Hanging s' b { w with again := w.again + 1, deadline := t + r.timeout, seen := w.seen ++ [.press w.key] } 1 t (m + 1) := by
  obtain ⟨b', w', q', d', t', ts⟩ := s
  obtain ⟨h1, h2, h3, h4, h5, h6⟩ := h
  simp only at h1 h2 h3 h4 h5 h6
  subst h1 h2 h3 h4 h5
  have hlt : ts.length < 32 := by omega
  refine ⟨⟨b', some { w with again := w.again + 1, deadline := t' + r.timeout, seen := w.seen ++ [.press w.key] }, [], 1, t', ts ++ [t' + r.timeout]⟩,
    ?_, rfl, rfl, rfl, rfl, rfl, by simpa using h6⟩
  simp only [Dance.State.input, List.length_nil, ge_iff_le, show ¬ 31 ≤ 0 by decide, if_false, List.nil_append, if_true, State.takeOldest, State.take,
    hs, State.again, State.set, hlt, hc, and_self, Option.bind_some, show w.again + 1 + 1 < w.cells.length by omega, Option.map_some]

/-- The waiting key is pressed again, for the last of its keys. -/
theorem hanging_last {s : Dance.State} {b : Board.State} {w : Waiting} {t m : Nat} {cl : Cell} (h : Hanging s b w 0 t m) (hs : w.seen.length < 16)
    (hm : m < 32) (hc : t + r.timeout < 2 ^ 32) (hn : w.again + 2 = w.cells.length) (hcl : w.cells[w.again + 1]? = some cl) :
    ∃ s', s.input layout r (.press w.key) = some s' ∧
      Free s' (hold b w.key cl) ({ w with seen := w.seen ++ [.press w.key] } : Waiting).kept 1 t := by
  obtain ⟨b', w', q', d', t', ts⟩ := s
  obtain ⟨h1, h2, h3, h4, h5, h6⟩ := h
  simp only at h1 h2 h3 h4 h5 h6
  subst h1 h2 h3 h4 h5
  have hlt : ts.length < 32 := by omega
  have hk : ({ w with seen := w.seen ++ [.press w.key], again := w.again + 1, deadline := t' + r.timeout } : Waiting).kept =
      ({ w with seen := w.seen ++ [.press w.key] } : Waiting).kept := rfl
  have hl : ({ w with seen := w.seen ++ [.press w.key] } : Waiting).kept.length ≤ 31 := by
    unfold Waiting.kept
    simp only [List.length_append]
    have h1 := List.length_filter_le (fun e => !ofKey w.key e) (w.seen ++ [.press w.key])
    have h2 : (List.filter (ofKey w.key) (w.seen ++ [.press w.key])).getLast?.toList.length ≤ 1 := by
      cases (List.filter (ofKey w.key) (w.seen ++ [.press w.key])).getLast? <;> simp
    simp only [List.length_append, List.length_cons, List.length_nil] at h1
    omega
  refine ⟨⟨hold b' w.key cl, none, ({ w with seen := w.seen ++ [.press w.key] } : Waiting).kept, 1, t', ts ++ [t' + r.timeout]⟩,
    ?_, rfl, rfl, rfl, rfl, rfl⟩
  simp only [Dance.State.input, List.length_nil, ge_iff_le, show ¬ 31 ≤ 0 by decide, if_false, List.nil_append, if_true, State.takeOldest, State.take,
    hs, State.again, State.set, hlt, hc, and_self, Option.bind_some, show ¬ w.again + 1 + 1 < w.cells.length by omega, State.settle, List.append_nil,
    hk, hl, hcl, Option.map_some]

/-! ## Taps -/

/-- The calls from a press of key `i` to a later one: for each further press, calls, the release, calls, the
press. -/
def further (i : Nat) : List (List Board.Call × List Board.Call) → List Board.Call
  | [] => []
  | (as, bs) :: gs => as ++ .input (.release i) :: (bs ++ .input (.press i) :: further i gs)

/-- The calls between the events are ticks and reports, at least one tick each, and the next press comes before
the timeout. -/
def InTime (r : Rules) (gs : List (List Board.Call × List Board.Call)) : Prop :=
  ∀ g ∈ gs, eventsIn g.1 = [] ∧ eventsIn g.2 = [] ∧ 1 ≤ ticksIn g.1 ∧ 1 ≤ ticksIn g.2 ∧ (ticksIn g.1 + ticksIn g.2) * r.ms < r.timeout

/-- The ticks of these calls. -/
def ticksOf : List (List Board.Call × List Board.Call) → Nat
  | [] => 0
  | (as, bs) :: gs => ticksIn as + ticksIn bs + ticksOf gs

/-- A release and a press, `m` times. -/
def seenBy (i : Nat) : Nat → List InputEvent
  | 0 => []
  | m + 1 => .release i :: .press i :: seenBy i m

theorem seenBy_length (i m : Nat) : (seenBy i m).length = 2 * m := by
  induction m with
  | zero => rfl
  | succ m ih => simp only [seenBy, List.length_cons, ih]; omega

theorem seenBy_own (i m : Nat) : ∀ e ∈ seenBy i m, ofKey i e = true := by
  induction m with
  | zero => simp [seenBy]
  | succ m ih =>
    intro e he
    simp only [seenBy, List.mem_cons] at he
    rcases he with rfl | rfl | he
    · simp [ofKey]
    · simp [ofKey]
    · exact ih e he

theorem kept_own {w : Waiting} (h : ∀ e ∈ w.seen, ofKey w.key e = true) : w.kept = w.seen.getLast?.toList := by
  unfold Waiting.kept
  rw [List.filter_eq_nil_iff.2 (fun e he => by simp [h e he]), List.filter_eq_self.2 h]
  rfl

theorem seenBy_last (i m : Nat) : (seenBy i (m + 1)).getLast? = some (.press i) := by
  induction m with
  | zero => rfl
  | succ m ih => rw [seenBy, List.getLast?_cons_cons, List.getLast?_cons, ih]; rfl

/-- The key is pressed again some times, each time before the timeout, and waits on. -/
theorem hanging_further {gs : List (List Board.Call × List Board.Call)} (hgs : InTime r gs) {s : Dance.State} {b : Board.State} {w : Waiting} {t m : Nat}
    (h : Hanging s b w 1 t m) (hdl : w.deadline = t + r.timeout) (hs : w.seen.length + 2 * gs.length ≤ 16) (hm : m + gs.length ≤ 32)
    (hc : t + ticksOf gs * r.ms + r.timeout < 2 ^ 32) (hn : w.again + gs.length + 1 < w.cells.length) :
    ∃ s', s.run layout r (further w.key gs) = some s' ∧
      Hanging s' b { w with again := w.again + gs.length, deadline := t + ticksOf gs * r.ms + r.timeout, seen := w.seen ++ seenBy w.key gs.length } 1
        (t + ticksOf gs * r.ms) (m + gs.length) := by
  induction gs generalizing s w t m with
  | nil =>
    refine ⟨s, rfl, ?_⟩
    simp only [ticksOf, seenBy, List.length_nil, Nat.zero_mul, Nat.add_zero, List.append_nil]
    rw [← hdl]
    exact h
  | cons g gs ih =>
    obtain ⟨as, bs⟩ := g
    obtain ⟨ha, hb, ha1, hb1, hab⟩ := hgs (as, bs) List.mem_cons_self
    simp only at ha hb ha1 hb1 hab
    simp only [ticksOf, List.length_cons] at hs hm hc hn ⊢
    have e1 : (ticksIn as + ticksIn bs + ticksOf gs) * r.ms = ticksIn as * r.ms + ticksIn bs * r.ms + ticksOf gs * r.ms := by
      rw [Nat.add_mul, Nat.add_mul]
    have e2 : (ticksIn as + ticksIn bs) * r.ms = ticksIn as * r.ms + ticksIn bs * r.ms := Nat.add_mul _ _ _
    rw [e2] at hab
    rw [e1] at hc ⊢
    obtain ⟨s1, r1, h1⟩ := hanging_ticks (layout := layout) (r := r) (ticksIn as) h (by omega) (by omega)
    rw [show 1 - ticksIn as = 0 by omega] at h1
    obtain ⟨s2, r2, h2⟩ := hanging_event (layout := layout) (r := r) (e := .release w.key) h1 (by simp) (by omega)
    obtain ⟨s3, r3, h3⟩ := hanging_ticks (layout := layout) (r := r) (ticksIn bs) h2 (by simp only; omega) (by simp only; omega)
    rw [show 1 - ticksIn bs = 0 by omega] at h3
    obtain ⟨s4, r4, h4⟩ := hanging_again (layout := layout) (r := r) h3 (by simp only [List.length_append, List.length_cons, List.length_nil]; omega)
      (by omega) (by omega) (by simp only; omega)
    simp only at r4
    obtain ⟨s5, r5, h5⟩ := ih (fun g hg => hgs g (List.mem_cons_of_mem _ hg)) h4 rfl
      (by simp only [List.length_append, List.length_cons, List.length_nil]; omega) (by omega) (by omega) (by simp only; omega)
    refine ⟨s5, ?_, ?_⟩
    · simp only [further, run_append, run_ticks s ha, r1, Option.bind_some, Dance.State.run, r2, run_ticks s2 hb, r3, r4]
      exact r5
    · simp only [List.append_assoc, List.cons_append, List.nil_append] at h5
      rw [show t + (ticksIn as * r.ms + ticksIn bs * r.ms + ticksOf gs * r.ms) = t + ticksIn as * r.ms + ticksIn bs * r.ms + ticksOf gs * r.ms by omega,
        show w.again + (gs.length + 1) = w.again + 1 + gs.length by omega, show m + (gs.length + 1) = m + 1 + gs.length by omega]
      exact h5

end Board

/-! ## The firmware -/

/-- The board after these calls, which do not overload it. -/
def Reaches (layout : List Pos) (c : Config) (ms : Nat) (calls : List Board.Call) (s : Dance.State) : Prop :=
  (∀ e ∈ eventsIn calls, isPhysical e = true) ∧ (Dance.State.new c.layerCount).run layout (danceRules c.tapDance ms) calls = some s

theorem lift (hk : TapDanceKeymap K refs c ms layout) {calls : List Board.Call} {s s' : Dance.State} (hs : Reaches layout c ms calls s)
    (more : List Board.Call) (hm : ∀ e ∈ eventsIn more, isPhysical e = true) (hs' : s.run layout (danceRules c.tapDance ms) more = some s') :
    Outputs K refs S (n + 3) c ms (calls ++ more) s'.board.outputs := by
  obtain ⟨km, h1, h2, _⟩ := C25_refines (S := S) (n := n) hk (calls ++ more)
    (by rw [eventsIn_append]; exact fun e he => (List.mem_append.1 he).elim (hs.1 e) (hm e))
    (s := s') (by rw [run_append, hs.2]; exact hs')
  exact ⟨km, h1, h2⟩

theorem further_events {r : Rules} {i : Nat} {gs : List (List Board.Call × List Board.Call)} (h : InTime r gs) :
    ∀ e ∈ eventsIn (further i gs), isPhysical e = true := by
  induction gs with
  | nil => simp [further, eventsIn]
  | cons g gs ih =>
    obtain ⟨as, bs⟩ := g
    obtain ⟨ha, hb, _⟩ := h (as, bs) List.mem_cons_self
    simp only at ha hb
    have := ih (fun g hg => h g (List.mem_cons_of_mem _ hg))
    simp only [further, eventsIn_append, ha, hb, eventsIn, List.nil_append, List.mem_cons, forall_eq_or_imp]
    exact ⟨rfl, rfl, this⟩

/-- Key `i` is pressed, and pressed again as often as `gs` says, each time in time. -/
def presses (i : Nat) (gs : List (List Board.Call × List Board.Call)) : List Board.Call := .input (.press i) :: further i gs

theorem dance_hanging {r : Rules} {s : Dance.State} {i : Nat} {cs : List Cell} (hr : CanDance layout s i cs)
    {gs : List (List Board.Call × List Board.Call)} (hgs : InTime r gs) (h8 : gs.length ≤ 8) (hm : s.timers.length + gs.length < 32)
    (hc : s.clock + ticksOf gs * r.ms + r.timeout < 2 ^ 32) (hn : gs.length + 1 < cs.length) :
    ∃ s', s.run layout r (presses i gs) = some s' ∧
      Hanging s' s.board ⟨i, cs, gs.length, s.clock + ticksOf gs * r.ms + r.timeout, seenBy i gs.length⟩ 1
        (s.clock + ticksOf gs * r.ms) (s.timers.length + 1 + gs.length) := by
  obtain ⟨s1, r1, h1⟩ := ready_press (r := r) hr (by omega) (by omega)
  obtain ⟨s2, r2, h2⟩ := hanging_further (layout := layout) hgs h1 rfl (by simp only [List.length_nil]; omega) (by omega) hc (by simp only; omega)
  refine ⟨s2, ?_, ?_⟩
  · simp only [presses, Dance.State.run, r1, Option.bind_some]
    exact r2
  · simpa using h2

theorem take_held {r : Rules} {i : Nat} {cl : Cell} {b : Board.State} (s : Dance.State) (hb : s.board = hold b i cl) (hw : s.waiting = none) :
    s.take layout r (.press i) = some { s with board := hold b i cl } := by
  have hh : s.board.holds i = true := by
    rw [hb]
    unfold Dance.hold Board.State.holds
    cases cl <;> simp [Cell.press]
  unfold State.take
  rw [hw]
  simp only [hh, if_true]
  rw [← hb, ← hw]

theorem take_release {r : Rules} (i : Nat) (s : Dance.State) (h : s.waiting = none) :
    s.take layout r (.release i) = some { s with board := s.board.input [] (.release i) } := by
  unfold State.take
  rw [h]

theorem kept_seenBy (i : Nat) (cs : List Cell) (k d m : Nat) :
    (⟨i, cs, k, d, seenBy i m⟩ : Waiting).kept = if m = 0 then [] else [.press i] := by
  rw [kept_own (seenBy_own i m)]
  cases m with
  | zero => rfl
  | succ m => simp [seenBy_last]

/-- C25: a tap-dance key is pressed as many times as `gs` says and once more, each press before the timeout
after the one before, and there is a key for one press more. While fewer milliseconds than the timeout have
passed since the last press, the outputs are the ones from before the dance. After that, the key being kept
pressed, the output of the key for that number of presses is added. -/
theorem C25_held (hk : TapDanceKeymap K refs c ms layout) {calls : List Board.Call} {s : Dance.State} (hs : Reaches layout c ms calls s)
    {i : Nat} {cs : List Cell} (hr : CanDance layout s i cs) {gs : List (List Board.Call × List Board.Call)}
    (hgs : InTime (danceRules c.tapDance ms) gs) (h8 : gs.length ≤ 8) (hm : s.timers.length + gs.length < 32)
    {cl : Cell} (hcl : cs[gs.length]? = some cl) (hn : gs.length + 1 < cs.length) (ds : List Board.Call) (hds : eventsIn ds = [])
    (hclk : s.clock + ticksOf gs * ms + c.tapDance.timeout + ticksIn ds * ms < 2 ^ 32) :
    Outputs K refs S (n + 3) c ms (calls ++ (presses i gs ++ ds))
      (s.board.outputs ++ if ticksIn ds * ms < c.tapDance.timeout then [] else cl.output.toList) := by
  have hT := hk.timeout
  obtain ⟨s1, r1, h1⟩ := dance_hanging hr hgs h8 hm (by simp only [danceRules]; omega) hn
  obtain ⟨s2, r2, a1, a2, a3⟩ := hanging_ends (layout := layout) (r := danceRules c.tapDance ms) (b' := hold s.board i cl) h1 (by omega) hk.tick
    (by simp only [danceRules]; omega) hcl (by rw [kept_seenBy]; split <;> simp)
    (by
      intro e he s hb hw
      rw [kept_seenBy] at he
      split at he
      · cases he
      · cases he; exact take_held s hb hw)
    (fun _ => rfl) (ticksIn ds) (by simp only [danceRules]; omega) (by simp only [danceRules]; omega)
  have := lift (S := S) (n := n) hk hs (presses i gs ++ ds)
    (by
      intro e he
      rw [eventsIn_append, hds, List.append_nil, presses, eventsIn, List.mem_cons] at he
      rcases he with rfl | he
      · rfl
      · exact further_events hgs e he)
    (s' := s2) (by rw [run_append, r1]; simp only [Option.bind_some, run_ticks s1 hds]; exact r2)
  simp only [danceRules] at a1 a2 a3
  split
  · rename_i hlt
    rw [(a1 (by omega)).board] at this
    simpa using this
  · rename_i hlt
    have hb : s2.board = hold s.board i cl := by
      by_cases hlast : (ticksIn ds - 1) * ms < c.tapDance.timeout
      · exact (a2 (by omega) (by omega)).board
      · exact (a3 (by omega)).board
    rw [hb] at this
    rw [← hold_outputs s.board i cl]
    exact this

/-- C25: the key is released before the timeout after the last press: at the tick at which the timeout is
reached the output of the key for that number of presses appears, and it is gone at the next tick. -/
theorem C25_tapped (hk : TapDanceKeymap K refs c ms layout) {calls : List Board.Call} {s : Dance.State} (hs : Reaches layout c ms calls s)
    {i : Nat} {cs : List Cell} (hr : CanDance layout s i cs) {gs : List (List Board.Call × List Board.Call)}
    (hgs : InTime (danceRules c.tapDance ms) gs) (h8 : gs.length < 8) (hm : s.timers.length + gs.length < 32)
    {cl : Cell} (hcl : cs[gs.length]? = some cl) (hn : gs.length + 1 < cs.length) (as : List Board.Call) (has : eventsIn as = [])
    (hpos : 1 ≤ ticksIn as) (hshort : ticksIn as * ms < c.tapDance.timeout) (ds : List Board.Call) (hds : eventsIn ds = [])
    (hclk : s.clock + ticksOf gs * ms + c.tapDance.timeout + (ticksIn as + ticksIn ds) * ms < 2 ^ 32) :
    Outputs K refs S (n + 3) c ms (calls ++ (presses i gs ++ (as ++ .input (.release i) :: ds)))
      (s.board.outputs ++
        if (ticksIn as + ticksIn ds - 1) * ms < c.tapDance.timeout ∧ c.tapDance.timeout ≤ (ticksIn as + ticksIn ds) * ms then cl.output.toList
        else []) := by
  have hT := hk.timeout
  have e2 : (ticksIn as + ticksIn ds) * ms = ticksIn as * ms + ticksIn ds * ms := Nat.add_mul _ _ _
  have e3 : 1 ≤ ticksIn ds → (ticksIn as + ticksIn ds - 1) * ms = ticksIn as * ms + (ticksIn ds - 1) * ms := by
    intro h
    rw [show ticksIn as + ticksIn ds - 1 = ticksIn as + (ticksIn ds - 1) by omega, Nat.add_mul]
  obtain ⟨s1, r1, h1⟩ := dance_hanging hr hgs (by omega) hm (by simp only [danceRules]; omega) hn
  obtain ⟨s2, r2, h2⟩ := hanging_ticks (layout := layout) (r := danceRules c.tapDance ms) (ticksIn as) h1 (by simp only [danceRules]; omega)
    (by simp only [danceRules]; omega)
  rw [show 1 - ticksIn as = 0 by omega] at h2
  obtain ⟨s3, r3, h3⟩ := hanging_event (layout := layout) (r := danceRules c.tapDance ms) (e := .release i) h2 (by simp)
    (by simp only [seenBy_length]; omega)
  have hkept : (⟨i, cs, gs.length, s.clock + ticksOf gs * ms + c.tapDance.timeout, seenBy i gs.length ++ [.release i]⟩ : Waiting).kept = [.release i] := by
    rw [kept_own]
    · simp
    · intro e he
      simp only [List.mem_append, List.mem_cons, List.not_mem_nil, or_false] at he
      rcases he with he | rfl
      · exact seenBy_own i _ e he
      · simp [ofKey]
  simp only [danceRules] at h3
  obtain ⟨s4, r4, a1, a2, a3⟩ := hanging_ends (layout := layout) (r := danceRules c.tapDance ms) (b' := (hold s.board i cl).input [] (.release i)) h3
    (by omega) hk.tick (by simp only; omega) hcl (by rw [hkept]; simp)
    (by
      intro e he s hb hw
      rw [hkept] at he
      cases he
      rw [take_release i s hw, hb])
    (by intro h; rw [hkept] at h; cases h) (ticksIn ds) (by simp only; omega) (by simp only [danceRules]; omega)
  have := lift (S := S) (n := n) hk hs (presses i gs ++ (as ++ .input (.release i) :: ds))
    (by
      intro e he
      simp only [eventsIn_append, has, hds, presses, eventsIn, List.mem_append, List.mem_cons, List.not_mem_nil, or_false, false_or] at he
      rcases he with (rfl | he) | rfl
      · rfl
      · exact further_events hgs e he
      · rfl)
    (s' := s4) (by
      rw [run_append, r1]
      simp only [Option.bind_some, run_append, run_ticks s1 has, r2, Dance.State.run, r3, run_ticks s3 hds]
      exact r4)
  simp only [danceRules] at a1 a2 a3
  by_cases h0 : s.clock + ticksOf gs * ms + ticksIn as * ms + ticksIn ds * ms < s.clock + ticksOf gs * ms + c.tapDance.timeout
  · rw [if_neg (by rintro ⟨_, h⟩; omega)]
    rw [(a1 h0).board] at this
    simpa using this
  · have hd1 : 1 ≤ ticksIn ds := by
      rcases Nat.eq_zero_or_pos (ticksIn ds) with h | h
      · rw [h] at h0; omega
      · exact h
    have e3 := e3 hd1
    by_cases hlast : (ticksIn as + ticksIn ds - 1) * ms < c.tapDance.timeout
    · rw [if_pos ⟨hlast, by omega⟩, ← hold_outputs s.board i cl]
      have hb := (a2 (by omega) (by omega)).board
      rw [hb] at this
      exact this
    · rw [if_neg (by rintro ⟨h, _⟩; exact hlast h), List.append_nil]
      have hb := (a3 (by omega)).board
      rw [hb] at this
      rw [← hold_release hr.free cl]
      exact this

/-- C25: there is no key for one press more: with the last press, the output of the last key is added at once,
and stays while the key is kept pressed. -/
theorem C25_last (hk : TapDanceKeymap K refs c ms layout) {calls : List Board.Call} {s : Dance.State} (hs : Reaches layout c ms calls s)
    {i : Nat} {cs : List Cell} (hr : CanDance layout s i cs) {gs : List (List Board.Call × List Board.Call)} {g : List Board.Call × List Board.Call}
    (hgs : InTime (danceRules c.tapDance ms) (gs ++ [g])) (h8 : gs.length < 8) (hm : s.timers.length + gs.length + 1 < 32)
    {cl : Cell} (hcl : cs[gs.length + 1]? = some cl) (hn : gs.length + 2 = cs.length) (ds : List Board.Call) (hds : eventsIn ds = [])
    (hclk : s.clock + ticksOf (gs ++ [g]) * ms + c.tapDance.timeout + ticksIn ds * ms < 2 ^ 32) :
    Outputs K refs S (n + 3) c ms (calls ++ (presses i (gs ++ [g]) ++ ds)) (s.board.outputs ++ cl.output.toList) := by
  obtain ⟨as, bs⟩ := g
  have hT := hk.timeout
  obtain ⟨ha, hb, ha1, hb1, hab⟩ := hgs (as, bs) (by simp)
  simp only [danceRules] at ha hb ha1 hb1 hab
  have hgs' : InTime (danceRules c.tapDance ms) gs := fun g hg => hgs g (List.mem_append_left _ hg)
  have hto : ∀ gs : List (List Board.Call × List Board.Call), ticksOf (gs ++ [(as, bs)]) = ticksOf gs + (ticksIn as + ticksIn bs) := by
    intro gs
    induction gs with
    | nil => simp [ticksOf]
    | cons g gs ih => obtain ⟨x, y⟩ := g; simp only [List.cons_append, ticksOf, ih]; omega
  have hfu : ∀ gs : List (List Board.Call × List Board.Call), further i (gs ++ [(as, bs)]) =
      further i gs ++ (as ++ .input (.release i) :: (bs ++ [.input (.press i)])) := by
    intro gs
    induction gs with
    | nil => simp [further]
    | cons g gs ih => obtain ⟨x, y⟩ := g; simp only [List.cons_append, further, ih, List.append_assoc]
  rw [hto] at hclk
  have e1 : (ticksOf gs + (ticksIn as + ticksIn bs)) * ms = ticksOf gs * ms + ticksIn as * ms + ticksIn bs * ms := by
    rw [Nat.add_mul, Nat.add_mul]; omega
  have e2 : (ticksIn as + ticksIn bs) * ms = ticksIn as * ms + ticksIn bs * ms := Nat.add_mul _ _ _
  rw [e1] at hclk
  rw [e2] at hab
  obtain ⟨s1, r1, h1⟩ := dance_hanging hr hgs' (by omega) (by omega) (by simp only [danceRules]; omega) (by omega)
  obtain ⟨s2, r2, h2⟩ := hanging_ticks (layout := layout) (r := danceRules c.tapDance ms) (ticksIn as) h1 (by simp only [danceRules]; omega)
    (by simp only [danceRules]; omega)
  rw [show 1 - ticksIn as = 0 by omega] at h2
  obtain ⟨s3, r3, h3⟩ := hanging_event (layout := layout) (r := danceRules c.tapDance ms) (e := .release i) h2 (by simp)
    (by simp only [seenBy_length]; omega)
  obtain ⟨s4, r4, h4⟩ := hanging_ticks (layout := layout) (r := danceRules c.tapDance ms) (ticksIn bs) h3 (by simp only [danceRules]; omega)
    (by simp only [danceRules]; omega)
  rw [show 1 - ticksIn bs = 0 by omega] at h4
  obtain ⟨s5, r5, h5⟩ := hanging_last (layout := layout) (r := danceRules c.tapDance ms) h4
    (by simp only [List.length_append, seenBy_length, List.length_cons, List.length_nil]; omega) (by omega) (by simp only [danceRules]; omega) (by simpa using hn) hcl
  simp only [danceRules] at h5
  rw [kept_own (by
    intro e he
    simp only [List.mem_append, List.mem_cons, List.not_mem_nil, or_false] at he
    rcases he with (he | rfl) | rfl
    · exact seenBy_own i _ e he
    · simp [ofKey]
    · simp [ofKey])] at h5
  simp only [List.getLast?_append, List.getLast?_singleton, Option.some_or, Option.toList_some] at h5
  -- the press that is left is of a key that is held
  have hrest : ∀ k : Nat, s.clock + ticksOf gs * ms + ticksIn as * ms + ticksIn bs * ms + k * ms < 2 ^ 32 →
      ∃ s', s5.run layout (danceRules c.tapDance ms) (List.replicate k .tick) = some s' ∧ s'.board = hold s.board i cl := by
    intro k hk
    match k with
    | 0 => exact ⟨s5, rfl, h5.board⟩
    | k + 1 =>
      have hm' : (k + 1) * ms = k * ms + ms := by rw [Nat.add_mul, Nat.one_mul]
      obtain ⟨s6, r6, h6⟩ : ∃ s6, s5.tick layout (danceRules c.tapDance ms) = some s6 ∧
          Free s6 (hold s.board i cl) [.press i] 0 (s.clock + ticksOf gs * ms + ticksIn as * ms + ticksIn bs * ms + ms) := by
        obtain ⟨b', w', q', d', t', ts⟩ := s5
        obtain ⟨x1, x2, x3, x4, x5⟩ := h5
        simp only at x1 x2 x3 x4 x5
        subst x1 x2 x3 x4 x5
        have hc' : s.clock + ticksOf gs * ms + ticksIn as * ms + ticksIn bs * ms + ms < 2 ^ 32 := by omega
        refine ⟨⟨hold s.board i cl, none, [.press i], 0, s.clock + ticksOf gs * ms + ticksIn as * ms + ticksIn bs * ms + ms,
          ts.filter (fun x => s.clock + ticksOf gs * ms + ticksIn as * ms + ticksIn bs * ms + ms < x)⟩, ?_, rfl, rfl, rfl, rfl, rfl⟩
        simp [Dance.State.tick, State.pass, danceRules, hc']
        rfl
      match k with
      | 0 => exact ⟨s6, by simp [Dance.State.run, r6], h6.board⟩
      | k + 1 =>
        have hm2 : (k + 1) * ms = k * ms + ms := by rw [Nat.add_mul, Nat.one_mul]
        obtain ⟨s7, r7, h7⟩ : ∃ s7, s6.tick layout (danceRules c.tapDance ms) = some s7 ∧
            Free s7 (hold s.board i cl) [] 0 (s.clock + ticksOf gs * ms + ticksIn as * ms + ticksIn bs * ms + ms + ms) := by
          obtain ⟨b', w', q', d', t', ts⟩ := s6
          obtain ⟨x1, x2, x3, x4, x5⟩ := h6
          simp only at x1 x2 x3 x4 x5
          subst x1 x2 x3 x4 x5
          have hc' : s.clock + ticksOf gs * ms + ticksIn as * ms + ticksIn bs * ms + ms + ms < 2 ^ 32 := by omega
          refine ⟨⟨hold s.board i cl, none, [], 0, s.clock + ticksOf gs * ms + ticksIn as * ms + ticksIn bs * ms + ms + ms,
            ts.filter (fun x => s.clock + ticksOf gs * ms + ticksIn as * ms + ticksIn bs * ms + ms + ms < x)⟩, ?_, rfl, rfl, rfl, rfl, rfl⟩
          have := take_held (layout := layout) (r := danceRules c.tapDance ms) (i := i) (cl := cl) (b := s.board)
            ⟨hold s.board i cl, none, [], 0, s.clock + ticksOf gs * ms + ticksIn as * ms + ticksIn bs * ms + ms, ts⟩ rfl rfl
          simp only [Dance.State.tick, State.takeOldest, ne_eq, List.cons_ne_self, reduceCtorEq, not_false_eq_true, and_self, if_true, this,
            Option.bind_some, State.pass]
          rw [if_pos (by simpa only [danceRules] using hc')]
          rfl
        obtain ⟨s8, r8, h8⟩ := free_ticks (layout := layout) (r := danceRules c.tapDance ms) k h7 (by simp only [danceRules]; omega)
        refine ⟨s8, ?_, h8.board⟩
        simp only [List.replicate_succ, Dance.State.run, r6, r7, Option.bind_some]
        exact r8
  obtain ⟨s6, r6, h6⟩ := hrest (ticksIn ds) (by omega)
  have := lift (S := S) (n := n) hk hs (presses i (gs ++ [(as, bs)]) ++ ds)
    (by
      intro e he
      rw [eventsIn_append, hds, List.append_nil, presses, eventsIn, List.mem_cons] at he
      rcases he with rfl | he
      · rfl
      · exact further_events hgs e he)
    (s' := s6) (by
      rw [run_append]
      have : s.run layout (danceRules c.tapDance ms) (presses i (gs ++ [(as, bs)])) = some s5 := by
        rw [show presses i (gs ++ [(as, bs)]) = presses i gs ++ (as ++ .input (.release i) :: (bs ++ [.input (.press i)])) by
          rw [presses, presses, hfu]; rfl]
        rw [run_append, r1]
        simp only [Option.bind_some, run_append, run_ticks s1 ha, r2, Dance.State.run, r3, run_ticks s3 hb, r4]
        simp only at r5
        rw [r5]
        rfl
      rw [this]
      simp only [Option.bind_some, run_ticks s5 hds]
      exact r6)
  rw [h6] at this
  rw [← hold_outputs s.board i cl]
  exact this

/-- C25, C18: a plain key `j` pressed while the tap-dance key waits is kept until the timeout, and comes one
tick after the key the tap-dance key became. (`j` is looked up on the layers that key turned on.) -/
theorem C25_then (hk : TapDanceKeymap K refs c ms layout) {calls : List Board.Call} {s : Dance.State} (hs : Reaches layout c ms calls s)
    {i : Nat} {cs : List Cell} (hr : CanDance layout s i cs) (hm : s.timers.length < 32)
    {cl : Cell} (hcl : cs[0]? = some cl) (hn : 1 < cs.length) (as : List Board.Call) (has : eventsIn as = [])
    (hpos : 1 ≤ ticksIn as) (hshort : ticksIn as * ms < c.tapDance.timeout) {j : Nat} {cj : Cell} (hij : j ≠ i) (hj : s.board.holds j = false)
    (hroom : s.board.held.length + 1 < 16) (hkey : (layout[j]?).map (Pos.pick (hold s.board i cl)) = some (.cell cj))
    (ds : List Board.Call) (hds : eventsIn ds = [])
    (hclk : s.clock + c.tapDance.timeout + (ticksIn as + ticksIn ds) * ms < 2 ^ 32) :
    Outputs K refs S (n + 3) c ms (calls ++ .input (.press i) :: (as ++ .input (.press j) :: ds))
      (s.board.outputs ++
        if (ticksIn as + ticksIn ds) * ms < c.tapDance.timeout then []
        else if (ticksIn as + ticksIn ds - 1) * ms < c.tapDance.timeout then cl.output.toList
        else cl.output.toList ++ cj.output.toList) := by
  have hT := hk.timeout
  have e2 : (ticksIn as + ticksIn ds) * ms = ticksIn as * ms + ticksIn ds * ms := Nat.add_mul _ _ _
  have e3 : 1 ≤ ticksIn ds → (ticksIn as + ticksIn ds - 1) * ms = ticksIn as * ms + (ticksIn ds - 1) * ms := by
    intro h
    rw [show ticksIn as + ticksIn ds - 1 = ticksIn as + (ticksIn ds - 1) by omega, Nat.add_mul]
  obtain ⟨s1, r1, h1⟩ := ready_press (r := danceRules c.tapDance ms) hr hm (by simp only [danceRules]; omega)
  obtain ⟨s2, r2, h2⟩ := hanging_ticks (layout := layout) (r := danceRules c.tapDance ms) (ticksIn as) h1 (by simp only [danceRules]; omega)
    (by simp only [danceRules]; omega)
  rw [show 1 - ticksIn as = 0 by omega] at h2
  obtain ⟨s3, r3, h3⟩ := hanging_event (layout := layout) (r := danceRules c.tapDance ms) (e := .press j) h2 (by simpa using hij) (by simp)
  simp only [danceRules, List.nil_append] at h3
  have hkept : (⟨i, cs, 0, s.clock + c.tapDance.timeout, [.press j]⟩ : Waiting).kept = [.press j] := by
    simp [Waiting.kept, ofKey, Ne.symm hij]
  obtain ⟨s4, r4, a1, a2, a3⟩ := hanging_ends (layout := layout) (r := danceRules c.tapDance ms) (b' := hold (hold s.board i cl) j cj) h3
    (by omega) hk.tick (by simp only; omega) hcl (by rw [hkept]; simp)
    (by
      intro e he s' hb hw
      rw [hkept] at he
      cases he
      simp only at hb
      have hh : (hold s.board i cl).holds j = false := by
        have : (hold s.board i cl).held = s.board.held ++ [(i, cl)] := by unfold Dance.hold; cases cl <;> rfl
        unfold Board.State.holds at hj ⊢
        rw [this, List.any_append, hj]
        simpa using Ne.symm hij
      have hl : (hold s.board i cl).held.length < 16 := by
        have : (hold s.board i cl).held = s.board.held ++ [(i, cl)] := by unfold Dance.hold; cases cl <;> rfl
        rw [this]
        simpa using hroom
      rw [Option.map_eq_some_iff] at hkey
      obtain ⟨p, hp, hpick⟩ := hkey
      simp only [State.take, hw, hb, hh, Bool.false_eq_true, if_false, hl, if_true, hp, Option.bind_some, hpick, State.press])
    (by intro h; rw [hkept] at h; cases h) (ticksIn ds) (by simp only; omega) (by simp only [danceRules]; omega)
  have := lift (S := S) (n := n) hk hs (.input (.press i) :: (as ++ .input (.press j) :: ds))
    (by simp [eventsIn_append, has, hds, eventsIn, isPhysical])
    (s' := s4) (by
      simp only [Dance.State.run, r1, Option.bind_some, run_append, run_ticks s1 has, r2, r3, run_ticks s3 hds]
      exact r4)
  simp only [danceRules] at a1 a2 a3
  by_cases h0 : s.clock + ticksIn as * ms + ticksIn ds * ms < s.clock + c.tapDance.timeout
  · rw [if_pos (by omega)]
    rw [(a1 h0).board] at this
    simpa using this
  · have hd1 : 1 ≤ ticksIn ds := by
      rcases Nat.eq_zero_or_pos (ticksIn ds) with h | h
      · rw [h] at h0; omega
      · exact h
    have e3 := e3 hd1
    rw [if_neg (by omega)]
    by_cases hlast : (ticksIn as + ticksIn ds - 1) * ms < c.tapDance.timeout
    · rw [if_pos hlast, ← hold_outputs s.board i cl]
      rw [(a2 (by omega) (by omega)).board] at this
      exact this
    · rw [if_neg hlast, ← List.append_assoc, ← hold_outputs s.board i cl, ← hold_outputs _ j cj]
      rw [(a3 (by omega)).board] at this
      exact this

end Timing

/-! ## A keymap that meets the hypotheses -/

namespace DanceDemo

/-- A plain key, a tap-dance key that is 5, holds a layer or is 6, a layered key that is a tap-dance key on the
base layer. -/
def K : Keys where
  layerMods := [.hold 1]
  tapDance := [⟨[some (.keyboard (.keyCode 5)), some (.layered (.modifier 0)), some (.keyboard (.keyCode 6))]⟩,
    ⟨[some (.keyboard (.keyCode 8)), some (.keyboard (.keyCode 9)), none]⟩]
  layered := [⟨.tapDance 1, [some (.keyboard (.keyCode 7))]⟩]

def refs : List Ref := [.keyboard (.keyCode 4), .tapDance 0, .layered (.layered 0)]

/-- 200 ms to the next press. -/
def config : Config where
  automation := ⟨[], 0⟩
  chorded := ⟨200, [], none, 0, 0⟩
  sticky := .onModifiedKeyRelease
  tapDance := ⟨200⟩
  tapHold := ⟨200, .ignore, none⟩
  layerCount := 1
  maxChords := 0

def out (k : Byte) : Cell := .out (KeyOutput.fromKeyCode k)

def layout : List Pos :=
  [.act (.cell (out 4)), .act (.dance [out 5, .hold 1, out 6]), .layered (.dance [out 8, out 9]) [some (.cell (out 7))]]

theorem keymap (ms : Nat) (hms : 1 ≤ ms) : TapDanceKeymap K refs config ms layout where
  layoutEq := by decide +kernel
  fits := by
    intro e he
    simp only [layout, List.mem_cons, List.not_mem_nil, or_false] at he
    rcases he with rfl | rfl | rfl <;> simp [Pos.Fits, Act.Fits, Cell.Fits, out, config]
  size := by decide
  tick := hms
  timeout := by decide
  chords := .inl rfl

/-- The plain key was pressed four ticks ago and is still held. -/
def calls : List Board.Call := [.input (.press 0), .tick, .tick, .tick, .tick]

def state : Dance.State := (((Dance.State.new 1).run layout (danceRules ⟨200⟩ 10) calls).getD (Dance.State.new 1))

theorem reaches : Reaches layout config 10 calls state := ⟨by decide, by decide +kernel⟩

theorem outputs : state.board.outputs = [KeyOutput.fromKeyCode 4] := by decide +kernel

theorem ready : CanDance layout state 1 [out 5, .hold 1, out 6] where
  rest := ⟨rfl, by decide +kernel, by decide +kernel, by decide +kernel, rfl⟩
  free := by decide +kernel
  room := by decide +kernel
  key := by decide +kernel

theorem ready2 : CanDance layout state 2 [out 8, out 9] where
  rest := ⟨rfl, by decide +kernel, by decide +kernel, by decide +kernel, rfl⟩
  free := by decide +kernel
  room := by decide +kernel
  key := by decide +kernel

theorem clock : state.clock = 40 := by decide +kernel

def shows (calls : List Board.Call) (ks : List Byte) : Prop := Outputs K refs Search.std 3 config 10 calls (ks.map KeyOutput.fromKeyCode)

/-- Pressed once and kept pressed: after 19 ticks of 10 ms nothing, after 20 the first key. -/
example : shows (calls ++ (presses 1 [] ++ List.replicate 19 .tick)) [4] := by
  have := C25_held (S := Search.std) (n := 0) (cl := out 5) (keymap 10 (by decide)) reaches ready (gs := []) (by intro g hg; cases hg) (by decide)
    (by decide +kernel) rfl (by decide) (List.replicate 19 .tick) (by decide) (by rw [clock]; decide)
  rw [outputs] at this
  exact this

example : shows (calls ++ (presses 1 [] ++ List.replicate 20 .tick)) [4, 5] := by
  have := C25_held (S := Search.std) (n := 0) (cl := out 5) (keymap 10 (by decide)) reaches ready (gs := []) (by intro g hg; cases hg) (by decide)
    (by decide +kernel) rfl (by decide) (List.replicate 20 .tick) (by decide) (by rw [clock]; decide)
  rw [outputs] at this
  exact this

/-- Two ticks, the release, 17 ticks, the press. -/
def gap : List Board.Call × List Board.Call := (List.replicate 2 .tick, .report :: List.replicate 17 .tick)

theorem inTime : InTime (danceRules ⟨200⟩ 10) [gap] := by
  intro g hg
  simp only [List.mem_cons, List.not_mem_nil, or_false] at hg
  subst hg
  decide

/-- Pressed and released: the first key appears 20 ticks after the press, and is gone at the next tick. -/
def taps : List Board.Call := presses 2 [] ++ ([.tick] ++ .input (.release 2) :: List.replicate 19 .tick)

example : shows (calls ++ taps) [4, 8] := by
  have := C25_tapped (S := Search.std) (n := 0) (cl := out 8) (keymap 10 (by decide)) reaches ready2 (gs := []) (by intro g hg; cases hg) (by decide)
    (by decide +kernel) rfl (by decide) [.tick] rfl (by decide) (by decide) (List.replicate 19 .tick) (by decide) (by rw [clock]; decide)
  rw [outputs] at this
  exact this

/-- Pressed twice: the layer key. Nothing after 19 ticks, and then still nothing but the layer. -/
example : shows (calls ++ (presses 1 [gap] ++ List.replicate 25 .tick)) [4] := by
  have := C25_held (S := Search.std) (n := 0) (cl := .hold 1) (keymap 10 (by decide)) reaches ready (gs := [gap]) inTime (by decide)
    (by decide +kernel) rfl (by decide) (List.replicate 25 .tick) (by decide) (by rw [clock]; decide)
  rw [outputs] at this
  exact this

/-- Pressed twice: the last key, at once. -/
example : shows (calls ++ (presses 2 ([] ++ [gap]) ++ [])) [4, 9] := by
  have := C25_last (S := Search.std) (n := 0) (cl := out 9) (keymap 10 (by decide)) reaches ready2 (gs := []) (g := gap) inTime (by decide)
    (by decide +kernel) rfl (by decide) [] rfl (by rw [clock]; decide)
  rw [outputs] at this
  exact this

/-- Pressed three times: the last key, at once. -/
example : shows (calls ++ (presses 1 ([gap] ++ [gap]) ++ [.tick, .tick, .tick])) [4, 6] := by
  have := C25_last (S := Search.std) (n := 0) (cl := out 6) (keymap 10 (by decide)) reaches ready (gs := [gap]) (g := gap)
    (by intro g hg; exact inTime g (by simpa using hg)) (by decide)
    (by decide +kernel) rfl (by decide) [.tick, .tick, .tick] rfl (by rw [clock]; decide)
  rw [outputs] at this
  exact this

/-- The plain key pressed while the tap-dance key waits comes one tick after it. -/
example : shows ([] ++ .input (.press 1) :: ([.tick] ++ .input (.press 0) :: List.replicate 20 .tick)) [5, 4] :=
  C25_then (S := Search.std) (n := 0) (cl := out 5) (cj := out 4) (keymap 10 (by decide)) (calls := []) (s := Dance.State.new 1) ⟨by simp [eventsIn], rfl⟩
    (cs := [out 5, .hold 1, out 6])
    ⟨⟨rfl, rfl, rfl, rfl, rfl⟩, by decide +kernel, by decide +kernel, by decide +kernel⟩ (by decide) rfl (by decide) [.tick] rfl (by decide) (by decide)
    (by decide) rfl (by decide) (by decide +kernel) (List.replicate 20 .tick) (by decide) (by decide)

end DanceDemo

end Verif.Comp.TD
