import Verif.Lemmas.TimedRun
import Verif.Example

/-!
# C23 (and C22, C24 end to end): tap-hold keys, from key presses and ticks to outputs

The firmware, with all of its queues, timers and contexts, does what the board of `Spec/Timed.lean` does,
for every layout of plain keys, layer keys and tap-hold keys, every history and every length of a tick.
From this follow the times at which the output of a tap-hold key appears and disappears.
-/

namespace Verif.Comp

open Board Timed

/-- The keymap data: a layout of plain keys, layer keys and tap-hold keys, whose layers exist, at most 65535
positions, a timeout and a tick of at least 1 ms, and an array of pressed indices that is absent or as large
as the number of keys that can be held. -/
structure TapHoldKeymap (K : Keys) (refs : List Ref) (c : Config) (ms : Nat) (layout : List Pos) : Prop where
  layoutEq : timedLayoutOf K refs = some layout
  fits : ∀ p ∈ layout, p.Fits c.layerCount
  size : layout.length ≤ 65535
  tick : 1 ≤ ms
  timeout : 1 ≤ c.tapHold.timeout
  chords : c.chorded.maxPressed = 0 ∨ 16 ≤ c.chorded.maxPressed

/-- The firmware after some calls: it did not panic, and shows the outputs of the held keys of the board in
press order; the same events wait to be taken, and a key is pending when one waits on the board. -/
def Shows (K : Keys) (refs : List Ref) (S : Search) (n : Nat) (c : Config) (ms : Nat) (calls : List Board.Call) (s : Timed.State) : Prop :=
  ∃ km, run ⟨system K, refs, S⟩ n ((KM.new (Ctx.fromConfig c)).setMsPerTick ms) (calls.map toOp) = .ok km ∧
    km.pressedKeys ⟨system K, refs, S⟩ = .ok s.board.outputs ∧ km.inq = s.queue ∧ km.pend.isSome = s.waiting.isSome

section Timing

variable {K : Keys} {refs : List Ref} {S : Search} {c : Config} {ms n : Nat} {layout : List Pos}

/-- C23: for every history of key events, ticks and reports that does not overload the board, the firmware does
what the board does. -/
theorem C23_refines (hk : TapHoldKeymap K refs c ms layout) (calls : List Board.Call) (hev : ∀ e ∈ eventsIn calls, isPhysical e = true)
    {s : Timed.State} (hs : (Timed.State.new c.layerCount).run layout (rulesOf c.tapHold ms) calls = some s) :
    Shows K refs S (n + 3) c ms calls s := by
  have hk' : TimedKeymap K refs c.tapHold c.layerCount ms layout := ⟨hk.layoutEq, hk.fits, hk.size, hk.tick, hk.timeout⟩
  obtain ⟨km, h1, h2⟩ := (TSim.start (K := K) (ms := ms) hk.chords).run (S := S) (n := n) hk' calls hev hs
  refine ⟨km, h1, h2.core.outputs, h2.core.inq, ?_⟩
  have hw := h2.core.wait
  cases hx : s.waiting with
  | none => rw [hx] at hw; rw [hw.1]; rfl
  | some w =>
    rw [hx] at hw
    obtain ⟨k, key, hp, _⟩ := WaitsFor.key hw
    rw [hp]; rfl

/-! ## Time on the board -/

section Board

variable {r : Rules}

theorem timed_run_append (s : Timed.State) (as bs : List Board.Call) :
    s.run layout r (as ++ bs) = (s.run layout r as).bind fun s => s.run layout r bs := by
  induction as generalizing s with
  | nil => rfl
  | cons a as ih =>
    cases a with
    | input e => simp only [List.cons_append, Timed.State.run]; cases s.input layout r e <;> simp [ih]
    | tick => simp only [List.cons_append, Timed.State.run]; cases s.tick layout r <;> simp [ih]
    | report => simp only [List.cons_append, Timed.State.run, ih]

/-- Calls without a key event are so many ticks. -/
theorem timed_run_ticks (s : Timed.State) {cs : List Board.Call} (h : eventsIn cs = []) :
    s.run layout r cs = s.run layout r (List.replicate (ticksIn cs) .tick) := by
  induction cs generalizing s with
  | nil => rfl
  | cons a as ih =>
    cases a with
    | input e => simp [eventsIn] at h
    | tick =>
      simp only [ticksIn, List.replicate_succ, Timed.State.run]
      cases s.tick layout r with
      | none => rfl
      | some s => simpa using ih s h
    | report => simpa only [ticksIn, Timed.State.run] using ih s h

/-- No key waits, and no event. -/
structure Resting (s : Timed.State) (b : Board.State) (d t : Nat) : Prop where
  board : s.board = b
  waiting : s.waiting = none
  queue : s.queue = []
  delay : s.delay = d
  clock : s.clock = t

/-- Key `w` waits, and the events `q`. -/
structure Hanging (s : Timed.State) (b : Board.State) (w : Waiting) (q : List InputEvent) (d t : Nat) : Prop where
  board : s.board = b
  waiting : s.waiting = some w
  queue : s.queue = q
  delay : s.delay = d
  clock : s.clock = t

theorem resting_tick {s : Timed.State} {b : Board.State} {d t : Nat} (h : Resting s b d t) (hc : t + r.ms < 2 ^ 32) :
    ∃ s', s.tick layout r = some s' ∧ Resting s' b (d - 1) (t + r.ms) := by
  obtain ⟨b', w, q, d', t', i, j, ts⟩ := s
  obtain ⟨h1, h2, h3, h4, h5⟩ := h
  simp only at h1 h2 h3 h4 h5
  subst h1 h2 h3 h4 h5
  refine ⟨⟨b', none, [], d' - 1, t' + r.ms, i + r.ms, i, ts.filter (fun x => t' + r.ms < x)⟩, ?_, ?_⟩
  · simp only [Timed.State.tick, ne_eq, not_true_eq_false, and_false, if_false, Option.bind_some, State.pass, hc, if_true, Option.map_some]
  · exact ⟨rfl, rfl, rfl, rfl, rfl⟩

theorem resting_ticks {s : Timed.State} {b : Board.State} {d t : Nat} (k : Nat) (h : Resting s b d t) (hc : t + k * r.ms < 2 ^ 32) :
    ∃ s', s.run layout r (List.replicate k .tick) = some s' ∧ Resting s' b (d - k) (t + k * r.ms) := by
  induction k generalizing s d t with
  | zero => exact ⟨s, rfl, by simpa using h⟩
  | succ k ih =>
    have hm : (k + 1) * r.ms = k * r.ms + r.ms := by rw [Nat.add_mul, Nat.one_mul]
    obtain ⟨s1, h1, h2⟩ := resting_tick (layout := layout) (r := r) h (by omega)
    obtain ⟨s2, h3, h4⟩ := ih h2 (by omega)
    refine ⟨s2, ?_, ?_⟩
    · simp only [List.replicate_succ, Timed.State.run, h1, Option.bind_some]; exact h3
    · rw [show d - (k + 1) = d - 1 - k by omega, show t + (k + 1) * r.ms = t + r.ms + k * r.ms by omega]; exact h4

/-- While the key waits and no event may be taken, nothing happens before the deadline. -/
theorem hanging_tick {s : Timed.State} {b : Board.State} {w : Waiting} {q : List InputEvent} {d t : Nat} (h : Hanging s b w q d t)
    (hq : q = [] ∨ 0 < d) (hd : t + r.ms < w.deadline) (hw : w.deadline < 2 ^ 32) :
    ∃ s', s.tick layout r = some s' ∧ Hanging s' b w q (d - 1) (t + r.ms) := by
  obtain ⟨b', w', q', d', t', i, j, ts⟩ := s
  obtain ⟨h1, h2, h3, h4, h5⟩ := h
  simp only at h1 h2 h3 h4 h5
  subst h1 h2 h3 h4 h5
  have hn : ¬ (d' = 0 ∧ q' ≠ []) := by
    rcases hq with h | h
    · simp [h]
    · intro h'; omega
  have hc : t' + r.ms < 2 ^ 32 := by omega
  have hnd : ¬ w.deadline ≤ t' + r.ms := by omega
  refine ⟨⟨b', some w, q', d' - 1, t' + r.ms, i + r.ms, i, ts.filter (fun x => t' + r.ms < x)⟩, ?_, ?_⟩
  · simp only [Timed.State.tick, hn, if_false, Option.bind_some, State.pass, hc, if_true, hnd, Option.map_some]
  · exact ⟨rfl, rfl, rfl, rfl, rfl⟩

theorem hanging_ticks {s : Timed.State} {b : Board.State} {w : Waiting} {d t : Nat} (k : Nat) (h : Hanging s b w [] d t)
    (hd : t + k * r.ms < w.deadline) (hw : w.deadline < 2 ^ 32) :
    ∃ s', s.run layout r (List.replicate k .tick) = some s' ∧ Hanging s' b w [] (d - k) (t + k * r.ms) := by
  induction k generalizing s d t with
  | zero => exact ⟨s, rfl, by simpa using h⟩
  | succ k ih =>
    have hm : (k + 1) * r.ms = k * r.ms + r.ms := by rw [Nat.add_mul, Nat.one_mul]
    obtain ⟨s1, h1, h2⟩ := hanging_tick (layout := layout) (r := r) h (.inl rfl) (by omega) hw
    obtain ⟨s2, h3, h4⟩ := ih h2 (by omega)
    refine ⟨s2, ?_, ?_⟩
    · simp only [List.replicate_succ, Timed.State.run, h1, Option.bind_some]; exact h3
    · rw [show d - (k + 1) = d - 1 - k by omega, show t + (k + 1) * r.ms = t + r.ms + k * r.ms by omega]; exact h4

/-- At the deadline the key is taken as held. -/
theorem hanging_timeout {s : Timed.State} {b : Board.State} {w : Waiting} {q : List InputEvent} {d t : Nat} (h : Hanging s b w q d t)
    (hq : q = [] ∨ 0 < d) (hd : w.deadline ≤ t + r.ms) (hc : t + r.ms < 2 ^ 32) (hl : (w.kept ++ q).length ≤ 31) :
    ∃ s', s.tick layout r = some s' ∧ s'.board = hold b w.key w.hold ∧ s'.waiting = none ∧ s'.queue = w.kept ++ q ∧ s'.delay = d - 1 ∧
      s'.clock = t + r.ms := by
  obtain ⟨b', w', q', d', t', i, j, ts⟩ := s
  obtain ⟨h1, h2, h3, h4, h5⟩ := h
  simp only at h1 h2 h3 h4 h5
  subst h1 h2 h3 h4 h5
  have hn : ¬ (d' = 0 ∧ q' ≠ []) := by
    rcases hq with h | h
    · simp [h]
    · intro h'; omega
  refine ⟨⟨hold b' w.key w.hold, none, w.kept ++ q', d' - 1, t' + r.ms, i + r.ms, i, ts.filter (fun x => t' + r.ms < x)⟩, ?_, ?_⟩
  · simp only [Timed.State.tick, hn, if_false, Option.bind_some, State.pass, hc, if_true, hd, Option.map_some, State.settle, hl]
  · exact ⟨rfl, rfl, rfl, rfl, rfl⟩

/-- The tap-hold key `i` can be pressed now, and will wait. -/
structure CanWait (layout : List Pos) (r : Rules) (s : Timed.State) (i : Nat) (tap hd : Cell) : Prop where
  /-- no key waits, and no event -/
  rest : Resting s s.board 0 s.clock
  /-- the key is not held, and fewer than 16 are -/
  free : s.board.holds i = false
  room : s.board.held.length < 16
  /-- it is a tap-hold key (on the active layer) -/
  key : (layout[i]?).map (Pos.pick s.board) = some (.tapHold tap hd)
  /-- no key event came in for the required idle time -/
  rested : s.rested r = true
  /-- there are fewer than 32 timers -/
  timers : s.timers.length < 32

theorem ready_press {s : Timed.State} {i : Nat} {tap hd : Cell} (h : CanWait layout r s i tap hd) (hc : s.clock + r.timeout < 2 ^ 32) :
    ∃ s', s.input layout r (.press i) = some s' ∧ Hanging s' s.board ⟨i, tap, hd, s.clock + r.timeout, none, []⟩ [] 1 s.clock := by
  obtain ⟨⟨_, hw, hq, hdl, _⟩, hf, hr, hkey, hrest, ht⟩ := h
  obtain ⟨b', w', q', d', t', i', j, ts⟩ := s
  simp only at hw hq hdl hf hr hkey hrest ht hc
  subst hw hq hdl
  rw [Option.map_eq_some_iff] at hkey
  obtain ⟨p, hp, hpick⟩ := hkey
  have hrest' : State.rested r { board := b', waiting := none, queue := [], delay := 0, clock := t', idle := 0, idleSeen := j, timers := ts } = true := hrest
  refine ⟨⟨b', some ⟨i, tap, hd, t' + r.timeout, none, []⟩, [], 1, t', 0, j, ts ++ [t' + r.timeout]⟩, ?_, ?_⟩
  · simp only [Timed.State.input, List.length_nil, ge_iff_le, Nat.not_succ_le_zero, if_false, List.nil_append, if_true, State.takeOldest, State.take, hf,
      Bool.false_eq_true, hr, hp, Option.bind_some, hpick, State.press, hrest', ht, hc, and_self, Option.map_some]
    rfl
  · exact ⟨rfl, rfl, rfl, rfl, rfl⟩

/-- The key is pressed and `k` ticks pass. -/
theorem ready_ticks {s : Timed.State} {i : Nat} {tap hd : Cell} (h : CanWait layout r s i tap hd) (hT : 1 ≤ r.timeout) (k : Nat)
    (hc : s.clock + r.timeout < 2 ^ 32) (hk : s.clock + k * r.ms < 2 ^ 32) :
    ∃ s', s.run layout r (.input (.press i) :: List.replicate k .tick) = some s' ∧
      (k * r.ms < r.timeout → Hanging s' s.board ⟨i, tap, hd, s.clock + r.timeout, none, []⟩ [] (1 - k) (s.clock + k * r.ms)) ∧
      (r.timeout ≤ k * r.ms → Resting s' (hold s.board i hd) (1 - k) (s.clock + k * r.ms)) := by
  obtain ⟨s0, h0, hang0⟩ := ready_press h hc
  suffices hs : ∃ s', s0.run layout r (List.replicate k .tick) = some s' ∧
      (k * r.ms < r.timeout → Hanging s' s.board ⟨i, tap, hd, s.clock + r.timeout, none, []⟩ [] (1 - k) (s.clock + k * r.ms)) ∧
      (r.timeout ≤ k * r.ms → Resting s' (hold s.board i hd) (1 - k) (s.clock + k * r.ms)) by
    obtain ⟨s', h1, h2⟩ := hs
    exact ⟨s', by simp only [Timed.State.run, h0, Option.bind_some]; exact h1, h2⟩
  induction k with
  | zero => exact ⟨s0, rfl, fun _ => by simpa using hang0, fun h => by omega⟩
  | succ k ih =>
    have hm : (k + 1) * r.ms = k * r.ms + r.ms := by rw [Nat.add_mul, Nat.one_mul]
    obtain ⟨s1, h1, h2, h3⟩ := ih (by omega)
    have hrun : s0.run layout r (List.replicate (k + 1) .tick) = s1.tick layout r := by
      rw [List.replicate_succ', timed_run_append, h1]
      simp only [Option.bind_some, Timed.State.run]
      cases s1.tick layout r <;> rfl
    rw [hrun]
    rw [show 1 - (k + 1) = 1 - k - 1 by omega, show s.clock + (k + 1) * r.ms = s.clock + k * r.ms + r.ms by omega]
    by_cases hlt : k * r.ms < r.timeout
    · by_cases hlt' : (k + 1) * r.ms < r.timeout
      · obtain ⟨s2, h4, h5⟩ := hanging_tick (layout := layout) (r := r) (h2 hlt) (.inl rfl) (by simp only; omega) hc
        exact ⟨s2, h4, fun _ => h5, fun h' => by omega⟩
      · obtain ⟨s2, h4, a1, a2, a3, a4, a5⟩ := hanging_timeout (layout := layout) (r := r) (h2 hlt) (.inl rfl) (by simp only; omega) (by omega)
          (by simp [Waiting.kept])
        exact ⟨s2, h4, fun h' => by omega, fun _ => ⟨a1, a2, by rw [a3]; simp [Waiting.kept], a4, a5⟩⟩
    · obtain ⟨s2, h4, h5⟩ := resting_tick (layout := layout) (r := r) (h3 (by omega)) (by omega)
      exact ⟨s2, h4, fun h' => by omega, fun _ => h5⟩

/-- A key is released while no key waits. -/
theorem resting_release {s : Timed.State} {b : Board.State} {t : Nat} (h : Resting s b 0 t) (i : Nat) :
    ∃ s', s.input layout r (.release i) = some s' ∧ Resting s' (b.input [] (.release i)) 1 t := by
  obtain ⟨b', w, q, d', t', j, k, ts⟩ := s
  obtain ⟨h1, h2, h3, h4, h5⟩ := h
  simp only at h1 h2 h3 h4 h5
  subst h1 h2 h3 h4 h5
  exact ⟨⟨b'.input [] (.release i), none, [], 1, t', 0, k, ts⟩, rfl, rfl, rfl, rfl, rfl, rfl⟩

/-- The waiting key is released. -/
theorem hanging_release {s : Timed.State} {b : Board.State} {w : Waiting} {t : Nat} (h : Hanging s b w [] 0 t) (hs : w.seen = []) :
    ∃ s', s.input layout r (.release w.key) = some s' ∧ s'.board = hold b w.key w.tap ∧ s'.waiting = none ∧ s'.queue = [.release w.key] ∧
      s'.delay = 1 ∧ s'.clock = t := by
  obtain ⟨b', w', q, d', t', j, k, ts⟩ := s
  obtain ⟨h1, h2, h3, h4, h5⟩ := h
  simp only at h1 h2 h3 h4 h5
  subst h1 h2 h3 h4 h5
  have hk : (w.see (.release w.key)).kept = [.release w.key] := by simp [Waiting.kept, Waiting.see, hs, ofKey]
  refine ⟨⟨hold b' w.key w.tap, none, [.release w.key], 1, t', 0, k, ts⟩, ?_, rfl, rfl, rfl, rfl, rfl⟩
  simp only [Timed.State.input, List.length_nil, ge_iff_le, Nat.not_succ_le_zero, if_false, List.nil_append, if_true, State.takeOldest, State.take,
    hs, Nat.zero_lt_succ, Waiting.decided, State.settle, hk, List.append_nil, List.length_cons, Option.map_some]
  rfl

/-- One event is left, and may be taken at the next tick but `d`. -/
theorem left_event {s : Timed.State} {b b' : Board.State} {e : InputEvent} {d t : Nat}
    (ht : ∀ s : Timed.State, s.board = b → s.waiting = none → s.take layout r e = some { s with board := b' })
    (h1 : s.board = b) (h2 : s.waiting = none) (h3 : s.queue = [e]) (h4 : s.delay = d) (h5 : s.clock = t) (k : Nat) (hc : t + k * r.ms < 2 ^ 32) :
    ∃ s', s.run layout r (List.replicate k .tick) = some s' ∧ (k ≤ d → s'.board = b ∧ s'.waiting = none ∧ s'.queue = [e] ∧ s'.delay = d - k ∧
      s'.clock = t + k * r.ms) ∧ (d < k → Resting s' b' 0 (t + k * r.ms)) := by
  induction d generalizing s t k with
  | zero =>
    cases k with
    | zero => exact ⟨s, rfl, fun _ => ⟨h1, h2, h3, h4, by simpa using h5⟩, fun h => by omega⟩
    | succ k =>
      have hm : (k + 1) * r.ms = k * r.ms + r.ms := by rw [Nat.add_mul, Nat.one_mul]
      obtain ⟨b1, w, q, d', t', j, l, ts⟩ := s
      simp only at h1 h2 h3 h4 h5
      subst h1 h2 h3 h4 h5
      have hc' : t' + r.ms < 2 ^ 32 := by omega
      have ht : Timed.State.tick layout r ⟨b1, none, [e], 0, t', j, l, ts⟩ =
          some ⟨b', none, [], 0, t' + r.ms, j + r.ms, j, ts.filter (fun x => t' + r.ms < x)⟩ := by
        simp [Timed.State.tick, State.takeOldest, ht ⟨b1, none, [], 0, t', j, j, ts⟩ rfl rfl, State.pass, hc']
      obtain ⟨s', h6, h7⟩ := resting_ticks (layout := layout) (r := r) (s := ⟨b', none, [], 0, t' + r.ms, j + r.ms, j, ts.filter (fun x => t' + r.ms < x)⟩)
        (b := b') (d := 0) (t := t' + r.ms) k ⟨rfl, rfl, rfl, rfl, rfl⟩ (by omega)
      refine ⟨s', ?_, fun h => by omega, fun _ => ?_⟩
      · simp only [List.replicate_succ, Timed.State.run, ht, Option.bind_some]; exact h6
      · rw [show t' + (k + 1) * r.ms = t' + r.ms + k * r.ms by omega]
        simpa using h7
  | succ d ih =>
    cases k with
    | zero => exact ⟨s, rfl, fun _ => ⟨h1, h2, h3, h4, by simpa using h5⟩, fun h => by omega⟩
    | succ k =>
      have hm : (k + 1) * r.ms = k * r.ms + r.ms := by rw [Nat.add_mul, Nat.one_mul]
      obtain ⟨b1, w, q, d', t', j, l, ts⟩ := s
      simp only at h1 h2 h3 h4 h5
      subst h1 h2 h3 h4 h5
      have hc' : t' + r.ms < 2 ^ 32 := by omega
      have ht : Timed.State.tick layout r ⟨b1, none, [e], d + 1, t', j, l, ts⟩ =
          some ⟨b1, none, [e], d, t' + r.ms, j + r.ms, j, ts.filter (fun x => t' + r.ms < x)⟩ := by
        simp [Timed.State.tick, State.pass, hc']
      obtain ⟨s', h6, h7, h8⟩ := ih (s := ⟨b1, none, [e], d, t' + r.ms, j + r.ms, j, ts.filter (fun x => t' + r.ms < x)⟩) (t := t' + r.ms)
        rfl rfl rfl rfl rfl k (by omega)
      refine ⟨s', ?_, fun h => ?_, fun h => ?_⟩
      · simp only [List.replicate_succ, Timed.State.run, ht, Option.bind_some]; exact h6
      · rw [show t' + (k + 1) * r.ms = t' + r.ms + k * r.ms by omega, show d + 1 - (k + 1) = d - k by omega]
        exact h7 (by omega)
      · rw [show t' + (k + 1) * r.ms = t' + r.ms + k * r.ms by omega]
        exact h8 (by omega)

theorem take_release (i : Nat) (s : Timed.State) (h : s.waiting = none) :
    s.take layout r (.release i) = some { s with board := s.board.input [] (.release i) } := by
  unfold State.take
  rw [h]

theorem left_release {s : Timed.State} {b : Board.State} {i d t : Nat} (h1 : s.board = b) (h2 : s.waiting = none) (h3 : s.queue = [.release i])
    (h4 : s.delay = d) (h5 : s.clock = t) (k : Nat) (hc : t + k * r.ms < 2 ^ 32) :
    ∃ s', s.run layout r (List.replicate k .tick) = some s' ∧ s'.board = if k ≤ d then b else b.input [] (.release i) := by
  obtain ⟨s', h6, h7, h8⟩ := left_event (layout := layout) (r := r) (b := b) (b' := b.input [] (.release i)) (e := .release i)
    (fun s hb hw => by rw [take_release i s hw, hb]) h1 h2 h3 h4 h5 k hc
  refine ⟨s', h6, ?_⟩
  split
  · exact (h7 (by omega)).1
  · exact (h8 (by omega)).board

theorem hold_outputs (b : Board.State) (i : Nat) (c : Cell) : (hold b i c).outputs = b.outputs ++ c.output.toList := by
  unfold Timed.hold Board.State.outputs
  cases c <;> simp [Cell.press, Cell.output]

theorem hold_release {b : Board.State} {i : Nat} (h : b.holds i = false) (c : Cell) :
    ((hold b i c).input [] (.release i)).outputs = b.outputs := by
  have hn : ∀ p ∈ b.held, p.1 ≠ i := by
    intro p hp hi
    have : b.holds i = true := by
      simp only [Board.State.holds, List.any_eq_true, beq_iff_eq]
      exact ⟨p, hp, hi⟩
    rw [h] at this; cases this
  have hheld : (hold b i c).held = b.held ++ [(i, c)] := by unfold Timed.hold; cases c <;> rfl
  have hfind : (hold b i c).held.find? (fun p => p.1 == i) = some (i, c) := by
    rw [hheld, List.find?_append, List.find?_eq_none.2 (by simpa using fun a b h => hn _ h)]
    simp
  have hfil : (hold b i c).held.filter (fun p => p.1 != i) = b.held := by
    rw [hheld, List.filter_append, List.filter_eq_self.2 (by simpa using fun a b h => hn _ h)]
    simp
  simp only [Board.State.input, hfind, hfil, Board.State.outputs]
  cases c <;> rfl

end Board

/-! ## The firmware -/

/-- The firmware, after these calls, shows these outputs. -/
def Outputs (K : Keys) (refs : List Ref) (S : Search) (n : Nat) (c : Config) (ms : Nat) (calls : List Board.Call) (ks : List KeyOutput) : Prop :=
  ∃ km, run ⟨system K, refs, S⟩ n ((KM.new (Ctx.fromConfig c)).setMsPerTick ms) (calls.map toOp) = .ok km ∧
    km.pressedKeys ⟨system K, refs, S⟩ = .ok ks

/-- The board after these calls, which do not overload it. -/
def Reaches (layout : List Pos) (c : Config) (ms : Nat) (calls : List Board.Call) (s : Timed.State) : Prop :=
  (∀ e ∈ eventsIn calls, isPhysical e = true) ∧ (Timed.State.new c.layerCount).run layout (rulesOf c.tapHold ms) calls = some s

theorem eventsIn_append (as bs : List Board.Call) : eventsIn (as ++ bs) = eventsIn as ++ eventsIn bs := by
  induction as with
  | nil => rfl
  | cons a as ih => cases a <;> simp [eventsIn, ih]

theorem lift (hk : TapHoldKeymap K refs c ms layout) {calls : List Board.Call} {s s' : Timed.State} (hs : Reaches layout c ms calls s)
    (more : List Board.Call) (hm : ∀ e ∈ eventsIn more, isPhysical e = true) (hs' : s.run layout (rulesOf c.tapHold ms) more = some s') :
    Outputs K refs S (n + 3) c ms (calls ++ more) s'.board.outputs := by
  obtain ⟨km, h1, h2, _⟩ := C23_refines (S := S) (n := n) hk (calls ++ more)
    (by rw [eventsIn_append]; exact fun e he => (List.mem_append.1 he).elim (hs.1 e) (hm e))
    (s := s') (by rw [timed_run_append, hs.2]; exact hs')
  exact ⟨km, h1, h2⟩

/-- C23: a tap-hold key is pressed and kept pressed. After `k` ticks of `ms` milliseconds the outputs are the
ones from before as long as `k * ms` is less than the timeout; from then on the key's hold output is added. -/
theorem C23_hold (hk : TapHoldKeymap K refs c ms layout) {calls : List Board.Call} {s : Timed.State} (hs : Reaches layout c ms calls s)
    {i : Nat} {tap hd : Cell} (hr : CanWait layout (rulesOf c.tapHold ms) s i tap hd) (cs : List Board.Call) (hcs : eventsIn cs = [])
    (hclk : s.clock + c.tapHold.timeout + ticksIn cs * ms < 2 ^ 32) :
    Outputs K refs S (n + 3) c ms (calls ++ .input (.press i) :: cs)
      (s.board.outputs ++ if ticksIn cs * ms < c.tapHold.timeout then [] else hd.output.toList) := by
  obtain ⟨s', h1, h2, h3⟩ := ready_ticks hr hk.timeout (ticksIn cs) (by simp only [rulesOf]; omega) (by simp only [rulesOf]; omega)
  have hrun : s.run layout (rulesOf c.tapHold ms) (.input (.press i) :: cs) = some s' := by
    rw [← h1]
    simp only [Timed.State.run, timed_run_ticks _ hcs]
  have := lift (S := S) (n := n) hk hs (.input (.press i) :: cs) (by simp [eventsIn, hcs, isPhysical]) hrun
  split
  · rename_i hlt
    rw [(h2 hlt).board] at this
    simpa using this
  · rename_i hlt
    rw [(h3 (by simp only [rulesOf]; omega)).board, hold_outputs] at this
    exact this

/-- C23: and when it is released after the timeout, the outputs are again the ones from before, at once. -/
theorem C23_hold_release (hk : TapHoldKeymap K refs c ms layout) {calls : List Board.Call} {s : Timed.State} (hs : Reaches layout c ms calls s)
    {i : Nat} {tap hd : Cell} (hr : CanWait layout (rulesOf c.tapHold ms) s i tap hd) (cs : List Board.Call) (hcs : eventsIn cs = [])
    (hlong : c.tapHold.timeout ≤ ticksIn cs * ms) (ds : List Board.Call) (hds : eventsIn ds = [])
    (hclk : s.clock + c.tapHold.timeout + ticksIn cs * ms + ticksIn ds * ms < 2 ^ 32) :
    Outputs K refs S (n + 3) c ms (calls ++ .input (.press i) :: (cs ++ .input (.release i) :: ds)) s.board.outputs := by
  obtain ⟨s1, h1, _, h3⟩ := ready_ticks hr hk.timeout (ticksIn cs) (by simp only [rulesOf]; omega) (by simp only [rulesOf]; omega)
  have hT := hk.timeout
  have hk1 : 1 ≤ ticksIn cs := by
    rcases Nat.eq_zero_or_pos (ticksIn cs) with h | h
    · rw [h] at hlong; omega
    · exact h
  have h3 := h3 hlong
  rw [show 1 - ticksIn cs = 0 by omega] at h3
  obtain ⟨s2, h4, h5⟩ := resting_release (layout := layout) (r := rulesOf c.tapHold ms) h3 i
  obtain ⟨s3, h6, h7⟩ := resting_ticks (layout := layout) (r := rulesOf c.tapHold ms) (ticksIn ds) h5 (by simp only [rulesOf]; omega)
  have hrun : s.run layout (rulesOf c.tapHold ms) (.input (.press i) :: (cs ++ .input (.release i) :: ds)) = some s3 := by
    rw [show Call.input (.press i) :: (cs ++ .input (.release i) :: ds) = (.input (.press i) :: cs) ++ .input (.release i) :: ds from rfl, timed_run_append]
    have : s.run layout (rulesOf c.tapHold ms) (.input (.press i) :: cs) = some s1 := by
      rw [← h1]; simp only [Timed.State.run, timed_run_ticks _ hcs]
    rw [this]
    simp only [Option.bind_some, Timed.State.run, h4, timed_run_ticks _ hds, h6]
  have := lift (S := S) (n := n) hk hs _ (by simp [eventsIn, eventsIn_append, hcs, hds, isPhysical]) hrun
  rw [h7.board, hold_release hr.free] at this
  exact this

/-- C23: a tap-hold key is pressed and released after `k ≥ 1` ticks, `k * ms` less than the timeout: its tap
output appears at the release and is gone two ticks later. -/
theorem C23_tap (hk : TapHoldKeymap K refs c ms layout) {calls : List Board.Call} {s : Timed.State} (hs : Reaches layout c ms calls s)
    {i : Nat} {tap hd : Cell} (hr : CanWait layout (rulesOf c.tapHold ms) s i tap hd) (cs : List Board.Call) (hcs : eventsIn cs = [])
    (hpos : 1 ≤ ticksIn cs) (hshort : ticksIn cs * ms < c.tapHold.timeout) (ds : List Board.Call) (hds : eventsIn ds = [])
    (hclk : s.clock + c.tapHold.timeout + ticksIn ds * ms < 2 ^ 32) :
    Outputs K refs S (n + 3) c ms (calls ++ .input (.press i) :: (cs ++ .input (.release i) :: ds))
      (s.board.outputs ++ if ticksIn ds < 2 then tap.output.toList else []) := by
  obtain ⟨s1, h1, h2, _⟩ := ready_ticks hr hk.timeout (ticksIn cs) (by simp only [rulesOf]; omega) (by simp only [rulesOf]; omega)
  have h2 := h2 hshort
  rw [show 1 - ticksIn cs = 0 by omega] at h2
  obtain ⟨s2, h4, a1, a2, a3, a4, a5⟩ := hanging_release (layout := layout) (r := rulesOf c.tapHold ms) h2 rfl
  obtain ⟨s3, h6, h7⟩ := left_release (layout := layout) (r := rulesOf c.tapHold ms) a1 a2 a3 a4 a5 (ticksIn ds)
    (by simp only [rulesOf]; omega)
  have hrun : s.run layout (rulesOf c.tapHold ms) (.input (.press i) :: (cs ++ .input (.release i) :: ds)) = some s3 := by
    rw [show Call.input (.press i) :: (cs ++ .input (.release i) :: ds) = (.input (.press i) :: cs) ++ .input (.release i) :: ds from rfl, timed_run_append]
    have : s.run layout (rulesOf c.tapHold ms) (.input (.press i) :: cs) = some s1 := by
      rw [← h1]; simp only [Timed.State.run, timed_run_ticks _ hcs]
    rw [this]
    simp only [Option.bind_some, Timed.State.run, h4, timed_run_ticks _ hds, h6]
  have := lift (S := S) (n := n) hk hs _ (by simp [eventsIn, eventsIn_append, hcs, hds, isPhysical]) hrun
  rw [h7] at this
  simp only at this
  by_cases hd2 : ticksIn ds < 2
  · rw [if_pos hd2]
    rw [if_pos (by omega), hold_outputs] at this
    exact this
  · rw [if_neg hd2]
    rw [if_neg (by omega), hold_release hr.free] at this
    simpa using this

/-- Press and release without a tick between. -/
theorem ready_quick {r : Rules} {s : Timed.State} {i : Nat} {tap hd : Cell} (h : CanWait layout r s i tap hd) (hc : s.clock + r.timeout < 2 ^ 32) :
    ∃ s', s.run layout r [.input (.press i), .input (.release i)] = some s' ∧
      Hanging s' s.board ⟨i, tap, hd, s.clock + r.timeout, none, []⟩ [.release i] 1 s.clock := by
  obtain ⟨s0, h0, hang⟩ := ready_press h hc
  refine ⟨{ s0 with queue := [.release i], idle := 0 }, ?_, ⟨hang.board, hang.waiting, rfl, hang.delay, hang.clock⟩⟩
  simp only [Timed.State.run, h0, Option.bind_some]
  unfold Timed.State.input
  simp [hang.queue, hang.delay]

/-- C23: a tap-hold key is pressed and released with no tick between, and the timeout is longer than a tick:
its tap output appears at the second tick and is gone at the third. -/
theorem C23_quick_tap (hk : TapHoldKeymap K refs c ms layout) {calls : List Board.Call} {s : Timed.State} (hs : Reaches layout c ms calls s)
    {i : Nat} {tap hd : Cell} (hr : CanWait layout (rulesOf c.tapHold ms) s i tap hd) (hT : ms < c.tapHold.timeout) (ds : List Board.Call)
    (hds : eventsIn ds = []) (hclk : s.clock + c.tapHold.timeout + ticksIn ds * ms < 2 ^ 32) :
    Outputs K refs S (n + 3) c ms (calls ++ .input (.press i) :: .input (.release i) :: ds)
      (s.board.outputs ++ if ticksIn ds = 2 then tap.output.toList else []) := by
  obtain ⟨s0, h0, hang⟩ := ready_quick hr (by simp only [rulesOf]; omega)
  have hrun : ∀ s', s0.run layout (rulesOf c.tapHold ms) (List.replicate (ticksIn ds) .tick) = some s' →
      Outputs K refs S (n + 3) c ms (calls ++ .input (.press i) :: .input (.release i) :: ds) s'.board.outputs := by
    intro s' hs'
    refine lift (S := S) (n := n) hk hs _ (by simp [eventsIn, hds, isPhysical]) ?_
    rw [show Call.input (.press i) :: .input (.release i) :: ds = [.input (.press i), .input (.release i)] ++ ds from rfl, timed_run_append, h0]
    simpa only [Option.bind_some, timed_run_ticks _ hds] using hs'
  generalize ticksIn ds = k at hrun hclk ⊢
  match k with
  | 0 =>
    have := hrun s0 rfl
    rw [hang.board] at this
    simpa using this
  | k + 1 =>
    have hm : (k + 1) * ms = k * ms + ms := by rw [Nat.add_mul, Nat.one_mul]
    obtain ⟨s1, h1, hang1⟩ := hanging_tick (layout := layout) (r := rulesOf c.tapHold ms) hang (.inr (by omega)) (by simp only [rulesOf]; omega)
      (by simp only [rulesOf]; omega)
    match k with
    | 0 =>
      have := hrun s1 (by simp [Timed.State.run, h1])
      rw [hang1.board] at this
      simpa using this
    | k + 1 =>
      have hm2 : (k + 1) * ms = k * ms + ms := by rw [Nat.add_mul, Nat.one_mul]
      -- the release is taken
      obtain ⟨s2, h2, a1, a2, a3, a4, a5⟩ : ∃ s2, s1.tick layout (rulesOf c.tapHold ms) = some s2 ∧ s2.board = hold s.board i tap ∧ s2.waiting = none ∧
          s2.queue = [.release i] ∧ s2.delay = 0 ∧ s2.clock = s.clock + ms + ms := by
        obtain ⟨b', w', q', d', t', i', j, ts⟩ := s1
        obtain ⟨e1, e2, e3, e4, e5⟩ := hang1
        simp only at e1 e2 e3 e4 e5
        subst e1 e2 e3 e4 e5
        refine ⟨⟨hold s.board i tap, none, [.release i], 0, s.clock + ms + ms, i' + ms, i', ts.filter (fun x => s.clock + ms + ms < x)⟩, ?_, rfl, rfl, rfl, rfl, rfl⟩
        have hcl : s.clock + ms + ms < 2 ^ 32 := by omega
        simp [Timed.State.tick, State.takeOldest, State.take, Waiting.decided, State.settle, Waiting.kept, Waiting.see, ofKey, State.pass, rulesOf, hcl]
        rfl
      obtain ⟨s3, h6, h7⟩ := left_release (layout := layout) (r := rulesOf c.tapHold ms) a1 a2 a3 a4 a5 k (by simp only [rulesOf]; omega)
      have := hrun s3 (by simp only [List.replicate_succ, Timed.State.run, h1, Option.bind_some, h2]; exact h6)
      rw [h7] at this
      by_cases hk0 : k = 0
      · subst hk0
        rw [if_pos (Nat.le_refl _), hold_outputs] at this
        exact this
      · rw [if_neg (by omega), hold_release hr.free] at this
        rw [if_neg (by omega)]
        simpa using this

/-- C23, the boundary: with a timeout of at most one tick, a key pressed and released with no tick between is
taken as held (at the first tick), although it was not held for as long as the timeout. -/
theorem C23_one_tick (hk : TapHoldKeymap K refs c ms layout) {calls : List Board.Call} {s : Timed.State} (hs : Reaches layout c ms calls s)
    {i : Nat} {tap hd : Cell} (hr : CanWait layout (rulesOf c.tapHold ms) s i tap hd) (hT : c.tapHold.timeout ≤ ms)
    (hclk : s.clock + ms < 2 ^ 32) :
    Outputs K refs S (n + 3) c ms (calls ++ [.input (.press i), .input (.release i), .tick]) (s.board.outputs ++ hd.output.toList) := by
  obtain ⟨s0, h0, hang⟩ := ready_quick hr (by simp only [rulesOf]; omega)
  obtain ⟨s1, h1, a1, _⟩ := hanging_timeout (layout := layout) (r := rulesOf c.tapHold ms) hang (.inr (by omega)) (by simp only [rulesOf]; omega)
    (by simp only [rulesOf]; omega) (by simp [Waiting.kept])
  have := lift (S := S) (n := n) hk hs [.input (.press i), .input (.release i), .tick] (by simp [eventsIn, isPhysical]) (s' := s1) (by
    rw [show [Call.input (.press i), .input (.release i), .tick] = [.input (.press i), .input (.release i)] ++ [.tick] from rfl, timed_run_append, h0]
    simp [Timed.State.run, h1])
  rw [a1, hold_outputs] at this
  exact this

/-! ## What the key does to the others -/

/-- A key that does not wait is pressed while no key waits. -/
theorem take_press {r : Rules} {i : Nat} {b : Board.State} {cl : Cell} (hf : b.holds i = false) (hr : b.held.length < 16)
    (hk : (layout[i]?).map (Pos.pick b) = some (.cell cl)) (s : Timed.State) (hb : s.board = b) (h : s.waiting = none) :
    s.take layout r (.press i) = some { s with board := hold b i cl } := by
  rw [Option.map_eq_some_iff] at hk
  obtain ⟨p, hp, hpick⟩ := hk
  subst hb
  unfold State.take
  rw [h]
  simp only [hf, Bool.false_eq_true, if_false, hr, if_true, hp, Option.bind_some, hpick, State.press]
  rw [h]

theorem resting_press {r : Rules} {i t : Nat} {b : Board.State} {cl : Cell} (hf : b.holds i = false) (hr : b.held.length < 16)
    (hk : (layout[i]?).map (Pos.pick b) = some (.cell cl)) {s : Timed.State} (h : Resting s b 0 t) :
    ∃ s', s.input layout r (.press i) = some s' ∧ Resting s' (hold b i cl) 1 t := by
  obtain ⟨b', w, q, d, t', i', k, ts⟩ := s
  obtain ⟨h1, h2, h3, h4, h5⟩ := h
  simp only at h1 h2 h3 h4 h5
  subst h1 h2 h3 h4 h5
  refine ⟨⟨hold b' i cl, none, [], 1, t', 0, k, ts⟩, ?_, rfl, rfl, rfl, rfl, rfl⟩
  have := take_press (r := r) hf hr hk ⟨b', none, [], 0, t', 0, k, ts⟩ rfl rfl
  simp [Timed.State.input, State.takeOldest, this]

/-- C23, holding a layer: once a tap-hold key is held, a key pressed next does what the board with the hold key
held says: if the hold key switches on a layer, it is the key of that layer. -/
theorem C23_then (hk : TapHoldKeymap K refs c ms layout) {calls : List Board.Call} {s : Timed.State} (hs : Reaches layout c ms calls s)
    {i j : Nat} {tap hd cl : Cell} (hr : CanWait layout (rulesOf c.tapHold ms) s i tap hd) (cs : List Board.Call) (hcs : eventsIn cs = [])
    (hlong : c.tapHold.timeout ≤ ticksIn cs * ms) (hclk : s.clock + c.tapHold.timeout + ticksIn cs * ms < 2 ^ 32)
    (hf : (hold s.board i hd).holds j = false) (hroom : (hold s.board i hd).held.length < 16)
    (hj : (layout[j]?).map (Pos.pick (hold s.board i hd)) = some (.cell cl)) :
    Outputs K refs S (n + 3) c ms (calls ++ .input (.press i) :: (cs ++ [.input (.press j)]))
      (s.board.outputs ++ hd.output.toList ++ cl.output.toList) := by
  obtain ⟨s1, h1, _, h3⟩ := ready_ticks hr hk.timeout (ticksIn cs) (by simp only [rulesOf]; omega) (by simp only [rulesOf]; omega)
  have hT := hk.timeout
  have hk1 : 1 ≤ ticksIn cs := by
    rcases Nat.eq_zero_or_pos (ticksIn cs) with h | h
    · rw [h] at hlong; omega
    · exact h
  have h3 := h3 hlong
  rw [show 1 - ticksIn cs = 0 by omega] at h3
  obtain ⟨s2, h4, h5⟩ := resting_press (r := rulesOf c.tapHold ms) hf hroom hj h3
  have hrun : s.run layout (rulesOf c.tapHold ms) (.input (.press i) :: (cs ++ [.input (.press j)])) = some s2 := by
    rw [show Call.input (.press i) :: (cs ++ [.input (.press j)]) = (.input (.press i) :: cs) ++ [.input (.press j)] from rfl, timed_run_append]
    have : s.run layout (rulesOf c.tapHold ms) (.input (.press i) :: cs) = some s1 := by
      rw [← h1]; simp only [Timed.State.run, timed_run_ticks _ hcs]
    rw [this]
    simp only [Option.bind_some, Timed.State.run, h4]
  have := lift (S := S) (n := n) hk hs _ (by simp [eventsIn, eventsIn_append, hcs, isPhysical]) hrun
  rw [h5.board, hold_outputs, hold_outputs] at this
  exact this

/-- Another key is pressed while the key waits, and this does not decide it. -/
theorem hanging_other {r : Rules} {s : Timed.State} {b : Board.State} {w : Waiting} {t j : Nat} (h : Hanging s b w [] 0 t) (hs : w.seen = [])
    (hi : r.interrupt ≠ .onPress) :
    ∃ s', s.input layout r (.press j) = some s' ∧ Hanging s' b { w with other := some j, seen := [.press j] } [] 1 t := by
  obtain ⟨b', w', q, d', t', i, k, ts⟩ := s
  obtain ⟨h1, h2, h3, h4, h5⟩ := h
  simp only at h1 h2 h3 h4 h5
  subst h1 h2 h3 h4 h5
  refine ⟨⟨b', some { w with other := some j, seen := [.press j] }, [], 1, t', 0, k, ts⟩, ?_, rfl, rfl, rfl, rfl, rfl⟩
  simp [Timed.State.input, State.takeOldest, State.take, hs, Waiting.decided, hi, Waiting.see]

/-- Another key is pressed while the key waits, and this decides it. -/
theorem hanging_interrupt {r : Rules} {s : Timed.State} {b : Board.State} {w : Waiting} {t j : Nat} (h : Hanging s b w [] 0 t) (hs : w.seen = [])
    (hj : j ≠ w.key) (hi : r.interrupt = .onPress) :
    ∃ s', s.input layout r (.press j) = some s' ∧ s'.board = hold b w.key w.hold ∧ s'.waiting = none ∧ s'.queue = [.press j] ∧ s'.delay = 1 ∧
      s'.clock = t := by
  obtain ⟨b', w', q, d', t', i, k, ts⟩ := s
  obtain ⟨h1, h2, h3, h4, h5⟩ := h
  simp only at h1 h2 h3 h4 h5
  subst h1 h2 h3 h4 h5
  refine ⟨⟨hold b' w.key w.hold, none, [.press j], 1, t', 0, k, ts⟩, ?_, rfl, rfl, rfl, rfl, rfl⟩
  have hne : ¬ w.key = j := fun h => hj h.symm
  simp [Timed.State.input, State.takeOldest, State.take, hs, Waiting.decided, hi, Waiting.see, State.settle, Waiting.kept, ofKey, hne]

/-- C22, "hold on other key press", end to end: a tap-hold key is pressed, and `k ≥ 1` ticks later, before the
timeout, another key. The hold output appears at once; two ticks later the other key follows, as pressed while
the hold key is held (so on its layer, if it switches one on). -/
theorem C22_on_press (hk : TapHoldKeymap K refs c ms layout) {calls : List Board.Call} {s : Timed.State} (hs : Reaches layout c ms calls s)
    {i j : Nat} {tap hd cl : Cell} (hr : CanWait layout (rulesOf c.tapHold ms) s i tap hd) (hir : c.tapHold.interruptResponse = .holdOnKeyPress)
    (cs : List Board.Call) (hcs : eventsIn cs = []) (hpos : 1 ≤ ticksIn cs) (hshort : ticksIn cs * ms < c.tapHold.timeout)
    (ds : List Board.Call) (hds : eventsIn ds = []) (hclk : s.clock + c.tapHold.timeout + ticksIn ds * ms < 2 ^ 32) (hij : j ≠ i)
    (hf : (hold s.board i hd).holds j = false) (hroom : (hold s.board i hd).held.length < 16)
    (hj : (layout[j]?).map (Pos.pick (hold s.board i hd)) = some (.cell cl)) :
    Outputs K refs S (n + 3) c ms (calls ++ .input (.press i) :: (cs ++ .input (.press j) :: ds))
      (s.board.outputs ++ hd.output.toList ++ if ticksIn ds < 2 then [] else cl.output.toList) := by
  obtain ⟨s1, h1, h2, _⟩ := ready_ticks hr hk.timeout (ticksIn cs) (by simp only [rulesOf]; omega) (by simp only [rulesOf]; omega)
  have h2 := h2 hshort
  rw [show 1 - ticksIn cs = 0 by omega] at h2
  obtain ⟨s2, h4, a1, a2, a3, a4, a5⟩ := hanging_interrupt (layout := layout) (r := rulesOf c.tapHold ms) h2 rfl hij (by simp [rulesOf, hir])
  obtain ⟨s3, h6, h7, h8⟩ := left_event (layout := layout) (r := rulesOf c.tapHold ms) (b' := hold (hold s.board i hd) j cl)
    (take_press hf hroom hj) a1 a2 a3 a4 a5 (ticksIn ds) (by simp only [rulesOf]; omega)
  have hrun : s.run layout (rulesOf c.tapHold ms) (.input (.press i) :: (cs ++ .input (.press j) :: ds)) = some s3 := by
    rw [show Call.input (.press i) :: (cs ++ .input (.press j) :: ds) = (.input (.press i) :: cs) ++ .input (.press j) :: ds from rfl, timed_run_append]
    have : s.run layout (rulesOf c.tapHold ms) (.input (.press i) :: cs) = some s1 := by
      rw [← h1]; simp only [Timed.State.run, timed_run_ticks _ hcs]
    rw [this]
    simp only [Option.bind_some, Timed.State.run, h4, timed_run_ticks _ hds, h6]
  have := lift (S := S) (n := n) hk hs _ (by simp [eventsIn, eventsIn_append, hcs, hds, isPhysical]) hrun
  by_cases hd2 : ticksIn ds < 2
  · rw [if_pos hd2]
    rw [(h7 (by omega)).1, hold_outputs] at this
    simpa using this
  · rw [if_neg hd2]
    rw [(h8 (by omega)).board, hold_outputs, hold_outputs] at this
    exact this

/-- C22, otherwise: another key pressed while the key waits shows nothing before the timeout. -/
theorem C22_kept (hk : TapHoldKeymap K refs c ms layout) {calls : List Board.Call} {s : Timed.State} (hs : Reaches layout c ms calls s)
    {i j : Nat} {tap hd : Cell} (hr : CanWait layout (rulesOf c.tapHold ms) s i tap hd) (hir : c.tapHold.interruptResponse ≠ .holdOnKeyPress)
    (cs : List Board.Call) (hcs : eventsIn cs = []) (hpos : 1 ≤ ticksIn cs) (ds : List Board.Call) (hds : eventsIn ds = [])
    (hshort : (ticksIn cs + ticksIn ds) * ms < c.tapHold.timeout) (hclk : s.clock + c.tapHold.timeout < 2 ^ 32) :
    Outputs K refs S (n + 3) c ms (calls ++ .input (.press i) :: (cs ++ .input (.press j) :: ds)) s.board.outputs := by
  rw [Nat.add_mul] at hshort
  obtain ⟨s1, h1, h2, _⟩ := ready_ticks hr hk.timeout (ticksIn cs) (by simp only [rulesOf]; omega) (by simp only [rulesOf]; omega)
  have h2 := h2 (by simp only [rulesOf]; omega)
  rw [show 1 - ticksIn cs = 0 by omega] at h2
  have hno : (rulesOf c.tapHold ms).interrupt ≠ .onPress := by
    simp only [rulesOf]
    cases h : c.tapHold.interruptResponse <;> simp_all
  obtain ⟨s2, h4, h5⟩ := hanging_other (layout := layout) (r := rulesOf c.tapHold ms) (j := j) h2 rfl hno
  obtain ⟨s3, h6, h7⟩ := hanging_ticks (layout := layout) (r := rulesOf c.tapHold ms) (ticksIn ds) h5 (by simp only [rulesOf]; omega)
    (by simp only [rulesOf]; omega)
  have hrun : s.run layout (rulesOf c.tapHold ms) (.input (.press i) :: (cs ++ .input (.press j) :: ds)) = some s3 := by
    rw [show Call.input (.press i) :: (cs ++ .input (.press j) :: ds) = (.input (.press i) :: cs) ++ .input (.press j) :: ds from rfl, timed_run_append]
    have : s.run layout (rulesOf c.tapHold ms) (.input (.press i) :: cs) = some s1 := by
      rw [← h1]; simp only [Timed.State.run, timed_run_ticks _ hcs]
    rw [this]
    simp only [Option.bind_some, Timed.State.run, h4, timed_run_ticks _ hds, h6]
  have := lift (S := S) (n := n) hk hs _ (by simp [eventsIn, eventsIn_append, hcs, hds, isPhysical]) hrun
  rw [h7.board] at this
  exact this

/-! ## Required idle time -/

/-- C24, end to end: a tap-hold key pressed before the required idle time has passed does not wait: its tap
output appears at once and stays while the key is pressed, however long. -/
theorem C24_impatient (hk : TapHoldKeymap K refs c ms layout) {calls : List Board.Call} {s : Timed.State} (hs : Reaches layout c ms calls s)
    (hrest : Resting s s.board 0 s.clock) {i : Nat} {tap hd : Cell} (hf : s.board.holds i = false) (hroom : s.board.held.length < 16)
    (hkey : (layout[i]?).map (Pos.pick s.board) = some (.tapHold tap hd)) (hno : s.rested (rulesOf c.tapHold ms) = false)
    (cs : List Board.Call) (hcs : eventsIn cs = []) (hclk : s.clock + ticksIn cs * ms < 2 ^ 32) :
    Outputs K refs S (n + 3) c ms (calls ++ .input (.press i) :: cs) (s.board.outputs ++ tap.output.toList) := by
  obtain ⟨s1, h1, h2⟩ : ∃ s1, s.input layout (rulesOf c.tapHold ms) (.press i) = some s1 ∧ Resting s1 (hold s.board i tap) 1 s.clock := by
    rw [Option.map_eq_some_iff] at hkey
    obtain ⟨p, hp, hpick⟩ := hkey
    obtain ⟨b', w', q', d', t', i', j, ts⟩ := s
    obtain ⟨_, e2, e3, e4, _⟩ := hrest
    simp only at e2 e3 e4 hf hroom hpick
    subst e2 e3 e4
    have hno' : State.rested (rulesOf c.tapHold ms) ⟨b', none, [], 0, t', 0, j, ts⟩ = false := hno
    refine ⟨⟨hold b' i tap, none, [], 1, t', 0, j, ts⟩, ?_, rfl, rfl, rfl, rfl, rfl⟩
    simp [Timed.State.input, State.takeOldest, State.take, hf, hroom, hp, hpick, State.press, hno']
  obtain ⟨s2, h3, h4⟩ := resting_ticks (layout := layout) (r := rulesOf c.tapHold ms) (ticksIn cs) h2 (by simp only [rulesOf]; omega)
  have := lift (S := S) (n := n) hk hs (.input (.press i) :: cs) (by simp [eventsIn, hcs, isPhysical]) (s' := s2) (by
    simp only [Timed.State.run, h1, Option.bind_some, timed_run_ticks _ hcs, h3])
  rw [h4.board, hold_outputs] at this
  exact this

theorem settle_idle {s s' : Timed.State} {w : Waiting} {cl : Cell} (h : s.settle w cl = some s') : s'.idle = s.idle ∧ s'.idleSeen = s.idleSeen := by
  unfold State.settle at h
  split at h <;> cases h
  exact ⟨rfl, rfl⟩

theorem take_idle {r : Rules} {s s' : Timed.State} {e : InputEvent} (h : s.take layout r e = some s') : s'.idle = s.idle ∧ s'.idleSeen = s.idleSeen := by
  unfold State.take at h
  split at h
  · split at h
    · split at h
      · exact settle_idle h
      · cases h; exact ⟨rfl, rfl⟩
    · cases h
  · split at h
    · split at h
      · cases h; exact ⟨rfl, rfl⟩
      · split at h
        · rw [Option.bind_eq_some_iff] at h
          obtain ⟨p, _, h⟩ := h
          unfold State.press at h
          split at h
          · cases h; exact ⟨rfl, rfl⟩
          · split at h
            · split at h <;> cases h
              exact ⟨rfl, rfl⟩
            · cases h; exact ⟨rfl, rfl⟩
        · cases h
    · cases h; exact ⟨rfl, rfl⟩

theorem tick_idle {r : Rules} {s s' : Timed.State} (h : s.tick layout r = some s') : s'.idle = s.idle + r.ms ∧ s'.idleSeen = s.idle := by
  unfold Timed.State.tick at h
  simp only [Option.map_eq_some_iff, Option.bind_eq_some_iff] at h
  obtain ⟨s2, ⟨s1, h1, h2⟩, rfl⟩ := h
  have e1 : s1.idle = s.idle ∧ s1.idleSeen = s.idle := by
    split at h1
    · unfold State.takeOldest at h1
      split at h1
      · cases h1
      · exact take_idle h1
    · cases h1; exact ⟨rfl, rfl⟩
  have e2 : s2.idle = s1.idle ∧ s2.idleSeen = s1.idleSeen := by
    unfold State.pass at h2
    split at h2
    · simp only at h2
      split at h2
      · split at h2
        · have q := settle_idle h2
          exact q
        · cases h2; exact ⟨rfl, rfl⟩
      · cases h2; exact ⟨rfl, rfl⟩
    · cases h2
  exact ⟨by simp [e2.1, e1.1], by simp [e2.2, e1.2]⟩

theorem ticks_idle {r : Rules} {s s' : Timed.State} (k : Nat) (h : s.run layout r (List.replicate (k + 1) .tick) = some s') :
    s'.idle = s.idle + (k + 1) * r.ms ∧ s'.idleSeen = s.idle + k * r.ms := by
  induction k generalizing s' with
  | zero =>
    simp only [Nat.zero_add, List.replicate_one, Timed.State.run, Option.bind_eq_some_iff, Option.some.injEq] at h
    obtain ⟨a, h1, rfl⟩ := h
    simpa using tick_idle h1
  | succ k ih =>
    rw [List.replicate_succ', timed_run_append, Option.bind_eq_some_iff] at h
    obtain ⟨s1, h1, h2⟩ := h
    simp only [Timed.State.run, Option.bind_eq_some_iff, Option.some.injEq] at h2
    obtain ⟨a, h2, rfl⟩ := h2
    have e1 := ih h1
    have e2 := tick_idle h2
    refine ⟨?_, ?_⟩
    · rw [e2.1, e1.1, Nat.add_mul (k + 1) 1, Nat.one_mul, Nat.add_assoc]
    · rw [e2.2, e1.1]

theorem input_idle {r : Rules} {s s' : Timed.State} {e : InputEvent} (h : s.input layout r e = some s') : s'.idle = 0 := by
  unfold Timed.State.input at h
  simp only at h
  split at h
  · cases h; rfl
  · split at h
    · rw [Option.map_eq_some_iff] at h
      obtain ⟨a, h1, rfl⟩ := h
      unfold State.takeOldest at h1
      split at h1
      · cases h1
      · exact (take_idle h1).1
    · cases h; rfl

/-- C24: how long the keyboard must have been idle: `k ≥ 1` ticks after the last key event, a tap-hold key waits
if and only if the required idle time is at most `(k - 1) * ms`. -/
theorem C24_idle_ticks {calls cs : List Board.Call} {e : InputEvent} {s : Timed.State} (hcs : eventsIn cs = []) (hpos : 1 ≤ ticksIn cs)
    (hs : Reaches layout c ms (calls ++ .input e :: cs) s) :
    s.rested (rulesOf c.tapHold ms) = true ↔ ∀ req, c.tapHold.requiredIdleTime = some req → req ≤ (ticksIn cs - 1) * ms := by
  have h := hs.2
  rw [timed_run_append, Option.bind_eq_some_iff] at h
  obtain ⟨s1, _, h⟩ := h
  simp only [Timed.State.run, Option.bind_eq_some_iff] at h
  obtain ⟨s2, h1, h2⟩ := h
  rw [timed_run_ticks _ hcs] at h2
  obtain ⟨k, hk⟩ : ∃ k, ticksIn cs = k + 1 := ⟨ticksIn cs - 1, by omega⟩
  rw [hk] at h2
  have e1 := ticks_idle k h2
  rw [input_idle h1, Nat.zero_add, Nat.zero_add] at e1
  unfold State.rested
  simp only [rulesOf] at e1 ⊢
  rw [e1.2, hk]
  cases c.tapHold.requiredIdleTime with
  | none => simp
  | some t => simp

end Timing

/-! ## A keymap that meets the hypotheses -/

namespace TapHoldDemo

/-- A plain key, a tap-hold key that holds a layer, a layered key that is a tap-hold key on the base layer. -/
def K : Keys where
  layerMods := [.hold 1]
  tapHold := [⟨.keyboard (.keyCode 5), .layered (.modifier 0)⟩, ⟨.keyboard (.keyCode 6), .keyboard (.keyCode 0xE0)⟩]
  layered := [⟨.tapHold 1, [some (.keyboard (.keyCode 7))]⟩]

def refs : List Ref := [.keyboard (.keyCode 4), .tapHold 0, .layered (.layered 0)]

def config (t : TapHold.Config) : Config where
  automation := ⟨[], 0⟩
  chorded := ⟨200, [], none, 0, 0⟩
  sticky := .onModifiedKeyRelease
  tapDance := ⟨200⟩
  tapHold := t
  layerCount := 1
  maxChords := 0

def out (k : Byte) : Cell := .out (KeyOutput.fromKeyCode k)

def layout : List Pos :=
  [.act (.cell (out 4)), .act (.tapHold (out 5) (.hold 1)), .layered (.tapHold (out 6) (out 0xE0)) [some (.cell (out 7))]]

theorem keymap (t : TapHold.Config) (ht : 1 ≤ t.timeout) (ms : Nat) (hms : 1 ≤ ms) : TapHoldKeymap K refs (config t) ms layout where
  layoutEq := by decide +kernel
  fits := by
    intro e he
    simp only [layout, List.mem_cons, List.not_mem_nil, or_false] at he
    rcases he with rfl | rfl | rfl <;> simp [Pos.Fits, Act.Fits, Cell.Fits, out, config]
  size := by decide
  tick := hms
  timeout := ht
  chords := .inl rfl

/-- The plain key was pressed four ticks ago and is still held. -/
def calls : List Board.Call := [.input (.press 0), .tick, .tick, .tick, .tick]

def state (t : TapHold.Config) (ms : Nat) : Timed.State := (((Timed.State.new 1).run layout (rulesOf t ms) calls).getD (Timed.State.new 1))

/-- 200 ms, a press of another key decides for hold, 3 ms of required idle time; ticks of 1 ms. -/
def t1 : TapHold.Config := ⟨200, .holdOnKeyPress, some 3⟩

theorem reaches : Reaches layout (config t1) 1 calls (state t1 1) := ⟨by decide, by decide +kernel⟩

theorem outputs : (state t1 1).board.outputs = [KeyOutput.fromKeyCode 4] := by decide +kernel

theorem ready : CanWait layout (rulesOf t1 1) (state t1 1) 2 (out 6) (out 0xE0) where
  rest := ⟨rfl, by decide +kernel, by decide +kernel, by decide +kernel, rfl⟩
  free := by decide +kernel
  room := by decide +kernel
  key := by decide +kernel
  rested := by decide +kernel
  timers := by decide +kernel

theorem ready_layer : CanWait layout (rulesOf t1 1) (state t1 1) 1 (out 5) (.hold 1) where
  rest := ⟨rfl, by decide +kernel, by decide +kernel, by decide +kernel, rfl⟩
  free := by decide +kernel
  room := by decide +kernel
  key := by decide +kernel
  rested := by decide +kernel
  timers := by decide +kernel

theorem clock : (state t1 1).clock = 4 := by decide +kernel

theorem ticks (k : Nat) : eventsIn (List.replicate k .tick) = [] ∧ ticksIn (List.replicate k .tick) = k := by
  induction k with
  | zero => exact ⟨rfl, rfl⟩
  | succ k ih => simp [List.replicate_succ, eventsIn, ticksIn, ih]

def shows (calls : List Board.Call) (ks : List Byte) : Prop := Outputs K refs Search.std 3 (config t1) 1 calls (ks.map KeyOutput.fromKeyCode)

/-- After 199 ticks nothing new, after 200 the hold key. -/
example : shows (calls ++ .input (.press 2) :: List.replicate 199 .tick) [4] := by
  have := C23_hold (S := Search.std) (n := 0) (keymap t1 (by decide) 1 (by decide)) reaches ready (List.replicate 199 .tick) (ticks 199).1
    (by rw [(ticks 199).2, clock]; decide)
  rw [(ticks 199).2, outputs] at this
  exact this

example : shows (calls ++ .input (.press 2) :: List.replicate 200 .tick) [4, 0xE0] := by
  have := C23_hold (S := Search.std) (n := 0) (keymap t1 (by decide) 1 (by decide)) reaches ready (List.replicate 200 .tick) (ticks 200).1
    (by rw [(ticks 200).2, clock]; decide)
  rw [(ticks 200).2, outputs] at this
  exact this

/-- Released after 250 ticks: at once gone. -/
example : shows (calls ++ .input (.press 2) :: (List.replicate 250 .tick ++ [.input (.release 2)])) [4] := by
  have := C23_hold_release (S := Search.std) (n := 0) (keymap t1 (by decide) 1 (by decide)) reaches ready (List.replicate 250 .tick) (ticks 250).1
    (by rw [(ticks 250).2]; decide) [] rfl (by rw [(ticks 250).2, clock]; decide)
  rw [outputs] at this
  exact this

/-- Released after 199 ticks: the tap key appears at once, and is gone two ticks later. -/
example : shows (calls ++ .input (.press 2) :: (List.replicate 199 .tick ++ [.input (.release 2)])) [4, 6] := by
  have := C23_tap (S := Search.std) (n := 0) (keymap t1 (by decide) 1 (by decide)) reaches ready (List.replicate 199 .tick) (ticks 199).1
    (by rw [(ticks 199).2]; decide) (by rw [(ticks 199).2]; decide) [] rfl (by rw [clock]; decide)
  rw [outputs] at this
  exact this

example : shows (calls ++ .input (.press 2) :: (List.replicate 199 .tick ++ [.input (.release 2), .tick, .tick])) [4] := by
  have := C23_tap (S := Search.std) (n := 0) (keymap t1 (by decide) 1 (by decide)) reaches ready (List.replicate 199 .tick) (ticks 199).1
    (by rw [(ticks 199).2]; decide) (by rw [(ticks 199).2]; decide) [.tick, .tick] rfl (by rw [clock]; decide)
  rw [outputs] at this
  exact this

/-- Pressed and released without a tick between. -/
example : shows (calls ++ [.input (.press 2), .input (.release 2), .tick, .tick]) [4, 6] := by
  have := C23_quick_tap (S := Search.std) (n := 0) (keymap t1 (by decide) 1 (by decide)) reaches ready (by decide) [.tick, .tick] rfl
    (by rw [clock]; decide)
  rw [outputs] at this
  exact this

/-- The layer is held, and the layered key pressed next is the key of the layer. -/
example : shows (calls ++ .input (.press 1) :: (List.replicate 200 .tick ++ [.input (.press 2)])) [4, 7] := by
  have := C23_then (S := Search.std) (n := 0) (j := 2) (cl := out 7) (keymap t1 (by decide) 1 (by decide)) reaches ready_layer (List.replicate 200 .tick) (ticks 200).1
    (by rw [(ticks 200).2]; decide) (by rw [(ticks 200).2, clock]; decide) (by decide +kernel) (by decide +kernel) (by decide +kernel)
  rw [outputs] at this
  exact this

/-- The layered key is pressed 50 ticks after the key that holds its layer, and decides it. -/
example : shows (calls ++ .input (.press 1) :: (List.replicate 50 .tick ++ [.input (.press 2), .tick, .tick])) [4, 7] := by
  have := C22_on_press (S := Search.std) (n := 0) (j := 2) (cl := out 7) (keymap t1 (by decide) 1 (by decide)) reaches ready_layer rfl
    (List.replicate 50 .tick) (ticks 50).1 (by rw [(ticks 50).2]; decide) (by rw [(ticks 50).2]; decide) [.tick, .tick] rfl
    (by rw [clock]; decide) (by decide) (by decide +kernel) (by decide +kernel) (by decide +kernel)
  rw [outputs] at this
  exact this

/-- With other keys ignored, it is kept. -/
def t2 : TapHold.Config := ⟨200, .ignore, some 4⟩

example : Outputs K refs Search.std 3 (config ⟨200, .ignore, none⟩) 1 (.input (.press 1) :: .tick :: [.input (.press 2), .tick, .tick]) [] :=
  C22_kept (S := Search.std) (n := 0) (keymap ⟨200, .ignore, none⟩ (by decide) 1 (by decide)) (calls := []) (s := Timed.State.new 1) (tap := out 5) (hd := .hold 1)
    ⟨by simp [eventsIn], rfl⟩
    ⟨⟨rfl, rfl, rfl, rfl, rfl⟩, by decide +kernel, by decide +kernel, by decide +kernel, by decide +kernel, by decide +kernel⟩
    (by decide) [.tick] rfl (by decide) [.tick, .tick] rfl (by decide) (by decide)

/-- Four ticks after the last event, 4 ms of required idle time have not passed (3 would have): the key taps. -/
example : Outputs K refs Search.std 3 (config t2) 1 (calls ++ [.input (.press 2)]) ([4, 6].map KeyOutput.fromKeyCode) := by
  have hr : Reaches layout (config t2) 1 calls (state t2 1) := ⟨by decide, by decide +kernel⟩
  have := C24_impatient (S := Search.std) (n := 0) (i := 2) (tap := out 6) (hd := out 0xE0) (keymap t2 (by decide) 1 (by decide)) hr
    ⟨rfl, by decide +kernel, by decide +kernel, by decide +kernel, rfl⟩ (by decide +kernel) (by decide +kernel) (by decide +kernel)
    (by
      have h := C24_idle_ticks (calls := []) (cs := [.tick, .tick, .tick, .tick]) (e := .press 0) rfl (by decide) hr
      rw [← Bool.not_eq_true]
      intro hc
      exact absurd (h.1 hc 4 rfl) (by decide))
    [] rfl (by decide +kernel)
  have ho : (state t2 1).board.outputs = [KeyOutput.fromKeyCode 4] := by decide +kernel
  rw [ho] at this
  exact this

/-- A timeout of 5 ms and ticks of 10 ms: pressed and released without a tick between, the key is taken as held. -/
example : Outputs K refs Search.std 3 (config ⟨5, .ignore, none⟩) 10 [.input (.press 2), .input (.release 2), .tick] [KeyOutput.fromKeyCode 0xE0] :=
  C23_one_tick (S := Search.std) (n := 0) (keymap ⟨5, .ignore, none⟩ (by decide) 10 (by decide)) (calls := []) (s := Timed.State.new 1) (tap := out 6) (hd := out 0xE0)
    ⟨by simp [eventsIn], rfl⟩
    ⟨⟨rfl, rfl, rfl, rfl, rfl⟩, by decide +kernel, by decide +kernel, by decide +kernel, by decide +kernel, by decide +kernel⟩
    (by decide) (by decide)

end TapHoldDemo

end Verif.Comp
