import Verif.Lemmas.ChordRun
import Verif.Props.TapHoldTime

/-!
# Time on the board with chords
-/

namespace Verif.Comp.CH

open Board (Cell Entry)
open Chords (Pos Outcome Waiting Rules State)

variable {layout : List Pos} {r : Rules}

theorem run_append (s : State) (as bs : List Board.Call) :
    s.run layout r (as ++ bs) = (s.run layout r as).bind fun s => s.run layout r bs := by
  induction as generalizing s with
  | nil => rfl
  | cons a as ih =>
    cases a with
    | input e => simp only [List.cons_append, State.run]; cases s.input layout r e <;> simp [ih]
    | tick => simp only [List.cons_append, State.run]; cases s.tick layout r <;> simp [ih]
    | report => simp only [List.cons_append, State.run, ih]

/-- Calls without a key event are so many ticks. -/
theorem run_ticks (s : State) {cs : List Board.Call} (h : eventsIn cs = []) :
    s.run layout r cs = s.run layout r (List.replicate (ticksIn cs) .tick) := by
  induction cs generalizing s with
  | nil => rfl
  | cons a as ih =>
    cases a with
    | input e => simp [eventsIn] at h
    | tick =>
      simp only [ticksIn, List.replicate_succ, State.run]
      cases s.tick layout r with
      | none => rfl
      | some s => simp only [Option.bind_some]; exact ih s h
    | report => simp only [ticksIn, State.run]; exact ih s h

/-- The chords that are down, after a decision. -/
def downs (dn : List Bool) : Outcome → List Bool
  | .chord id => dn.set id true
  | .alone => dn

theorem mark_down (s : State) (o : Outcome) : (s.mark o).down = downs s.down o := by cases o <;> rfl

/-- No key waits, and the events `q`. -/
structure Free (s : State) (b : Board.State) (dn : List Bool) (q : List InputEvent) (d t : Nat) : Prop where
  board : s.board = b
  down : s.down = dn
  waiting : s.waiting = none
  queue : s.queue = q
  delay : s.delay = d
  clock : s.clock = t

/-- Key `w` waits, and no event. -/
structure Hanging (s : State) (b : Board.State) (dn : List Bool) (w : Waiting) (d t : Nat) : Prop where
  board : s.board = b
  down : s.down = dn
  waiting : s.waiting = some w
  queue : s.queue = []
  delay : s.delay = d
  clock : s.clock = t

/-- A tick at which no event may be taken. -/
theorem free_tick {s : State} {b : Board.State} {dn : List Bool} {q : List InputEvent} {d t : Nat} (h : Free s b dn q d t) (hq : q = [] ∨ d ≠ 0)
    (hc : t + r.ms < 2 ^ 32) : ∃ s', s.tick layout r = some s' ∧ Free s' b dn q (d - 1) (t + r.ms) := by
  obtain ⟨b', dn', la, w, q', d', t', i1, i2, ts⟩ := s
  obtain ⟨h1, h2, h3, h4, h5, h6⟩ := h
  simp only at h1 h2 h3 h4 h5 h6
  subst h1 h2 h3 h4 h5 h6
  have hcond : ¬ (d' = 0 ∧ q' ≠ []) := by rcases hq with hq | hq <;> simp [hq]
  refine ⟨⟨b', dn', la, none, q', d' - 1, t' + r.ms, i1 + r.ms, i1, ts.filter (fun x => t' + r.ms < x)⟩, ?_, rfl, rfl, rfl, rfl, rfl, rfl⟩
  simp only [State.tick]
  rw [if_neg hcond]
  simp only [Option.bind_some, State.pass, hc, if_true, Option.map_some]

/-- A tick at which the oldest event is taken. -/
theorem free_take {s : State} {b b' : Board.State} {dn dn' : List Bool} {q : List InputEvent} {e : InputEvent} {t : Nat} (h : Free s b dn (e :: q) 0 t)
    (htake : ∀ s, Free s b dn q 0 t → ∃ s', s.take layout r e = some s' ∧ Free s' b' dn' q 0 t)
    (hc : t + r.ms < 2 ^ 32) : ∃ s', s.tick layout r = some s' ∧ Free s' b' dn' q 0 (t + r.ms) := by
  obtain ⟨s1, hs1, hf⟩ := htake { s with idleSeen := s.idle, queue := q } ⟨h.board, h.down, h.waiting, rfl, h.delay, h.clock⟩
  obtain ⟨b1, dn1, la, w, q', d', t', i1, i2, ts⟩ := s1
  obtain ⟨h1, h2, h3, h4, h5, h6⟩ := hf
  simp only at h1 h2 h3 h4 h5 h6
  subst h1 h2 h3 h4 h5 h6
  refine ⟨⟨b1, dn1, la, none, q', 0, t' + r.ms, i1 + r.ms, i2, ts.filter (fun x => t' + r.ms < x)⟩, ?_, rfl, rfl, rfl, rfl, rfl, rfl⟩
  simp only [State.tick]
  rw [if_pos ⟨h.delay, by rw [h.queue]; simp⟩]
  simp only [State.takeOldest, h.queue, hs1, Option.bind_some, State.pass, hc, if_true, Option.map_some]

theorem free_ticks {s : State} {b : Board.State} {dn : List Bool} {d t : Nat} (k : Nat) (h : Free s b dn [] d t) (hc : t + k * r.ms < 2 ^ 32) :
    ∃ s', s.run layout r (List.replicate k .tick) = some s' ∧ Free s' b dn [] (d - k) (t + k * r.ms) := by
  induction k generalizing s d t with
  | zero => exact ⟨s, rfl, by simpa using h⟩
  | succ k ih =>
    have hm : (k + 1) * r.ms = k * r.ms + r.ms := by rw [Nat.add_mul, Nat.one_mul]
    obtain ⟨s1, h1, h2⟩ := free_tick (layout := layout) (r := r) h (.inl rfl) (by omega)
    obtain ⟨s2, h3, h4⟩ := ih h2 (by omega)
    refine ⟨s2, by simp only [List.replicate_succ, State.run, h1, Option.bind_some, h3], ?_⟩
    rw [show d - (k + 1) = d - 1 - k by omega, show t + (k + 1) * r.ms = t + r.ms + k * r.ms by omega]
    exact h4

/-- Nothing happens before the deadline. -/
theorem hanging_tick {s : State} {b : Board.State} {dn : List Bool} {w : Waiting} {d t : Nat} (h : Hanging s b dn w d t)
    (hd : t + r.ms < w.deadline) (hw : w.deadline ≤ 2 ^ 32) :
    ∃ s', s.tick layout r = some s' ∧ Hanging s' b dn w (d - 1) (t + r.ms) := by
  obtain ⟨b', dn', la, w', q', d', t', i1, i2, ts⟩ := s
  obtain ⟨h1, h2, h3, h4, h5, h6⟩ := h
  simp only at h1 h2 h3 h4 h5 h6
  subst h1 h2 h3 h4 h5 h6
  have hc : t' + r.ms < 2 ^ 32 := by omega
  refine ⟨⟨b', dn', la, some w, [], d' - 1, t' + r.ms, i1 + r.ms, i1, ts.filter (fun x => t' + r.ms < x)⟩, ?_, rfl, rfl, rfl, rfl, rfl, rfl⟩
  simp only [State.tick, ne_eq, not_true_eq_false, and_false, if_false, Option.bind_some, State.pass, hc, if_true]
  rw [if_neg (by omega)]
  rfl

theorem hanging_ticks {s : State} {b : Board.State} {dn : List Bool} {w : Waiting} {d t : Nat} (k : Nat) (h : Hanging s b dn w d t)
    (hd : t + k * r.ms < w.deadline) (hw : w.deadline ≤ 2 ^ 32) :
    ∃ s', s.run layout r (List.replicate k .tick) = some s' ∧ Hanging s' b dn w (d - k) (t + k * r.ms) := by
  induction k generalizing s d t with
  | zero => exact ⟨s, rfl, by simpa using h⟩
  | succ k ih =>
    have hm : (k + 1) * r.ms = k * r.ms + r.ms := by rw [Nat.add_mul, Nat.one_mul]
    obtain ⟨s1, h1, h2⟩ := hanging_tick (layout := layout) (r := r) h (by omega) hw
    obtain ⟨s2, h3, h4⟩ := ih h2 (by omega)
    refine ⟨s2, by simp only [List.replicate_succ, State.run, h1, Option.bind_some, h3], ?_⟩
    rw [show d - (k + 1) = d - 1 - k by omega, show t + (k + 1) * r.ms = t + r.ms + k * r.ms by omega]
    exact h4

/-- The board after a decision. -/
def decide' (r : Rules) (b : Board.State) (w : Waiting) (o : Outcome) : Board.State := Chords.hold b w.key ((w.pos.entry r w.key o).pick b)

/-- At the deadline the key is decided. -/
theorem hanging_timeout {s : State} {b : Board.State} {dn : List Bool} {w : Waiting} {d t : Nat} (h : Hanging s b dn w d t)
    (hd : w.deadline ≤ t + r.ms) (hc : t + r.ms < 2 ^ 32) (hl : w.kept.length ≤ 31) :
    ∃ s', s.tick layout r = some s' ∧ Free s' (decide' r b w (w.outcome r)) (downs dn (w.outcome r)) w.kept (d - 1) (t + r.ms) := by
  obtain ⟨b', dn', la, w', q', d', t', i1, i2, ts⟩ := s
  obtain ⟨h1, h2, h3, h4, h5, h6⟩ := h
  simp only at h1 h2 h3 h4 h5 h6
  subst h1 h2 h3 h4 h5 h6
  have hl' : (w.kept ++ []).length ≤ 31 := by rw [List.append_nil]; exact hl
  simp only [State.tick, ne_eq, not_true_eq_false, and_false, if_false, Option.bind_some, State.pass, hc, if_true, hd, State.settle, hl']
  refine ⟨_, rfl, ?_⟩
  cases w.outcome r <;> exact ⟨rfl, rfl, rfl, by simp [State.mark], rfl, rfl⟩

/-- Another key is pressed, and the key waits on. -/
theorem hanging_press {s : State} {b : Board.State} {dn : List Bool} {w : Waiting} {t j : Nat} (h : Hanging s b dn w 0 t)
    (hs : w.seen.length < 16) (hp : w.pressed.length < r.size) (hd : w.decided r j = none) :
    ∃ s', s.input layout r (.press j) = some s' ∧
      Hanging s' b dn ({ w.join r j with seen := w.seen ++ [.press j] } : Waiting) 1 t := by
  obtain ⟨b', dn', la, w', q', d', t', i1, i2, ts⟩ := s
  obtain ⟨h1, h2, h3, h4, h5, h6⟩ := h
  simp only at h1 h2 h3 h4 h5 h6
  subst h1 h2 h3 h4 h5 h6
  refine ⟨⟨b', dn', la, some { w.join r j with seen := w.seen ++ [.press j] }, [], 1, t', 0, i2, ts⟩, ?_, rfl, rfl, rfl, rfl, rfl, rfl⟩
  simp only [State.input, List.length_nil, show ¬ 0 ≥ 31 by decide, if_false, if_true, List.nil_append, State.takeOldest, State.take, hs, hp, hd, Option.map_some]

theorem kept_length (w : Waiting) : w.kept.length ≤ w.seen.length + 1 := by
  unfold Waiting.kept
  rw [List.length_append]
  have h1 := List.length_filter_le (fun e => !Chords.ofKey w.key e) w.seen
  have h2 : (w.seen.filter (Chords.ofKey w.key)).getLast?.toList.length ≤ 1 := by
    cases (w.seen.filter (Chords.ofKey w.key)).getLast? <;> simp
  omega

/-- A decision, with no event waiting. -/
theorem settle_free {s : State} {b : Board.State} {dn : List Bool} {w : Waiting} {d t : Nat} (h : Hanging s b dn w d t) (w' : Waiting)
    (o : Outcome) (hk : w'.key = w.key) (hpos : w'.pos = w.pos) (hl : w'.kept.length ≤ 31) :
    ∃ s', s.settle r w' o = some s' ∧ Free s' (decide' r b w o) (downs dn o) w'.kept d t := by
  obtain ⟨b', dn', la, w', q', d', t', i1, i2, ts⟩ := s
  obtain ⟨h1, h2, h3, h4, h5, h6⟩ := h
  simp only at h1 h2 h3 h4 h5 h6
  subst h1 h2 h3 h4 h5 h6
  unfold State.settle
  rw [if_pos (by simp only [List.append_nil]; exact hl)]
  refine ⟨_, rfl, ?_⟩
  simp only [hk, hpos]
  cases o <;> exact ⟨rfl, rfl, rfl, by simp, rfl, rfl⟩

/-- Another key is pressed, and the key is decided. -/
theorem hanging_decides {s : State} {b : Board.State} {dn : List Bool} {w : Waiting} {t j : Nat} {o : Outcome} (h : Hanging s b dn w 0 t)
    (hs : w.seen.length < 16) (hp : w.pressed.length < r.size) (hd : w.decided r j = some o) :
    ∃ s', s.input layout r (.press j) = some s' ∧
      Free s' (decide' r b w o) (downs dn o) ({ w with seen := w.seen ++ [InputEvent.press j] } : Waiting).kept 1 t := by
  have hl : ({ w.join r j with seen := w.seen ++ [InputEvent.press j] } : Waiting).kept.length ≤ 31 := by
    have := kept_length ({ w.join r j with seen := w.seen ++ [InputEvent.press j] } : Waiting)
    simp only [List.length_append, List.length_cons, List.length_nil] at this
    exact Nat.le_trans this (by omega)
  obtain ⟨s', h1, h2⟩ := settle_free (r := r) (s := { s with idle := 0, queue := [] }) (b := b) (dn := dn) (w := w) (d := 0) (t := t)
    ⟨h.board, h.down, h.waiting, rfl, h.delay, h.clock⟩ ({ w.join r j with seen := w.seen ++ [InputEvent.press j] } : Waiting) o rfl rfl hl
  refine ⟨{ s' with delay := 1 }, ?_, ⟨h2.board, h2.down, h2.waiting, h2.queue, rfl, h2.clock⟩⟩
  simp only [State.input, h.queue, List.length_nil, show ¬ 0 ≥ 31 by decide, if_false, h.delay, if_true, List.nil_append, State.takeOldest, State.take,
    h.waiting, hs, hp, hd]
  rw [show ({ board := s.board, down := s.down, latest := s.latest, waiting := some w, queue := [], delay := 0, clock := s.clock,
                idle := 0, idleSeen := s.idleSeen, timers := s.timers } : State) = { s with idle := 0, queue := [] } by
        rw [← h.waiting, ← h.delay]]
  rw [h1]
  rfl

/-- The waiting key is released. -/
theorem hanging_release {s : State} {b : Board.State} {dn : List Bool} {w : Waiting} {t : Nat} (h : Hanging s b dn w 0 t)
    (hs : w.seen.length < 16) :
    ∃ s', s.input layout r (.release w.key) = some s' ∧
      Free s' (decide' r b w (w.outcome r)) (downs dn (w.outcome r)) ({ w with seen := w.seen ++ [InputEvent.release w.key] } : Waiting).kept 1 t := by
  have hl := kept_length ({ w with seen := w.seen ++ [InputEvent.release w.key] } : Waiting)
  simp only [List.length_append, List.length_cons, List.length_nil] at hl
  obtain ⟨s', h1, h2⟩ := settle_free (r := r) (s := { s with idle := 0, queue := [] }) (b := b) (dn := dn) (w := w) (d := 0) (t := t)
    ⟨h.board, h.down, h.waiting, rfl, h.delay, h.clock⟩ ({ w with seen := w.seen ++ [InputEvent.release w.key] } : Waiting) (w.outcome r) rfl rfl (by omega)
  refine ⟨{ s' with delay := 1 }, ?_, ⟨h2.board, h2.down, h2.waiting, h2.queue, rfl, h2.clock⟩⟩
  simp only [State.input, h.queue, List.length_nil, show ¬ 0 ≥ 31 by decide, if_false, h.delay, if_true, List.nil_append, State.takeOldest, State.take,
    h.waiting, hs]
  rw [show ({ board := s.board, down := s.down, latest := s.latest, waiting := some w, queue := [], delay := 0, clock := s.clock,
                idle := 0, idleSeen := s.idleSeen, timers := s.timers } : State) = { s with idle := 0, queue := [] } by
        rw [← h.waiting, ← h.delay]]
  rw [h1]
  rfl

/-! ## Decisions -/

theorem decided_none {w : Waiting} {id j : Nat} (hm : id ∈ w.maybe) (hj : j ∈ r.keys id)
    (h : (∃ k ∈ r.keys id, k ≠ j ∧ k ∉ w.pressed) ∨ ∃ id' ∈ w.maybe, id' ≠ id ∧ j ∈ r.keys id') : w.decided r j = none := by
  have hmem : id ∈ (w.join r j).maybe := List.mem_filter.2 ⟨hm, by simpa using hj⟩
  unfold Waiting.decided
  cases hx : (w.join r j).maybe with
  | nil => rw [hx] at hmem; cases hmem
  | cons x xs =>
    cases xs with
    | cons y ys => rfl
    | nil =>
      rw [hx] at hmem
      simp only [List.mem_cons, List.not_mem_nil, or_false] at hmem
      subst hmem
      rcases h with ⟨k, hk, hkj, hkp⟩ | ⟨id', hm', hne, hj'⟩
      · have : (w.join r j).complete r id = false := by
          unfold Waiting.complete
          rw [Bool.eq_false_iff]
          intro hall
          rw [List.all_eq_true] at hall
          have := hall k hk
          simp only [Waiting.join, List.contains_iff_mem, List.mem_cons] at this
          rcases this with this | this
          · exact hkj this
          · exact hkp this
        simp [this]
      · have : id' ∈ (w.join r j).maybe := List.mem_filter.2 ⟨hm', by simpa using hj'⟩
        rw [hx] at this
        simp only [List.mem_cons, List.not_mem_nil, or_false] at this
        exact absurd this hne

theorem singleton_of_nodup {l : List Nat} {x : Nat} (hn : l.Nodup) (hx : x ∈ l) (h : ∀ y ∈ l, y = x) : l = [x] := by
  cases l with
  | nil => cases hx
  | cons y ys =>
    have hy := h y List.mem_cons_self
    subst hy
    cases ys with
    | nil => rfl
    | cons z zs =>
      have hz := h z (by simp)
      subst hz
      simp at hn

theorem decided_chord {w : Waiting} {id j : Nat} (hn : w.maybe.Nodup) (hm : id ∈ w.maybe) (hj : j ∈ r.keys id)
    (hall : ∀ k ∈ r.keys id, k = j ∨ k ∈ w.pressed) (honly : ∀ id' ∈ w.maybe, j ∈ r.keys id' → id' = id) : w.decided r j = some (.chord id) := by
  have hx : (w.join r j).maybe = [id] := by
    refine singleton_of_nodup (hn.filter _) (List.mem_filter.2 ⟨hm, by simpa using hj⟩) ?_
    intro y hy
    obtain ⟨h1, h2⟩ := List.mem_filter.1 hy
    exact honly y h1 (by simpa using h2)
  unfold Waiting.decided
  rw [hx]
  have : (w.join r j).complete r id = true := by
    unfold Waiting.complete
    rw [List.all_eq_true]
    intro k hk
    simp only [Waiting.join, List.contains_iff_mem, List.mem_cons]
    exact hall k hk
  simp [this]

theorem decided_outside {w : Waiting} {j : Nat} (h : ∀ id ∈ w.maybe, j ∉ r.keys id) : w.decided r j = some (w.outcome r) := by
  have hx : (w.join r j).maybe = [] := by
    rw [List.eq_nil_iff_forall_not_mem]
    intro y hy
    obtain ⟨h1, h2⟩ := List.mem_filter.1 hy
    exact h y h1 (by simpa using h2)
  unfold Waiting.decided
  rw [hx]

theorem outcome_chord {w : Waiting} {id : Nat} (hm : id ∈ w.maybe) (hall : ∀ k ∈ r.keys id, k ∈ w.pressed)
    (honly : ∀ id' ∈ w.maybe, (∀ k ∈ r.keys id', k ∈ w.pressed) → id' = id) : w.outcome r = .chord id := by
  have hc : ∀ x, w.complete r x = true ↔ ∀ k ∈ r.keys x, k ∈ w.pressed := by
    intro x
    simp [Waiting.complete, List.all_eq_true]
  unfold Waiting.outcome
  cases hf : w.maybe.find? (w.complete r) with
  | none =>
    rw [List.find?_eq_none] at hf
    exact absurd ((hc id).2 hall) (hf id hm)
  | some x =>
    have h1 := List.mem_of_find?_eq_some hf
    have h2 := List.find?_some hf
    rw [honly x h1 ((hc x).1 h2)]

theorem outcome_alone {w : Waiting} (h : ∀ id ∈ w.maybe, ∃ k ∈ r.keys id, k ∉ w.pressed) : w.outcome r = .alone := by
  unfold Waiting.outcome
  cases hf : w.maybe.find? (w.complete r) with
  | none => rfl
  | some x =>
    have h1 := List.mem_of_find?_eq_some hf
    have h2 := List.find?_some hf
    obtain ⟨k, hk, hn⟩ := h x h1
    simp only [Waiting.complete, List.all_eq_true, List.contains_iff_mem] at h2
    exact absurd (h2 k hk) hn

/-! ## Keys pressed one after the other -/

/-- Calls, a press, calls, a press, ... -/
def joins : List (List Board.Call × Nat) → List Board.Call
  | [] => []
  | (as, j) :: gs => as ++ .input (.press j) :: joins gs

/-- The calls before each press are ticks and reports, at least one tick. -/
def Spread (gs : List (List Board.Call × Nat)) : Prop := ∀ g ∈ gs, eventsIn g.1 = [] ∧ 1 ≤ ticksIn g.1

/-- The ticks of these calls. -/
def ticksOf : List (List Board.Call × Nat) → Nat
  | [] => 0
  | (as, _) :: gs => ticksIn as + ticksOf gs

/-- The keys pressed. -/
def keysOf (gs : List (List Board.Call × Nat)) : List Nat := gs.map Prod.snd

/-- The waiting key after these presses. -/
def joined (r : Rules) (w : Waiting) : List Nat → Waiting
  | [] => w
  | j :: js => joined r ({ w.join r j with seen := w.seen ++ [.press j] } : Waiting) js

theorem joined_facts (w : Waiting) (js : List Nat) :
    (joined r w js).key = w.key ∧ (joined r w js).pos = w.pos ∧ (joined r w js).deadline = w.deadline ∧
    (joined r w js).seen = w.seen ++ js.map InputEvent.press ∧
    (joined r w js).maybe = w.maybe.filter (fun id => js.all (r.keys id).contains) ∧
    (∀ k, k ∈ (joined r w js).pressed ↔ k ∈ js ∨ k ∈ w.pressed) ∧ (joined r w js).pressed.length = w.pressed.length + js.length := by
  induction js generalizing w with
  | nil =>
    refine ⟨rfl, rfl, rfl, by simp [joined], ?_, by simp [joined], rfl⟩
    exact (List.filter_eq_self.2 fun _ _ => rfl).symm
  | cons j js ih =>
    obtain ⟨h1, h2, h3, h4, h5, h6, h7⟩ := ih ({ w.join r j with seen := w.seen ++ [.press j] } : Waiting)
    refine ⟨h1, h2, h3, ?_, ?_, ?_, ?_⟩
    · rw [joined, h4]; simp
    · rw [joined, h5]
      simp only [Waiting.join, List.filter_filter, List.all_cons]
      congr 1
      funext id
      exact Bool.and_comm _ _
    · intro k
      rw [joined, h6]
      simp only [Waiting.join, List.mem_cons]
      constructor
      · rintro (h | h | h)
        · exact .inl (.inr h)
        · exact .inl (.inl h)
        · exact .inr h
      · rintro ((h | h) | h)
        · exact .inr (.inl h)
        · exact .inl h
        · exact .inr (.inr h)
    · rw [joined, h7]
      simp only [Waiting.join, List.length_cons]
      omega

/-- The keys are pressed one after the other, and the key waits on: none of the presses decides. -/
theorem hanging_joins {gs : List (List Board.Call × Nat)} (hgs : Spread gs) {s : State} {b : Board.State} {dn : List Bool} {w : Waiting} {t : Nat}
    (h : Hanging s b dn w 1 t) (hd : t + ticksOf gs * r.ms < w.deadline) (hw : w.deadline ≤ 2 ^ 32) (hs : w.seen.length + gs.length ≤ 16)
    (hp : w.pressed.length + gs.length ≤ r.size)
    (hdec : ∀ (as bs : List Nat) (j : Nat), keysOf gs = as ++ j :: bs → (joined r w as).decided r j = none) :
    ∃ s', s.run layout r (joins gs) = some s' ∧ Hanging s' b dn (joined r w (keysOf gs)) 1 (t + ticksOf gs * r.ms) := by
  induction gs generalizing s w t with
  | nil => exact ⟨s, rfl, by simpa [ticksOf, keysOf, joined] using h⟩
  | cons g gs ih =>
    obtain ⟨as, j⟩ := g
    obtain ⟨ha, hp1⟩ := hgs (as, j) List.mem_cons_self
    simp only at ha hp1
    simp only [ticksOf, Nat.add_mul] at hd ⊢
    simp only [List.length_cons] at hs hp
    obtain ⟨s1, r1, h1⟩ := hanging_ticks (layout := layout) (r := r) (ticksIn as) h (by omega) hw
    rw [show 1 - ticksIn as = 0 by omega] at h1
    obtain ⟨s2, r2, h2⟩ := hanging_press (layout := layout) (r := r) (j := j) h1 (by omega) (by omega)
      (by have := hdec [] (keysOf gs) j rfl; simpa [joined] using this)
    obtain ⟨s3, r3, h3⟩ := ih (fun g hg => hgs g (List.mem_cons_of_mem _ hg)) h2 (by simp only [Waiting.join]; omega) hw
      (by simp only [List.length_append, List.length_cons, List.length_nil]; omega)
      (by simp only [Waiting.join, List.length_cons]; omega)
      (by
        intro as' bs' j' hk
        have := hdec (j :: as') bs' j' (by simp only [keysOf, List.map_cons, List.cons_append]; rw [← hk]; rfl)
        simpa [joined] using this)
    refine ⟨s3, ?_, ?_⟩
    · simp only [joins, run_append, run_ticks s ha, r1, Option.bind_some, State.run, r2]
      exact r3
    · rw [show t + (ticksIn as * r.ms + ticksOf gs * r.ms) = t + ticksIn as * r.ms + ticksOf gs * r.ms by omega]
      exact h3

theorem kept_presses {w : Waiting} {js : List Nat} (hs : w.seen = js.map InputEvent.press) (hk : w.key ∉ js) : w.kept = js.map InputEvent.press := by
  have h1 : ∀ e ∈ w.seen, Chords.ofKey w.key e = false := by
    intro e he
    rw [hs, List.mem_map] at he
    obtain ⟨j, hj, rfl⟩ := he
    simp only [Chords.ofKey, decide_eq_false_iff_not]
    rintro rfl
    exact hk hj
  unfold Waiting.kept
  have h2 : w.seen.filter (Chords.ofKey w.key) = [] := List.filter_eq_nil_iff.2 fun e he => by simp [h1 e he]
  have h3 : w.seen.filter (fun e => !Chords.ofKey w.key e) = w.seen := List.filter_eq_self.2 fun e he => by simp [h1 e he]
  rw [h2, h3, hs]
  simp

/-! ## The other keys of a chord that is down -/

theorem find?_only {l : List Nat} {p : Nat → Bool} {x : Nat} (hx : x ∈ l) (hp : p x = true) (h : ∀ y ∈ l, p y = true → y = x) : l.find? p = some x := by
  cases hf : l.find? p with
  | none => rw [List.find?_eq_none] at hf; exact absurd hp (hf x hx)
  | some y => rw [h y (List.mem_of_find?_eq_some hf) (List.find?_some hf)]

theorem pick_held (e : Entry) (b : Board.State) (h : List (Nat × Cell)) : e.pick { b with held := h } = e.pick b := by
  cases e <;> rfl

/-- The keys are held, for the chord. -/
def holdAll (layout : List Pos) (r : Rules) (id : Nat) (b : Board.State) : List Nat → Board.State
  | [] => b
  | k :: ks => holdAll layout r id (Chords.hold b k ((((layout[k]?).getD (.plain (.cell .nothing))).entry r k (.chord id)).pick b)) ks

theorem hold_nothing (b : Board.State) (k : Nat) : Chords.hold b k .nothing = { b with held := b.held ++ [(k, .nothing)] } := rfl

/-- The chord's entry is that of its first key; the other keys have none. -/
structure Does (layout : List Pos) (r : Rules) (id f : Nat) (e : Entry) : Prop where
  head : (r.keys id).head? = some f
  first : ∃ cs a, layout[f]? = some (.first cs a) ∧ cs.lookup id = some e
  members : ∀ k ∈ r.keys id, ∃ p, layout[k]? = some p ∧ ∀ e, p ≠ .plain e

theorem Does.entry {id f : Nat} {e : Entry} (h : Does layout r id f e) {k : Nat} (hk : k ∈ r.keys id) :
    ((layout[k]?).getD (.plain (.cell .nothing))).entry r k (.chord id) = if k = f then e else .cell .nothing := by
  by_cases hf : k = f
  · subst hf
    obtain ⟨cs, a, h1, h2⟩ := h.first
    rw [if_pos rfl, h1]
    simp only [Option.getD_some, Pos.entry, h.head, if_true, h2]
  · obtain ⟨p, h1, h2⟩ := h.members k hk
    rw [if_neg hf, h1]
    cases p with
    | plain e => exact absurd rfl (h2 e)
    | other a => rfl
    | first cs a =>
      simp only [Option.getD_some, Pos.entry, h.head, Option.some.injEq]
      rw [if_neg (fun h => hf h.symm)]

theorem holdAll_outputs {id f : Nat} {e : Entry} (h : Does layout r id f e) (ks : List Nat) (hk : ∀ k ∈ ks, k ∈ r.keys id) (hn : ks.Nodup) (b : Board.State) :
    (holdAll layout r id b ks).outputs = b.outputs ++ if f ∈ ks then (e.pick b).output.toList else [] := by
  induction ks generalizing b with
  | nil => simp [holdAll]
  | cons k ks ih =>
    rw [List.nodup_cons] at hn
    have hk' : ∀ k ∈ ks, k ∈ r.keys id := fun x hx => hk x (List.mem_cons_of_mem _ hx)
    rw [holdAll, h.entry (hk k List.mem_cons_self), ih hk' hn.2]
    by_cases hf : k = f
    · subst hf
      rw [if_pos rfl, if_neg hn.1, if_pos List.mem_cons_self, List.append_nil]
      exact Comp.hold_outputs b k (e.pick b)
    · have hf' : ¬ f = k := fun h => hf h.symm
      have hb : (Entry.cell .nothing).pick b = .nothing := rfl
      rw [if_neg hf, hb, hold_nothing, pick_held]
      have : ({ b with held := b.held ++ [(k, Cell.nothing)] } : Board.State).outputs = b.outputs := by
        simp [Board.State.outputs, Cell.output]
      rw [this]
      simp only [List.mem_cons, hf', false_or]

theorem holdAll_held (id : Nat) (ks : List Nat) (b : Board.State) : (holdAll layout r id b ks).held.map Prod.fst = b.held.map Prod.fst ++ ks := by
  induction ks generalizing b with
  | nil => simp [holdAll]
  | cons k ks ih => rw [holdAll, ih, hold_held]; simp

theorem holdAll_append (id : Nat) (as bs : List Nat) (b : Board.State) :
    holdAll layout r id b (as ++ bs) = holdAll layout r id (holdAll layout r id b as) bs := by
  induction as generalizing b with
  | nil => rfl
  | cons a as ih => simp only [List.cons_append, holdAll, ih]

/-- What is down, seen from the flags. -/
def downAt (dn : List Bool) (id : Nat) : Bool := (dn[id]?).getD false

/-- The kept presses of the other keys of a chord that is down are taken, one per tick. -/
theorem free_joins {id : Nat} {dn : List Bool} (hid : id < r.chords.length) (hdn : downAt dn id = true)
    (honly : ∀ id' k, id' < r.chords.length → downAt dn id' = true → k ∈ r.keys id → k ∈ r.keys id' → id' = id)
    (hspan : (Chords.once [] ((r.ids.filter (downAt dn)).flatMap r.keys)).length ≤ r.room)
    (hmem : ∀ k ∈ r.keys id, ∃ p, layout[k]? = some p ∧ ∀ e, p ≠ .plain e) (m : Nat)
    {ks : List Nat} (hk : ∀ k ∈ ks, k ∈ r.keys id) (hn : ks.Nodup) {s : State} {b : Board.State} {t : Nat}
    (hh : ∀ k ∈ ks, k ∉ b.held.map Prod.fst) (h16 : b.held.length + ks.length ≤ 16) (hroom : b.held.length + ks.length ≤ r.room)
    {q : List InputEvent} (hq : q = [] ∨ m ≤ ks.length) (h : Free s b dn (ks.map InputEvent.press ++ q) 0 t) (hc : t + m * r.ms < 2 ^ 32) :
    ∃ s', s.run layout r (List.replicate m .tick) = some s' ∧
      Free s' (holdAll layout r id b (ks.take m)) dn ((ks.drop m).map InputEvent.press ++ q) 0 (t + m * r.ms) := by
  induction m generalizing ks s b t with
  | zero => exact ⟨s, rfl, by simpa [holdAll] using h⟩
  | succ m ih =>
    have hm : (m + 1) * r.ms = m * r.ms + r.ms := by rw [Nat.add_mul, Nat.one_mul]
    cases ks with
    | nil =>
      have hq : q = [] := by
        rcases hq with hq | hq
        · exact hq
        · simp at hq
      subst hq
      obtain ⟨s1, h1, h2⟩ := free_ticks (layout := layout) (r := r) (m + 1) h hc
      exact ⟨s1, h1, by simpa [holdAll] using h2⟩
    | cons k ks =>
      rw [List.nodup_cons] at hn
      simp only [List.length_cons] at h16 hroom
      have hkm := hk k List.mem_cons_self
      obtain ⟨p, hp1, hp2⟩ := hmem k hkm
      have htake : ∀ s, Free s b dn (ks.map InputEvent.press ++ q) 0 t → ∃ s', s.take layout r (.press k) = some s' ∧
          Free s' (Chords.hold b k ((((layout[k]?).getD (.plain (.cell .nothing))).entry r k (.chord id)).pick b)) dn (ks.map InputEvent.press ++ q) 0 t := by
        intro s hs
        have hdown : s.downWith r k = some id := by
          unfold State.downWith
          refine find?_only (List.mem_range.2 hid) ?_ ?_
          · simp only [State.isDown, hs.down, Bool.and_eq_true]
            exact ⟨hdn, by simpa using hkm⟩
          · intro y hy hpy
            simp only [State.isDown, hs.down, Bool.and_eq_true] at hpy
            exact honly y k (List.mem_range.1 hy) hpy.1 hkm (by simpa using hpy.2)
        have hbusy : s.busy r = (r.ids.filter (downAt dn)).flatMap r.keys := by
          unfold State.busy
          congr 2
          funext x
          simp only [State.isDown, hs.down, downAt]
        have hnh : s.board.holds k = false := by
          rw [Bool.eq_false_iff, hs.board]
          intro hx
          exact hh k List.mem_cons_self (holds_iff.1 hx)
        refine ⟨{ s with board := Chords.hold b k ((p.entry r k (.chord id)).pick b) }, ?_, ?_⟩
        · simp only [State.take, hs.waiting]
          rw [if_pos (by rw [hbusy]; exact hspan), hnh]
          simp only [Bool.false_eq_true, if_false]
          rw [if_pos (by rw [hs.board]; constructor <;> omega), hp1]
          simp only [Option.bind_some]
          rw [press_chorded hp2, hdown]
          simp only [hs.board, hs.waiting]
        · exact ⟨by rw [hp1]; rfl, hs.down, hs.waiting, hs.queue, hs.delay, hs.clock⟩
      obtain ⟨s1, h1, h2⟩ := free_take (layout := layout) (r := r) (e := .press k) (q := ks.map InputEvent.press ++ q)
        (b' := Chords.hold b k ((((layout[k]?).getD (.plain (.cell .nothing))).entry r k (.chord id)).pick b)) (dn' := dn) h htake (by omega)
      obtain ⟨s2, h3, h4⟩ := ih (fun x hx => hk x (List.mem_cons_of_mem _ hx)) hn.2
        (by
          intro x hx
          rw [hold_held, List.mem_append, List.mem_singleton]
          rintro (hm | rfl)
          · exact hh x (List.mem_cons_of_mem _ hx) hm
          · exact hn.1 hx)
        (by have := congrArg List.length (hold_held b k ((((layout[k]?).getD (.plain (.cell .nothing))).entry r k (.chord id)).pick b))
            simp only [List.length_map, List.length_append, List.length_cons, List.length_nil] at this
            omega)
        (by have := congrArg List.length (hold_held b k ((((layout[k]?).getD (.plain (.cell .nothing))).entry r k (.chord id)).pick b))
            simp only [List.length_map, List.length_append, List.length_cons, List.length_nil] at this
            omega) (hq.imp (fun h => h) fun h => by simpa using h) h2 (by omega)
      refine ⟨s2, by simp only [List.replicate_succ, State.run, h1, Option.bind_some, h3], ?_⟩
      rw [show t + (m + 1) * r.ms = t + r.ms + m * r.ms by omega]
      simpa [holdAll] using h4

end Verif.Comp.CH
