import Verif.Lemmas.Scheduler
import Verif.StdSearch

/-!
# C09, C10, C11: the event scheduler

The statements quantify over every behaviour `S` of the standard library's `binary_search_by`.
-/

namespace Verif

variable {E : Type}

/-- C09, never early: at any time, an event has been handed out at most as often as it was requested
with a due time that has been reached. -/
theorem C09_never_early [DecidableEq E] (S : Search) (ops : List (SOp E)) (s : Sched E)
    (outs : List (Option (Event E))) (h : srun S Sched.new ops = .ok (s, outs)) (e : Event E) :
    outs.count (some e) ≤
      (Spec.requests 0 ops).countP (fun r => decide (r.1 = e) && decide (r.2 ≤ Spec.clock ops)) := by
  have hc := srun_clock h
  have := (conservation e (Spec.clock ops) h (by simp [hc, Sched.new])).1
  simp only [Sched.new, waiting, reqs, List.countP_nil, List.count_nil, Nat.add_zero] at this ⊢
  omega

/-- C09, what a tick does: nothing if nothing is due; otherwise exactly one of the waiting events
with the smallest due time is handed out, and it is due. -/
theorem C09_tick (S : Search) (s s' : Sched E) (d : Nat) (hr : SReachable S s) (h : s.tick d = .ok s') :
    s'.counter = s.counter + d ∧
    ((s'.scheduled = s.scheduled ∧ s'.pending = s.pending ∧ ∀ y ∈ s.scheduled, s'.counter < y.time) ∨
     (∃ x, x.time ≤ s'.counter ∧ s.scheduled.Perm (x :: s'.scheduled) ∧ (∀ y ∈ s.scheduled, x.time ≤ y.time) ∧
       s'.pending = s.pending ++ [if x.live then some x.event else none])) := by
  refine ⟨Sched.tick_counter h, ?_⟩
  obtain ⟨_, (⟨rfl, hno⟩ | ⟨t, rest, he, ht, _, rfl⟩)⟩ := Sched.tick_eq_ok h
  · left
    refine ⟨rfl, rfl, fun y hy => ?_⟩
    cases hs : s.scheduled with
    | nil => simp [hs] at hy
    | cons t rest =>
      have h1 := hno t (by simp [hs])
      rw [hs] at hy
      rcases List.mem_cons.1 hy with rfl | hy
      · exact h1
      · exact Nat.lt_of_lt_of_le h1 (hr.sorted.head_le hs y hy)
  · right
    refine ⟨t, ht, by simp [he], fun y hy => ?_, rfl⟩
    rw [he] at hy
    rcases List.mem_cons.1 hy with rfl | hy
    · exact Nat.le_refl _
    · exact hr.sorted.head_le he y hy

/-- C09, due order: as time passes, the events handed out are the live ones among a list `fired` of
waiting events in due order, and everything that still waits is due no earlier than any of them. -/
theorem C09_due_order (S : Search) (s s' : Sched E) (k : Nat) (outs : List (Option (Event E)))
    (hr : SReachable S s) (hp : s.pending = [])
    (h : srun S s (Spec.milliseconds k) = .ok (s', outs)) :
    ∃ fired : List (Timed E), outs.filterMap id = (fired.filter Timed.live).map Timed.event ∧
      (fired ++ s'.scheduled).Perm s.scheduled ∧
      fired.Pairwise (fun x y => x.time ≤ y.time) ∧
      ∀ x ∈ fired, ∀ y ∈ s'.scheduled, x.time ≤ y.time := by
  obtain ⟨_, fired, h1, h2⟩ := ms_prefix h hp
  have hs := hr.sorted
  unfold Sched.Sorted at hs
  rw [h1, List.map_append, List.pairwise_append] at hs
  refine ⟨fired, h2, by rw [h1], ?_, ?_⟩
  · exact List.pairwise_map.1 hs.1
  · intro x hx y hy
    exact hs.2.2 _ (List.mem_map_of_mem hx) _ (List.mem_map_of_mem hy)

/-- C10, conservation: a request for an event whose key is not cancelled is either handed out, or in
the queue, or waiting; never lost, never duplicated. -/
theorem C10_conservation [DecidableEq E] (S : Search) (ops : List (SOp E)) (s : Sched E)
    (outs : List (Option (Event E))) (h : srun S Sched.new ops = .ok (s, outs)) (e : Event E)
    (hc : Spec.cancelled e ops = false) :
    (Spec.requests 0 ops).countP (fun r => decide (r.1 = e)) =
      outs.count (some e) + s.pending.count (some e) +
        s.scheduled.countP (fun t => decide (t.event = e) && t.live) := by
  -- choose a time after everything
  obtain ⟨T, hT1, hT2, hT3⟩ : ∃ T, s.counter ≤ T ∧ (∀ t ∈ s.scheduled, t.time ≤ T) ∧
      (∀ r ∈ Spec.requests 0 ops, r.2 ≤ T) := by
    refine ⟨s.counter + (s.scheduled.map Timed.time).sum + ((Spec.requests 0 ops).map (·.2)).sum,
      by omega, fun t ht => ?_, fun r hr => ?_⟩
    · have := le_sum_of_mem (List.mem_map_of_mem (f := Timed.time) ht); omega
    · have := le_sum_of_mem (List.mem_map_of_mem (f := fun r : Event E × Nat => r.2) hr)
      omega
  have := (conservation e T h hT1).2 hc
  have e1 : waiting T e s.scheduled = s.scheduled.countP (fun t => decide (t.event = e) && t.live) := by
    apply List.countP_congr
    intro t ht
    simp [hT2 t ht]
  have e2 : reqs T e (Spec.requests 0 ops) = (Spec.requests 0 ops).countP (fun r => decide (r.1 = e)) := by
    apply List.countP_congr
    intro r hr
    simp [hT3 r hr]
  have e3 : reqs T e (Spec.requests (Sched.new : Sched E).counter ops) = _ := e2
  rw [e1, e3] at this
  simp only [Sched.new, waiting, List.countP_nil, List.count_nil, Nat.add_zero] at this
  omega

/-- C10, exactly once: if all requests are due within `D` ms, then after that time plus one
millisecond for every event still in the scheduler, every event whose key was not cancelled has been
handed out exactly as often as it was requested. -/
theorem C10_exactly_once [DecidableEq E] (S : Search) (ops : List (SOp E)) (D k : Nat) (s s' : Sched E)
    (o1 outs : List (Option (Event E))) (h1 : srun S Sched.new ops = .ok (s, o1))
    (hD : ∀ r ∈ Spec.requests 0 ops, r.2 ≤ Spec.clock ops + D)
    (hk : D + s.scheduled.length + s.pending.length ≤ k)
    (h : srun S Sched.new (ops ++ Spec.milliseconds k) = .ok (s', outs))
    (e : Event E) (hc : Spec.cancelled e ops = false) :
    outs.count (some e) = (Spec.requests 0 ops).countP (fun r => decide (r.1 = e)) := by
  obtain ⟨s1, p1, p2, g1, g2, rfl⟩ := srun_append_ok h
  rw [h1] at g1
  simp only [Res.ok.injEq, Prod.mk.injEq] at g1
  obtain ⟨rfl, rfl⟩ := g1
  have hcl := srun_clock h1
  obtain ⟨d1, d2⟩ := ms_drains (D := D) g2 (by
    intro t ht
    rcases waiting_requested h1 t ht with hm | ⟨t0, h0, _⟩
    · have := hD _ hm
      simp only [Sched.new] at hcl; simp only at this; omega
    · simp [Sched.new] at h0) hk
  have msreq : ∀ (k now : Nat), Spec.requests now (Spec.milliseconds k : List (SOp E)) = [] := by
    intro k
    induction k with
    | zero => intro now; rfl
    | succ k ih => intro now; simp [Spec.milliseconds, Spec.requests, ih]
  have hreq : ∀ (ops : List (SOp E)) (now : Nat), Spec.requests now (ops ++ Spec.milliseconds k) = Spec.requests now ops := by
    intro ops
    induction ops with
    | nil => intro now; simpa [Spec.requests] using msreq k now
    | cons op ops ih =>
      intro now
      cases op with
      | schedule se =>
        obtain ⟨sch, ev⟩ := se
        cases sch <;> simp [Spec.requests, ih]
      | _ => simp [Spec.requests, ih]
  have mscan : ∀ k, Spec.cancelled e (Spec.milliseconds k : List (SOp E)) = false := by
    intro k
    induction k with
    | zero => rfl
    | succ k ih => simpa [Spec.milliseconds, Spec.cancelled] using ih
  have hcan : Spec.cancelled e (ops ++ Spec.milliseconds k) = false := by
    have a := mscan k
    unfold Spec.cancelled at *
    rw [List.any_append, hc, a]; rfl
  have := C10_conservation S _ s' _ h e hcan
  rw [hreq, d1, d2] at this
  simpa using this.symm

/-- C10, bounded delay: an event with `pre` ahead of it leaves the schedule within its remaining
time plus one millisecond for each event ahead of it. -/
theorem C10_bounded_delay (S : Search) (s s' : Sched E) (k : Nat) (outs : List (Option (Event E)))
    (pre post : List (Timed E)) (x : Timed E) (hr : SReachable S s) (e : s.scheduled = pre ++ x :: post)
    (hk : (x.time - s.counter) + pre.length + 1 ≤ k)
    (h : srun S s (Spec.milliseconds k) = .ok (s', outs)) : ∃ l, post = l ++ s'.scheduled :=
  ms_handed_out h hr.sorted e hk

/-- C10, cancellation: after the events of key `i` are cancelled, none of them is handed out until
one is requested again (events already moved to the queue excepted). -/
theorem C10_cancelled_never_fires (S : Search) (s s' : Sched E) (i : Nat) (ops : List (SOp E))
    (outs : List (Option (Event E)))
    (hp : ∀ e, some e ∈ s.pending → Spec.ofKey i e = false)
    (hq : ∀ r ∈ Spec.requests s.counter ops, Spec.ofKey i r.1 = false)
    (h : srun S s (.cancel i :: ops) = .ok (s', outs)) :
    ∀ e, some e ∈ outs → Spec.ofKey i e = false := by
  refine no_key_events (s := s.cancel i) i ?_ hp hq h
  intro t ht hk
  obtain ⟨t1, h3, rfl⟩ := List.mem_map.1 ht
  rw [Sched.cancelOne_event] at hk
  rw [Sched.cancelOne_live, hk]; simp

/-- C10, no interference: what `dequeue` returns, apart from events of key `i`, is the same with and
without the cancellations of key `i`, call by call. -/
theorem C10_cancel_only_own (S : Search) (i : Nat) (ops : List (SOp E)) (s s1 : Sched E)
    (o1 : List (Option (Event E))) (h : srun S s ops = .ok (s1, o1)) :
    ∃ s2 o2, srun S s (Spec.withoutCancel i ops) = .ok (s2, o2) ∧
      o1.map (Spec.hide i) = o2.map (Spec.hide i) :=
  sameBut_run i ⟨rfl, rfl, rfl⟩ h

/-- C11, for states in which no waiting event is overdue: the reported time is exactly the time to
the earliest waiting event. -/
theorem C11_next_event_time_partial (S : Search) (s : Sched E) (hr : SReachable S s) (hp : s.pending = [])
    (hd : ∀ t ∈ s.scheduled, s.counter ≤ t.time) :
    ∃ r, s.nextEventTime = .ok r ∧ (r = none ↔ s.scheduled = []) ∧
      ∀ d, r = some d → (∃ t ∈ s.scheduled, t.time = s.counter + d) ∧
        ∀ t ∈ s.scheduled, s.counter + d ≤ t.time := by
  unfold Sched.nextEventTime
  rw [hp]
  cases hs : s.scheduled with
  | nil => exact ⟨none, rfl, by simp, by simp⟩
  | cons t rest =>
    have h1 := hd t (by simp [hs])
    simp only [h1, if_true]
    refine ⟨_, rfl, by simp, ?_⟩
    intro d hd'
    simp only [Option.some.injEq] at hd'
    refine ⟨⟨t, by simp, by omega⟩, fun y hy => ?_⟩
    rcases List.mem_cons.1 hy with rfl | hy
    · omega
    · have := hr.sorted.head_le hs y hy; omega

/-- C11, never oversleeps: whenever a number is returned, no waiting event is due before it has
elapsed, unless it is already overdue and the number is 0. -/
theorem C11_never_oversleeps (S : Search) (s : Sched E) (hr : SReachable S s) (d : Nat)
    (h : s.nextEventTime = .ok (some d)) : ∀ t ∈ s.scheduled, d = 0 ∨ s.counter + d ≤ t.time := by
  unfold Sched.nextEventTime at h
  intro y hy
  split at h
  · simp at h; left; exact h.symm
  · split at h
    · simp at h
    · rename_i t rest hs
      split at h
      · simp at h
        right
        rw [hs] at hy
        rcases List.mem_cons.1 hy with rfl | hy
        · omega
        · have := hr.sorted.head_le hs y hy; omega
      · simp at h

/-- The full claim C11: in every reachable state with an empty queue, the call returns the time to
the earliest waiting event, and that is positive (nothing needs processing yet). -/
def C11_full (E : Type) : Prop := ∀ (S : Search) (s : Sched E), SReachable S s → s.pending = [] →
    s.scheduled = [] ∨ ∃ d, s.nextEventTime = .ok (some d) ∧ 0 < d

section Examples

private def ev (n : Nat) : Event Nat := .key n 0

/-- C11 fails: two events due at the same time leave one overdue after the tick; the time reported is
0 although the queue is empty. -/
theorem C11_refuted_zero : ¬ C11_full Nat := by
  intro h
  have := h Search.std ⟨[], [⟨5, ev 2, true⟩], 5⟩
    ⟨[.schedule (.after 5 (ev 1)), .schedule (.after 5 (ev 2)), .tick 5, .dequeue], [some (ev 1)], by decide⟩ rfl
  rcases this with h | ⟨d, h, h0⟩
  · simp at h
  · simp [Sched.nextEventTime] at h; omega

/-- Three events due at the same time: the subtraction in `next_event_time` overflows. -/
theorem C11_refuted_overflow : ∃ s : Sched Nat, SReachable Search.std s ∧ s.pending = [] ∧
    s.nextEventTime = .panic .arith :=
  ⟨⟨[], [⟨5, ev 2, true⟩], 6⟩,
    ⟨[.schedule (.after 5 (ev 1)), .schedule (.after 5 (ev 2)), .schedule (.after 5 (ev 3)),
      .tick 5, .dequeue, .tick 1, .dequeue], [some (ev 1), some (ev 3)], by decide⟩, rfl, by decide⟩

/-- Events due at the same time are not always handed out in the order requested. -/
theorem C09_equal_due_not_fifo : ∃ s, srun Search.std (Sched.new : Sched Nat)
    [.schedule (.after 5 (ev 1)), .schedule (.after 5 (ev 2)), .schedule (.after 5 (ev 3)),
      .tick 5, .dequeue, .tick 1, .dequeue, .tick 1, .dequeue] =
    .ok (s, [some (ev 1), some (ev 3), some (ev 2)]) :=
  ⟨⟨[], [], 7⟩, by decide⟩

/-- A history with two keys, a cancellation and two ticks; the theorems above apply to it. -/
example : srun Search.std (Sched.new : Sched Nat)
    [.schedule (.after 5 (ev 1)), .schedule (.after 3 (ev 2)), .cancel 1, .schedule (.imm (ev 4)), .dequeue,
      .tick 3, .dequeue, .tick 2, .dequeue] =
    .ok (⟨[], [], 5⟩, [some (ev 4), some (ev 2), none]) := by decide

example : SReachable Search.std (⟨[], [⟨3, ev 2, true⟩, ⟨5, ev 1, true⟩], 1⟩ : Sched Nat) :=
  ⟨[.schedule (.after 5 (ev 1)), .schedule (.after 3 (ev 2)), .tick 1], [], by decide⟩

end Examples

end Verif
