import Verif.Spec.Scheduler
import Verif.Lemmas.List

/-! # Lemmas about the scheduler -/

namespace Verif

variable {E : Type}

/-- Soonest first. -/
def Sched.Sorted (s : Sched E) : Prop := (s.scheduled.map Timed.time).Pairwise (· ≤ ·)

namespace Sched

theorem new_sorted : (Sched.new : Sched E).Sorted := by simp [Sched.Sorted, Sched.new]

theorem enqueue_eq_ok {s s' : Sched E} {e} :
    s.enqueue e = .ok s' ↔ s.pending.length < pendingCap ∧ s' = { s with pending := s.pending ++ [e] } := by
  unfold enqueue pushCap
  by_cases h : s.pending.length < pendingCap
  · simp [h, eq_comm]
  · simp [h]

theorem scheduleAfter_eq_ok {S : Search} {s s' : Sched E} {d e} :
    s.scheduleAfter S d e = .ok s' ↔ s.counter + d < u32Size ∧ s.scheduled.length < scheduledCap ∧
      s' = { s with scheduled := s.scheduled.take (S.pos (s.scheduled.map Timed.time) (s.counter + d)) ++
              ⟨s.counter + d, e, true⟩ :: s.scheduled.drop (S.pos (s.scheduled.map Timed.time) (s.counter + d)) } := by
  unfold scheduleAfter
  by_cases h : s.counter + d < u32Size
  · by_cases h2 : s.scheduled.length < scheduledCap
    · simp [h, h2, eq_comm]
    · simp [h, h2]
  · simp [h]

theorem insert_sorted {S : Search} {l : List (Timed E)} {x : Timed E}
    (h : (l.map Timed.time).Pairwise (· ≤ ·)) :
    ((l.take (S.pos (l.map Timed.time) x.time) ++ x :: l.drop (S.pos (l.map Timed.time) x.time)).map
      Timed.time).Pairwise (· ≤ ·) := by
  have hb := S.before _ x.time h
  have ha := S.after _ x.time h
  generalize S.pos (l.map Timed.time) x.time = k at *
  rw [List.map_append, List.map_cons, List.map_take, List.map_drop]
  rw [List.pairwise_append]
  refine ⟨h.sublist (List.take_sublist _ _), ?_, ?_⟩
  · rw [List.pairwise_cons]
    exact ⟨ha, h.sublist (List.drop_sublist _ _)⟩
  · intro a hm b hm'
    rcases List.mem_cons.1 hm' with rfl | hm'
    · exact hb a hm
    · exact Nat.le_trans (hb a hm) (ha b hm')

theorem insert_perm (l : List (Timed E)) (x : Timed E) (k : Nat) :
    (l.take k ++ x :: l.drop k).Perm (x :: l) := by
  have : (l.take k ++ x :: l.drop k).Perm (x :: (l.take k ++ l.drop k)) := List.perm_middle
  rwa [List.take_append_drop] at this

theorem scheduleEvent_cases {S : Search} {s s' : Sched E} {e : SchEv E} (h : s.scheduleEvent S e = .ok s') :
    (e.schedule = .immediate ∧ s.pending.length < pendingCap ∧
      s' = { s with pending := s.pending ++ [some e.event] }) ∨
    (∃ d, e.schedule = .after d ∧ s.scheduleAfter S d e.event = .ok s') := by
  unfold scheduleEvent at h
  split at h
  · rename_i hs
    left; exact ⟨hs, enqueue_eq_ok.1 h⟩
  · rename_i d hs
    right; exact ⟨d, hs, h⟩

theorem scheduleAfter_spec {S : Search} {s s' : Sched E} {d e} (h : s.scheduleAfter S d e = .ok s') :
    s'.pending = s.pending ∧ s'.counter = s.counter ∧
    s'.scheduled.Perm (⟨s.counter + d, e, true⟩ :: s.scheduled) ∧ (s.Sorted → s'.Sorted) := by
  obtain ⟨_, _, rfl⟩ := scheduleAfter_eq_ok.1 h
  refine ⟨rfl, rfl, insert_perm _ _ _, fun hs => ?_⟩
  exact insert_sorted (x := ⟨s.counter + d, e, true⟩) hs

@[simp] theorem cancelOne_time (i : Nat) (t : Timed E) : (cancelOne i t).time = t.time := by
  unfold cancelOne; split
  · split <;> rfl
  · rfl

@[simp] theorem cancelOne_event (i : Nat) (t : Timed E) : (cancelOne i t).event = t.event := by
  unfold cancelOne; split
  · split <;> rfl
  · rfl

theorem cancelOne_live (i : Nat) (t : Timed E) : (cancelOne i t).live = (t.live && !Spec.ofKey i t.event) := by
  unfold cancelOne Spec.ofKey; split
  · rename_i ki _ h
    by_cases hh : ki = i
    · subst hh; simp [h]
    · have : i ≠ ki := Ne.symm hh
      simp [hh, this, h]
  · rename_i h
    cases he : t.event with
    | key j x => exact absurd he (h j x)
    | _ => simp

theorem cancel_times (s : Sched E) (i : Nat) : (s.cancel i).scheduled.map Timed.time = s.scheduled.map Timed.time := by
  simp [cancel, Function.comp_def]

theorem cancel_sorted {s : Sched E} (i : Nat) (h : s.Sorted) : (s.cancel i).Sorted := by
  unfold Sorted; rw [cancel_times]; exact h

theorem tick_eq_ok {s s' : Sched E} {d} (h : s.tick d = .ok s') :
    s.counter + d < u32Size ∧
    ((s' = { s with counter := s.counter + d } ∧ ∀ t, s.scheduled.head? = some t → s.counter + d < t.time) ∨
     (∃ t rest, s.scheduled = t :: rest ∧ t.time ≤ s.counter + d ∧ s.pending.length < pendingCap ∧
      s' = ⟨s.pending ++ [if t.live then some t.event else none], rest, s.counter + d⟩)) := by
  unfold tick at h
  by_cases hc : s.counter + d < u32Size
  · refine ⟨hc, ?_⟩
    simp only [hc, if_true] at h
    split at h
    · rename_i t rest hs
      split at h
      · rename_i ht
        right
        obtain ⟨h1, rfl⟩ := enqueue_eq_ok.1 h
        exact ⟨t, rest, hs, ht, h1, rfl⟩
      · rename_i ht
        left
        refine ⟨by simpa [eq_comm] using h, fun t' ht' => ?_⟩
        simp only [hs, List.head?_cons, Option.some.injEq] at ht'
        subst ht'; omega
    · rename_i hs
      left
      refine ⟨by simpa [eq_comm] using h, fun t' ht' => ?_⟩
      simp [hs] at ht'
  · simp [hc] at h

theorem tick_sorted {s s' : Sched E} {d} (h : s.tick d = .ok s') (hs : s.Sorted) : s'.Sorted := by
  obtain ⟨_, (⟨rfl, _⟩ | ⟨t, rest, e, _, _, rfl⟩)⟩ := tick_eq_ok h
  · exact hs
  · unfold Sorted at *
    rw [e] at hs
    exact (List.pairwise_cons.1 hs).2

theorem tick_counter {s s' : Sched E} {d} (h : s.tick d = .ok s') : s'.counter = s.counter + d := by
  obtain ⟨_, (⟨rfl, _⟩ | ⟨t, rest, e, _, _, rfl⟩)⟩ := tick_eq_ok h <;> rfl

theorem dequeue_sorted {s : Sched E} (hs : s.Sorted) : s.dequeue.2.Sorted := by
  unfold dequeue; split <;> exact hs

theorem scheduleEvent_sorted {S : Search} {s s' : Sched E} {e} (h : s.scheduleEvent S e = .ok s')
    (hs : s.Sorted) : s'.Sorted := by
  rcases scheduleEvent_cases h with ⟨_, _, rfl⟩ | ⟨d, _, h⟩
  · exact hs
  · exact (scheduleAfter_spec h).2.2.2 hs

theorem scheduleAll_sorted {S : Search} {es : KeyEvents E} {s s' : Sched E}
    (h : s.scheduleAll S es = .ok s') (hs : s.Sorted) : s'.Sorted := by
  induction es generalizing s with
  | nil => simp only [scheduleAll, Res.ok.injEq] at h; exact h ▸ hs
  | cons e es ih =>
    simp only [scheduleAll, Res.bind_eq_ok] at h
    obtain ⟨s1, h1, h2⟩ := h
    exact ih h2 (scheduleEvent_sorted h1 hs)

end Sched

theorem srun_sorted {S : Search} {ops : List (SOp E)} {s s' : Sched E} {outs}
    (h : srun S s ops = .ok (s', outs)) (hs : s.Sorted) : s'.Sorted := by
  induction ops generalizing s outs with
  | nil => simp only [srun, Res.ok.injEq, Prod.mk.injEq] at h; exact h.1 ▸ hs
  | cons op ops ih =>
    cases op with
    | schedule e =>
      simp only [srun, Res.bind_eq_ok] at h
      obtain ⟨s1, h1, h2⟩ := h
      exact ih h2 (Sched.scheduleEvent_sorted h1 hs)
    | cancel i => exact ih h (Sched.cancel_sorted i hs)
    | tick d =>
      simp only [srun, Res.bind_eq_ok] at h
      obtain ⟨s1, h1, h2⟩ := h
      exact ih h2 (Sched.tick_sorted h1 hs)
    | dequeue =>
      simp only [srun, Res.bind_eq_ok, Res.pure_eq, Res.ok.injEq, Prod.mk.injEq] at h
      obtain ⟨⟨s1, o1⟩, h1, rfl, rfl⟩ := h
      exact ih h1 (Sched.dequeue_sorted hs)

theorem SReachable.sorted {S : Search} {s : Sched E} (h : SReachable S s) : s.Sorted := by
  obtain ⟨ops, outs, h⟩ := h
  exact srun_sorted h Sched.new_sorted

theorem Sched.Sorted.head_le {s : Sched E} (h : s.Sorted) {t rest} (e : s.scheduled = t :: rest) :
    ∀ y ∈ rest, t.time ≤ y.time := by
  unfold Sched.Sorted at h
  rw [e, List.map_cons, List.pairwise_cons] at h
  intro y hy
  exact h.1 _ (List.mem_map_of_mem hy)

theorem srun_clock {S : Search} {ops : List (SOp E)} {s s' : Sched E} {outs}
    (h : srun S s ops = .ok (s', outs)) : s'.counter = s.counter + Spec.clock ops := by
  induction ops generalizing s outs with
  | nil => simp only [srun, Res.ok.injEq, Prod.mk.injEq] at h; simp [Spec.clock, h.1]
  | cons op ops ih =>
    cases op with
    | schedule e =>
      simp only [srun, Res.bind_eq_ok] at h
      obtain ⟨s1, h1, h2⟩ := h
      have hc : s1.counter = s.counter := by
        rcases Sched.scheduleEvent_cases h1 with ⟨_, _, rfl⟩ | ⟨d, _, h⟩
        · rfl
        · exact (Sched.scheduleAfter_spec h).2.1
      have := ih h2
      simp only [Spec.clock]; omega
    | cancel i => exact ih (s := s.cancel i) h
    | tick d =>
      simp only [srun, Res.bind_eq_ok] at h
      obtain ⟨s1, h1, h2⟩ := h
      have := ih h2
      have := Sched.tick_counter h1
      simp only [Spec.clock]; omega
    | dequeue =>
      simp only [srun, Res.bind_eq_ok, Res.pure_eq, Res.ok.injEq, Prod.mk.injEq] at h
      obtain ⟨⟨s1, o1⟩, h1, rfl, rfl⟩ := h
      have := ih h1
      have hc : s.dequeue.2.counter = s.counter := by unfold Sched.dequeue; split <;> rfl
      simp only [Spec.clock] at *; omega

section Count
variable [DecidableEq E]

/-- Number of live copies of `e` waiting and due at or before `T`. -/
def waiting (T : Nat) (e : Event E) (l : List (Timed E)) : Nat :=
  l.countP fun t => decide (t.event = e) && t.live && decide (t.time ≤ T)

/-- Number of requests for `e` due at or before `T`. -/
def reqs (T : Nat) (e : Event E) (l : List (Event E × Nat)) : Nat :=
  l.countP fun r => decide (r.1 = e) && decide (r.2 ≤ T)

theorem waiting_cancel_le (T : Nat) (e : Event E) (i : Nat) (l : List (Timed E)) :
    waiting T e (l.map (Sched.cancelOne i)) ≤ waiting T e l := by
  unfold waiting
  rw [List.countP_map]
  apply List.countP_mono_left
  intro t _ h
  simp only [Function.comp, Sched.cancelOne_event, Sched.cancelOne_time, Sched.cancelOne_live,
    Bool.and_eq_true] at h ⊢
  exact ⟨⟨h.1.1, h.1.2.1⟩, h.2⟩

theorem waiting_cancel_eq (T : Nat) (e : Event E) (i : Nat) (l : List (Timed E)) (hi : Spec.ofKey i e = false) :
    waiting T e (l.map (Sched.cancelOne i)) = waiting T e l := by
  unfold waiting
  rw [List.countP_map]
  apply List.countP_congr
  intro t _
  simp only [Function.comp, Sched.cancelOne_event, Sched.cancelOne_time, Sched.cancelOne_live]
  by_cases h : t.event = e
  · subst h; simp [hi]
  · simp [h]

/-- Conservation of the copies of `e` due at or before `T`, for every `T` not before the end of the
run. -/
theorem conservation {S : Search} (e : Event E) (T : Nat) {ops : List (SOp E)} {s s' : Sched E} {outs}
    (h : srun S s ops = .ok (s', outs)) (hT : s'.counter ≤ T) :
    (outs.count (some e) + s'.pending.count (some e) + waiting T e s'.scheduled ≤
      reqs T e (Spec.requests s.counter ops) + s.pending.count (some e) + waiting T e s.scheduled) ∧
    (Spec.cancelled e ops = false →
      outs.count (some e) + s'.pending.count (some e) + waiting T e s'.scheduled =
      reqs T e (Spec.requests s.counter ops) + s.pending.count (some e) + waiting T e s.scheduled) := by
  induction ops generalizing s outs with
  | nil =>
    simp only [srun, Res.ok.injEq, Prod.mk.injEq] at h
    obtain ⟨rfl, rfl⟩ := h
    simp [Spec.requests, reqs]
  | cons op ops ih =>
    cases op with
    | schedule se =>
      simp only [srun, Res.bind_eq_ok] at h
      obtain ⟨s1, h1, h2⟩ := h
      have hclock := srun_clock h2
      have := ih h2
      obtain ⟨sch, ev⟩ := se
      rcases Sched.scheduleEvent_cases h1 with ⟨hi, _, rfl⟩ | ⟨d, hi, h⟩
      · simp only at hi; subst hi
        have e1 : reqs T e (Spec.requests s.counter (.schedule ⟨.immediate, ev⟩ :: ops)) =
            reqs T e (Spec.requests s.counter ops) + (if ev = e then 1 else 0) := by
          have : s.counter ≤ T := by simp only at hclock; omega
          simp only [Spec.requests, reqs, List.countP_cons]
          by_cases hh : ev = e <;> simp [hh, this]
        have e2 : (s.pending ++ [some ev]).count (some e) = s.pending.count (some e) + (if ev = e then 1 else 0) := by
          rw [List.count_append, List.count_singleton]
          by_cases hh : ev = e <;> simp [hh]
        have e3 : Spec.cancelled e (.schedule ⟨.immediate, ev⟩ :: ops) = Spec.cancelled e ops := by
          simp [Spec.cancelled]
        simp only [e2] at this
        rw [e1, e3]
        refine ⟨by omega, fun hc => ?_⟩
        have := this.2 hc; omega
      · simp only at hi; subst hi
        obtain ⟨a1, a2, a3, _⟩ := Sched.scheduleAfter_spec h
        have e1 : reqs T e (Spec.requests s.counter (.schedule ⟨.after d, ev⟩ :: ops)) =
            reqs T e (Spec.requests s.counter ops) + (if ev = e ∧ s.counter + d ≤ T then 1 else 0) := by
          simp only [Spec.requests, reqs, List.countP_cons]
          by_cases hh : ev = e <;> simp [hh]
        have e2 : waiting T e s1.scheduled = waiting T e s.scheduled + (if ev = e ∧ s.counter + d ≤ T then 1 else 0) := by
          unfold waiting
          rw [a3.countP_eq, List.countP_cons]
          by_cases hh : ev = e <;> simp [hh]
        have e3 : Spec.cancelled e (.schedule ⟨.after d, ev⟩ :: ops) = Spec.cancelled e ops := by
          simp [Spec.cancelled]
        simp only [e2, a1, a2] at this
        rw [e1, e3]
        refine ⟨by omega, fun hc => ?_⟩
        have := this.2 hc; omega
    | cancel i =>
      have := ih h
      have hle := waiting_cancel_le T e i s.scheduled
      simp only [Spec.requests]
      simp only [Sched.cancel] at this
      refine ⟨by omega, fun hc => ?_⟩
      have hc' : Spec.ofKey i e = false ∧ Spec.cancelled e ops = false := by
        simpa [Spec.cancelled] using hc
      have heq := waiting_cancel_eq T e i s.scheduled hc'.1
      have := this.2 hc'.2
      omega
    | tick d =>
      simp only [srun, Res.bind_eq_ok] at h
      obtain ⟨s1, h1, h2⟩ := h
      have hclock := srun_clock h2
      have := ih h2
      have hc := Sched.tick_counter h1
      have e3 : Spec.cancelled e (.tick d :: ops) = Spec.cancelled e ops := by
        simp [Spec.cancelled]
      rw [e3]
      simp only [Spec.requests]
      rw [hc] at this
      have key : s1.pending.count (some e) + waiting T e s1.scheduled =
          s.pending.count (some e) + waiting T e s.scheduled := by
        obtain ⟨_, (⟨rfl, _⟩ | ⟨t, rest, he, ht, _, rfl⟩)⟩ := Sched.tick_eq_ok h1
        · rfl
        · simp only at hclock
          have : t.time ≤ T := by omega
          simp only [waiting, he, List.countP_cons, List.count_append]
          by_cases hl : t.live <;> by_cases hh : t.event = e <;> simp [hl, hh, this]
          omega
      refine ⟨by omega, fun hc => ?_⟩
      have := this.2 hc; omega
    | dequeue =>
      simp only [srun, Res.bind_eq_ok, Res.pure_eq, Res.ok.injEq, Prod.mk.injEq] at h
      obtain ⟨⟨s1, o1⟩, h1, rfl, rfl⟩ := h
      have := ih h1
      simp only at this ⊢
      have e3 : Spec.cancelled e (.dequeue :: ops) = Spec.cancelled e ops := by
        simp [Spec.cancelled]
      rw [e3]
      simp only [Spec.requests]
      have hc : s.dequeue.2.counter = s.counter := by unfold Sched.dequeue; split <;> rfl
      rw [hc] at this
      have key : (s.dequeue.1 :: o1).count (some e) + s.dequeue.2.pending.count (some e) =
          o1.count (some e) + s.pending.count (some e) := by
        unfold Sched.dequeue; split
        · rename_i hp; simp [hp]
        · rename_i x q hp; simp only [hp, List.count_cons]; omega
      have key2 : s.dequeue.2.scheduled = s.scheduled := by unfold Sched.dequeue; split <;> rfl
      rw [key2] at this
      refine ⟨by omega, fun hc => ?_⟩
      have := this.2 hc; omega

end Count

end Verif

namespace Verif
variable {E : Type}

theorem srun_append {S : Search} (ops ops' : List (SOp E)) (s : Sched E) :
    srun S s (ops ++ ops') = (do
      let (s1, o1) ← srun S s ops
      let (s2, o2) ← srun S s1 ops'
      pure (s2, o1 ++ o2)) := by
  induction ops generalizing s with
  | nil => cases h : srun S s ops' <;> simp [srun, h]
  | cons op ops ih =>
    cases op with
    | schedule e => simp [srun, ih]
    | cancel i => simp [srun, ih]
    | tick d => simp [srun, ih]
    | dequeue => simp [srun, ih]

theorem srun_append_ok {S : Search} {ops ops' : List (SOp E)} {s s' : Sched E} {outs}
    (h : srun S s (ops ++ ops') = .ok (s', outs)) :
    ∃ s1 o1 o2, srun S s ops = .ok (s1, o1) ∧ srun S s1 ops' = .ok (s', o2) ∧ outs = o1 ++ o2 := by
  rw [srun_append] at h
  simp only [Res.bind_eq_ok, Res.pure_eq, Res.ok.injEq, Prod.mk.injEq] at h
  obtain ⟨⟨s1, o1⟩, h1, ⟨s2, o2⟩, h2, rfl, rfl⟩ := h
  exact ⟨s1, o1, o2, h1, h2, rfl⟩

/-- Everything waiting was requested, with that due time. -/
theorem waiting_requested {S : Search} {ops : List (SOp E)} {s s' : Sched E} {outs}
    (h : srun S s ops = .ok (s', outs)) (t : Timed E) (ht : t ∈ s'.scheduled) :
    (t.event, t.time) ∈ Spec.requests s.counter ops ∨ ∃ t0 ∈ s.scheduled, t0.event = t.event ∧ t0.time = t.time := by
  induction ops generalizing s outs with
  | nil =>
    simp only [srun, Res.ok.injEq, Prod.mk.injEq] at h
    obtain ⟨rfl, rfl⟩ := h
    exact Or.inr ⟨t, ht, rfl, rfl⟩
  | cons op ops ih =>
    cases op with
    | schedule se =>
      obtain ⟨sch, ev⟩ := se
      simp only [srun, Res.bind_eq_ok] at h
      obtain ⟨s1, h1, h2⟩ := h
      have := ih h2
      rcases Sched.scheduleEvent_cases h1 with ⟨hi, _, rfl⟩ | ⟨d, hi, h⟩
      · simp only at hi; subst hi
        rcases this with h | h
        · left; simp only [Spec.requests]; exact List.mem_cons_of_mem _ h
        · exact Or.inr h
      · simp only at hi; subst hi
        obtain ⟨a1, a2, a3, _⟩ := Sched.scheduleAfter_spec h
        rw [a2] at this
        simp only [Spec.requests]
        rcases this with h | ⟨t0, h0, h1, h2⟩
        · left; exact List.mem_cons_of_mem _ h
        · rcases List.mem_cons.1 (a3.mem_iff.1 h0) with rfl | h0
          · left; rw [← h1, ← h2]; exact List.mem_cons_self
          · exact Or.inr ⟨t0, h0, h1, h2⟩
    | cancel i =>
      rcases ih (s := s.cancel i) h with h | ⟨t0, h0, h1, h2⟩
      · exact Or.inl h
      · obtain ⟨t1, h3, rfl⟩ := List.mem_map.1 h0
        exact Or.inr ⟨t1, h3, by simpa using h1, by simpa using h2⟩
    | tick d =>
      simp only [srun, Res.bind_eq_ok] at h
      obtain ⟨s1, h1, h2⟩ := h
      have := ih h2
      rw [Sched.tick_counter h1] at this
      simp only [Spec.requests]
      rcases this with h | ⟨t0, h0, h3⟩
      · exact Or.inl h
      · refine Or.inr ⟨t0, ?_, h3⟩
        obtain ⟨_, (⟨rfl, _⟩ | ⟨t, rest, he, ht, _, rfl⟩)⟩ := Sched.tick_eq_ok h1
        · exact h0
        · rw [he]; exact List.mem_cons_of_mem _ h0
    | dequeue =>
      simp only [srun, Res.bind_eq_ok, Res.pure_eq, Res.ok.injEq, Prod.mk.injEq] at h
      obtain ⟨⟨s1, o1⟩, h1, rfl, rfl⟩ := h
      have := ih h1
      have hc : s.dequeue.2.counter = s.counter := by unfold Sched.dequeue; split <;> rfl
      have key2 : s.dequeue.2.scheduled = s.scheduled := by unfold Sched.dequeue; split <;> rfl
      rwa [hc, key2] at this

theorem dequeue_counter (s : Sched E) : s.dequeue.2.counter = s.counter := by
  unfold Sched.dequeue; split <;> rfl
theorem dequeue_scheduled (s : Sched E) : s.dequeue.2.scheduled = s.scheduled := by
  unfold Sched.dequeue; split <;> rfl
theorem dequeue_pending (s : Sched E) : s.dequeue.2.pending = s.pending.tail := by
  unfold Sched.dequeue; split <;> simp [*]

/-- One millisecond with a dequeue. -/
theorem ms_succ {S : Search} {s s' : Sched E} {k : Nat} {outs}
    (h : srun S s (Spec.milliseconds (k + 1)) = .ok (s', outs)) :
    ∃ s1 o1, s.tick 1 = .ok s1 ∧ srun S s1.dequeue.2 (Spec.milliseconds k) = .ok (s', o1) ∧
      outs = s1.dequeue.1 :: o1 := by
  simp only [Spec.milliseconds, srun, Res.bind_eq_ok, Res.pure_eq, Res.ok.injEq, Prod.mk.injEq] at h
  obtain ⟨s1, h1, ⟨s2, o2⟩, h2, rfl, rfl⟩ := h
  exact ⟨s1, o2, h1, h2, rfl⟩

/-- After enough milliseconds nothing is left. -/
theorem ms_drains {S : Search} {D k : Nat} {s s' : Sched E} {outs}
    (h : srun S s (Spec.milliseconds k) = .ok (s', outs)) (hD : ∀ t ∈ s.scheduled, t.time ≤ s.counter + D)
    (hk : D + s.scheduled.length + s.pending.length ≤ k) : s'.scheduled = [] ∧ s'.pending = [] := by
  induction k generalizing s outs D with
  | zero =>
    simp only [Spec.milliseconds, srun, Res.ok.injEq, Prod.mk.injEq] at h
    obtain ⟨rfl, rfl⟩ := h
    exact ⟨List.length_eq_zero_iff.1 (by omega), List.length_eq_zero_iff.1 (by omega)⟩
  | succ k ih =>
    obtain ⟨s1, o1, h1, h2, rfl⟩ := ms_succ h
    have hc := Sched.tick_counter h1
    refine ih (D := D - 1) h2 ?_ ?_
    · intro t ht
      rw [dequeue_scheduled] at ht
      rw [dequeue_counter, hc]
      have : t ∈ s.scheduled := by
        obtain ⟨_, (⟨rfl, _⟩ | ⟨t, rest, he, ht, _, rfl⟩)⟩ := Sched.tick_eq_ok h1
        · exact ht
        · rw [he]; exact List.mem_cons_of_mem _ ‹_›
      have := hD t this; omega
    · rw [dequeue_scheduled, dequeue_pending, List.length_tail]
      obtain ⟨_, (⟨rfl, hno⟩ | ⟨t, rest, he, ht, _, rfl⟩)⟩ := Sched.tick_eq_ok h1
      · simp only
        cases hs : s.scheduled with
        | nil => simp [hs] at hk ⊢; omega
        | cons t rest =>
          have h1 := hno t (by simp [hs])
          have h2 := hD t (by simp [hs])
          simp [hs] at hk ⊢; omega
      · simp [he] at hk ⊢; omega

theorem ms_prefix {S : Search} {k : Nat} {s s' : Sched E} {outs}
    (h : srun S s (Spec.milliseconds k) = .ok (s', outs)) (hp : s.pending = []) :
    s'.pending = [] ∧ ∃ fired, s.scheduled = fired ++ s'.scheduled ∧
      outs.filterMap id = (fired.filter Timed.live).map Timed.event := by
  induction k generalizing s outs with
  | zero =>
    simp only [Spec.milliseconds, srun, Res.ok.injEq, Prod.mk.injEq] at h
    obtain ⟨rfl, rfl⟩ := h
    exact ⟨hp, [], by simp⟩
  | succ k ih =>
    obtain ⟨s1, o1, h1, h2, rfl⟩ := ms_succ h
    have hp1 : s1.dequeue.2.pending = [] := by
      rw [dequeue_pending]
      obtain ⟨_, (⟨rfl, hno⟩ | ⟨t, rest, he, ht, _, rfl⟩)⟩ := Sched.tick_eq_ok h1 <;> simp [hp]
    obtain ⟨a1, fired, a2, a3⟩ := ih h2 hp1
    refine ⟨a1, ?_⟩
    rw [dequeue_scheduled] at a2
    obtain ⟨_, (⟨rfl, hno⟩ | ⟨t, rest, he, ht, _, rfl⟩)⟩ := Sched.tick_eq_ok h1
    · exact ⟨fired, a2, by simp [Sched.dequeue, hp, a3]⟩
    · refine ⟨t :: fired, by simp only at a2; simp [he, a2], ?_⟩
      by_cases hl : t.live <;> simp [Sched.dequeue, hp, a3, hl]

/-- The event at position `pre.length` leaves the schedule in time. -/
theorem ms_handed_out {S : Search} {k : Nat} {s s' : Sched E} {outs} {pre post : List (Timed E)} {x : Timed E}
    (h : srun S s (Spec.milliseconds k) = .ok (s', outs)) (hs : s.Sorted)
    (e : s.scheduled = pre ++ x :: post) (hk : (x.time - s.counter) + pre.length + 1 ≤ k) :
    ∃ l, post = l ++ s'.scheduled := by
  have suffix : ∀ {k : Nat} {s s' : Sched E} {outs}, srun S s (Spec.milliseconds k) = .ok (s', outs) →
      ∃ l, s.scheduled = l ++ s'.scheduled := by
    intro k
    induction k with
    | zero =>
      intro s s' outs h
      simp only [Spec.milliseconds, srun, Res.ok.injEq, Prod.mk.injEq] at h
      obtain ⟨rfl, rfl⟩ := h
      exact ⟨[], rfl⟩
    | succ k ih =>
      intro s s' outs h
      obtain ⟨s1, o1, h1, h2, rfl⟩ := ms_succ h
      obtain ⟨l, hl⟩ := ih h2
      rw [dequeue_scheduled] at hl
      obtain ⟨_, (⟨rfl, hno⟩ | ⟨t, rest, he, ht, _, rfl⟩)⟩ := Sched.tick_eq_ok h1
      · exact ⟨l, hl⟩
      · exact ⟨t :: l, by simp only at hl; simp [he, hl]⟩
  induction k generalizing s outs pre with
  | zero => omega
  | succ k ih =>
    obtain ⟨s1, o1, h1, h2, rfl⟩ := ms_succ h
    have hc := Sched.tick_counter h1
    have hs1 := Sched.dequeue_sorted (Sched.tick_sorted h1 hs)
    obtain ⟨_, (⟨rfl, hno⟩ | ⟨t, rest, he, ht, _, rfl⟩)⟩ := Sched.tick_eq_ok h1
    · -- nothing is due
      have hhead : s.counter + 1 < x.time := by
        cases pre with
        | nil => exact hno x (by simp [e])
        | cons y pre =>
          have h3 := hno y (by simp [e])
          have h4 := hs.head_le e x (by simp)
          omega
      refine ih (pre := pre) h2 hs1 (by rw [dequeue_scheduled]; exact e) ?_
      rw [dequeue_counter]; simp only; omega
    · cases pre with
      | nil =>
        rw [e, List.nil_append, List.cons.injEq] at he
        obtain ⟨l, hl⟩ := suffix h2
        rw [dequeue_scheduled] at hl
        exact ⟨l, by rw [he.2]; exact hl⟩
      | cons y pre =>
        rw [e, List.cons_append, List.cons.injEq] at he
        refine ih (pre := pre) h2 hs1 (by rw [dequeue_scheduled]; exact he.2.symm) ?_
        rw [dequeue_counter]
        simp only [List.length_cons] at hk ⊢
        omega

end Verif

namespace Verif
variable {E : Type}

/-- The two schedulers differ at most in which events of key `i` are cancelled. -/
def SameBut (i : Nat) (s s' : Sched E) : Prop :=
  s.pending.map (Spec.hide i) = s'.pending.map (Spec.hide i) ∧
  s.scheduled.map (Sched.cancelOne i) = s'.scheduled.map (Sched.cancelOne i) ∧ s.counter = s'.counter

theorem SameBut.times {i : Nat} {s s' : Sched E} (h : SameBut i s s') :
    s.scheduled.map Timed.time = s'.scheduled.map Timed.time := by
  have := congrArg (List.map Timed.time) h.2.1
  simpa [Function.comp_def] using this

theorem Timed.ext' {t u : Timed E} (h1 : t.time = u.time) (h2 : t.event = u.event) (h3 : t.live = u.live) :
    t = u := by
  cases t; cases u; simp_all

theorem cancelOne_idem (i : Nat) (t : Timed E) :
    Sched.cancelOne i (Sched.cancelOne i t) = Sched.cancelOne i t := by
  apply Timed.ext' <;> simp [Sched.cancelOne_live]

theorem cancelOne_comm (i j : Nat) (t : Timed E) :
    Sched.cancelOne i (Sched.cancelOne j t) = Sched.cancelOne j (Sched.cancelOne i t) := by
  apply Timed.ext'
  · simp
  · simp
  · simp only [Sched.cancelOne_live, Sched.cancelOne_event]
    cases t.live <;> cases Spec.ofKey i t.event <;> cases Spec.ofKey j t.event <;> rfl

theorem hide_fired (i : Nat) (t : Timed E) : Spec.hide i (if t.live then some t.event else none) =
    if (Sched.cancelOne i t).live then some (Sched.cancelOne i t).event else none := by
  rw [Sched.cancelOne_live, Sched.cancelOne_event]
  cases h : t.live <;> cases h2 : Spec.ofKey i t.event <;> simp [Spec.hide, h2]

theorem sameBut_run {S : Search} (i : Nat) {ops : List (SOp E)} {s s' s1 : Sched E} {o1}
    (hb : SameBut i s s') (h : srun S s ops = .ok (s1, o1)) :
    ∃ s2 o2, srun S s' (Spec.withoutCancel i ops) = .ok (s2, o2) ∧
      o1.map (Spec.hide i) = o2.map (Spec.hide i) := by
  induction ops generalizing s s' o1 with
  | nil =>
    simp only [srun, Res.ok.injEq, Prod.mk.injEq] at h
    exact ⟨s', [], by simp [Spec.withoutCancel, srun], by simp [← h.2]⟩
  | cons op ops ih =>
    have hlen : s.scheduled.length = s'.scheduled.length := by
      simpa using congrArg List.length hb.2.1
    have hplen : s.pending.length = s'.pending.length := by
      simpa using congrArg List.length hb.1
    cases op with
    | schedule e =>
      simp only [srun, Res.bind_eq_ok] at h
      obtain ⟨s2, h1, h2⟩ := h
      have : ∃ s2', s'.scheduleEvent S e = .ok s2' ∧ SameBut i s2 s2' := by
        unfold Sched.scheduleEvent at h1 ⊢
        split
        · rename_i hs
          simp only [hs] at h1
          obtain ⟨a, rfl⟩ := Sched.enqueue_eq_ok.1 h1
          refine ⟨_, Sched.enqueue_eq_ok.2 ⟨by omega, rfl⟩, ?_, hb.2.1, hb.2.2⟩
          simp [hb.1]
        · rename_i d hs
          simp only [hs] at h1
          obtain ⟨a, b, rfl⟩ := Sched.scheduleAfter_eq_ok.1 h1
          refine ⟨_, Sched.scheduleAfter_eq_ok.2 ⟨by rw [← hb.2.2]; exact a, by omega, rfl⟩, hb.1, ?_, hb.2.2⟩
          simp only [List.map_append, List.map_cons, List.map_take, List.map_drop, hb.2.1, hb.times, hb.2.2]
      obtain ⟨s2', h3, h4⟩ := this
      obtain ⟨s3, o3, h5, h6⟩ := ih h4 h2
      exact ⟨s3, o3, by simpa [Spec.withoutCancel, srun, h3] using h5, h6⟩
    | cancel j =>
      simp only [srun] at h
      by_cases hij : i = j
      · subst hij
        have hb' : SameBut i (s.cancel i) s' := by
          refine ⟨hb.1, ?_, hb.2.2⟩
          rw [← hb.2.1]
          simp [Sched.cancel, Function.comp_def, cancelOne_idem]
        obtain ⟨s3, o3, h5, h6⟩ := ih hb' h
        exact ⟨s3, o3, by simpa [Spec.withoutCancel] using h5, h6⟩
      · have hb' : SameBut i (s.cancel j) (s'.cancel j) := by
          refine ⟨hb.1, ?_, hb.2.2⟩
          have := congrArg (List.map (Sched.cancelOne j)) hb.2.1
          simp only [Sched.cancel, List.map_map, Function.comp_def] at this ⊢
          simpa [cancelOne_comm i j] using this
        obtain ⟨s3, o3, h5, h6⟩ := ih hb' h
        exact ⟨s3, o3, by simpa [Spec.withoutCancel, hij, srun] using h5, h6⟩
    | tick d =>
      simp only [srun, Res.bind_eq_ok] at h
      obtain ⟨s2, h1, h2⟩ := h
      have : ∃ s2', s'.tick d = .ok s2' ∧ SameBut i s2 s2' := by
        obtain ⟨hc, (⟨rfl, hno⟩ | ⟨t, rest, he, ht, hp, rfl⟩)⟩ := Sched.tick_eq_ok h1
        · refine ⟨{ s' with counter := s'.counter + d }, ?_, hb.1, hb.2.1, by simp [hb.2.2]⟩
          unfold Sched.tick
          rw [← hb.2.2]
          simp only [hc, if_true]
          cases hs' : s'.scheduled with
          | nil => rfl
          | cons u us =>
            cases hs : s.scheduled with
            | nil => simp [hs, hs'] at hlen
            | cons v vs =>
              have := hno v (by simp [hs])
              have ht := hb.times
              simp only [hs, hs', List.map_cons, List.cons.injEq] at ht
              have : ¬ u.time ≤ s.counter + d := by omega
              simp [this]
        · cases hs' : s'.scheduled with
          | nil => simp [he, hs'] at hlen
          | cons u us =>
            have htm := hb.times
            simp only [he, hs', List.map_cons, List.cons.injEq] at htm
            have hq := hb.2.1
            simp only [he, hs', List.map_cons, List.cons.injEq] at hq
            refine ⟨⟨s'.pending ++ [if u.live then some u.event else none], us, s'.counter + d⟩, ?_, ?_, hq.2, by simp [hb.2.2]⟩
            · unfold Sched.tick
              rw [← hb.2.2]
              simp only [hc, if_true, hs', ← htm.1, ht]
              exact Sched.enqueue_eq_ok.2 ⟨by simp only; omega, rfl⟩
            · simp only [List.map_append, List.map_cons, List.map_nil, hb.1, hide_fired, hq.1]
      obtain ⟨s2', h3, h4⟩ := this
      obtain ⟨s3, o3, h5, h6⟩ := ih h4 h2
      exact ⟨s3, o3, by simpa [Spec.withoutCancel, srun, h3] using h5, h6⟩
    | dequeue =>
      simp only [srun, Res.bind_eq_ok, Res.pure_eq, Res.ok.injEq, Prod.mk.injEq] at h
      obtain ⟨⟨s2, o2⟩, h1, rfl, rfl⟩ := h
      have hb' : SameBut i s.dequeue.2 s'.dequeue.2 := by
        refine ⟨?_, ?_, ?_⟩
        · rw [dequeue_pending, dequeue_pending, List.map_tail, List.map_tail, hb.1]
        · rw [dequeue_scheduled, dequeue_scheduled]; exact hb.2.1
        · rw [dequeue_counter, dequeue_counter]; exact hb.2.2
      have hd : Spec.hide i s.dequeue.1 = Spec.hide i s'.dequeue.1 := by
        have := hb.1
        unfold Sched.dequeue
        cases hp : s.pending <;> cases hp' : s'.pending <;> simp_all
      obtain ⟨s3, o3, h5, h6⟩ := ih hb' h1
      refine ⟨s3, s'.dequeue.1 :: o3, ?_, by simp [hd, h6]⟩
      have : Spec.withoutCancel i (SOp.dequeue :: ops) = .dequeue :: Spec.withoutCancel i ops := by
        simp [Spec.withoutCancel]
      rw [this]
      simp [srun, h5]

/-- Events of key `i` not waiting stay away while nobody schedules one. -/
theorem no_key_events {S : Search} (i : Nat) {ops : List (SOp E)} {s s1 : Sched E} {o1}
    (hs : ∀ t ∈ s.scheduled, Spec.ofKey i t.event = true → t.live = false)
    (hp : ∀ e, some e ∈ s.pending → Spec.ofKey i e = false)
    (hr : ∀ r ∈ Spec.requests s.counter ops, Spec.ofKey i r.1 = false)
    (h : srun S s ops = .ok (s1, o1)) : ∀ e, some e ∈ o1 → Spec.ofKey i e = false := by
  induction ops generalizing s o1 with
  | nil =>
    simp only [srun, Res.ok.injEq, Prod.mk.injEq] at h
    simp [← h.2]
  | cons op ops ih =>
    cases op with
    | schedule se =>
      obtain ⟨sch, ev⟩ := se
      simp only [srun, Res.bind_eq_ok] at h
      obtain ⟨s2, h1, h2⟩ := h
      rcases Sched.scheduleEvent_cases h1 with ⟨hi, _, rfl⟩ | ⟨d, hi, h⟩
      · simp only at hi; subst hi
        simp only [Spec.requests, List.mem_cons, forall_eq_or_imp] at hr
        refine ih (s := { s with pending := s.pending ++ [some ev] }) hs ?_ hr.2 h2
        intro e he
        simp only [List.mem_append, List.mem_singleton, Option.some.injEq] at he
        rcases he with he | rfl
        · exact hp e he
        · exact hr.1
      · simp only at hi; subst hi
        obtain ⟨a1, a2, a3, _⟩ := Sched.scheduleAfter_spec h
        simp only [Spec.requests, List.mem_cons, forall_eq_or_imp] at hr
        refine ih ?_ (by rw [a1]; exact hp) (by rw [a2]; exact hr.2) h2
        intro t ht hk
        rcases List.mem_cons.1 (a3.mem_iff.1 ht) with rfl | ht
        · simp [hr.1] at hk
        · exact hs t ht hk
    | cancel j =>
      refine ih (s := s.cancel j) ?_ hp hr h
      intro t ht hk
      obtain ⟨t1, h3, rfl⟩ := List.mem_map.1 ht
      rw [Sched.cancelOne_event] at hk
      rw [Sched.cancelOne_live, hs t1 h3 hk]; rfl
    | tick d =>
      simp only [srun, Res.bind_eq_ok] at h
      obtain ⟨s2, h1, h2⟩ := h
      simp only [Spec.requests] at hr
      rw [← Sched.tick_counter h1] at hr
      obtain ⟨_, (⟨rfl, hno⟩ | ⟨t, rest, he, ht, _, rfl⟩)⟩ := Sched.tick_eq_ok h1
      · exact ih (s := { s with counter := s.counter + d }) hs hp hr h2
      · refine ih (fun t' ht' => hs t' (by rw [he]; exact List.mem_cons_of_mem _ ht')) ?_ hr h2
        intro e hmem
        simp only [List.mem_append, List.mem_singleton] at hmem
        rcases hmem with hmem | hmem
        · exact hp e hmem
        · by_cases hl : t.live
          · simp only [hl, if_true, Option.some.injEq] at hmem
            subst hmem
            cases hk : Spec.ofKey i t.event with
            | false => rfl
            | true => rw [hs t (by simp [he]) hk] at hl; cases hl
          · simp [hl] at hmem
    | dequeue =>
      simp only [srun, Res.bind_eq_ok, Res.pure_eq, Res.ok.injEq, Prod.mk.injEq] at h
      obtain ⟨⟨s2, o2⟩, h1, rfl, rfl⟩ := h
      intro e he
      rcases List.mem_cons.1 he with he | he
      · have : some e ∈ s.pending := by
          unfold Sched.dequeue at he
          cases hp' : s.pending <;> simp_all
        exact hp e this
      · refine ih (s := s.dequeue.2) (by rw [dequeue_scheduled]; exact hs) ?_
          (by rw [dequeue_counter]; exact hr) h1 e he
        intro e' he'
        rw [dequeue_pending] at he'
        exact hp e' (List.mem_of_mem_tail he')

end Verif
