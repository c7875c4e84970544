import Verif.Lemmas.Call

/-! # Clocks -/

namespace Verif

variable {R Ev Ctx PKS KS : Type} {C : Cfg R Ev Ctx PKS KS}

theorem tickInput_clock {n : Nat} {a b : KM R Ev Ctx PKS KS} (hq : QInv (fun _ => True) a)
    (h : tickInput C n a = .ok b) :
    b.idle = a.idle ∧ b.msPerTick = a.msPerTick ∧ b.sched.counter = a.sched.counter ∧ b.rep = a.rep ∧
      b.callbacks = a.callbacks := by
  unfold tickInput at h
  split at h
  · rename_i ie q _
    split at h
    · simp only [Res.bind_eq_ok, Res.pure_eq, Res.ok.injEq] at h
      obtain ⟨km1, h2, rfl⟩ := h
      have := (processInputN_steps (Emits.trivial C) (km := { a with inq := q, log := a.log ++ [ie] })
        ⟨hq.pending, hq.scheduled, hq.queued⟩ True.intro h2).sameFrame
      exact ⟨this.idle, this.ms, this.counter, this.rep, this.callbacks⟩
    · simp only [Res.ok.injEq] at h; subst h; simp
  · simp only [Res.ok.injEq] at h; subst h; simp

theorem tick_clock {n : Nat} {a b : KM R Ev Ctx PKS KS} (hq : QInv (fun _ => True) a) (h : tick C n a = .ok b) :
    b.idle = a.idle + a.msPerTick ∧ b.msPerTick = a.msPerTick ∧
      b.sched.counter = a.sched.counter + a.msPerTick ∧ b.rep = a.rep ∧ b.callbacks = a.callbacks := by
  obtain ⟨km1, s, km2, h1, h2, h3, _, rfl⟩ := tick_eq_ok h
  have c1 := tickInput_clock (C := C) (a := { a with ctx := C.sys.setCtx a.ctx a.sched.counter a.idle })
    ⟨hq.pending, hq.scheduled, hq.queued⟩ h1
  have q1 := ((qinv_api (fun _ => True) (Emits.trivial C)).tickInput
    (a := { a with ctx := C.sys.setCtx a.ctx a.sched.counter a.idle })
    ⟨⟨hq.pending, hq.scheduled, hq.queued⟩, ⟨hq.pending, hq.scheduled, hq.queued⟩⟩ h1).1
  have hq2 : QInv (fun _ => True) ({ km1 with delay := km1.delay - 1, sched := s }) :=
    ⟨fun _ _ => True.intro, fun _ _ => True.intro, q1.queued⟩
  have c2 := (drainN_steps (Emits.trivial C) hq2 h3).sameFrame
  have := Sched.tick_counter h2
  refine ⟨?_, ?_, ?_, ?_, ?_⟩
  · show km2.idle + km2.msPerTick = _
    rw [c2.idle, c2.ms]; simp only; rw [c1.1, c1.2.1]
  · show km2.msPerTick = _
    rw [c2.ms]; simp only; rw [c1.2.1]
  · show km2.sched.counter = _
    rw [c2.counter]; simp only; rw [this, c1.2.2.1, c1.2.1]
  · show km2.rep = _
    rw [c2.rep]; simp only; rw [c1.2.2.2.1]
  · show km2.callbacks = _
    rw [c2.callbacks]; simp only; rw [c1.2.2.2.2]

theorem ticks_clock {n k : Nat} {a b : KM R Ev Ctx PKS KS} (hq : QInv (fun _ => True) a)
    (h : ticks C n k a = .ok b) :
    b.idle = a.idle + k * a.msPerTick ∧ b.msPerTick = a.msPerTick ∧
      b.sched.counter = a.sched.counter + k * a.msPerTick := by
  induction k generalizing a with
  | zero => simp only [ticks, Res.ok.injEq] at h; subst h; simp
  | succ k ih =>
    simp only [ticks, Res.bind_eq_ok] at h
    obtain ⟨km1, h1, h2⟩ := h
    have c1 := tick_clock hq h1
    have q1 := ((qinv_api (fun _ => True) (Emits.trivial C)).tickCall ⟨hq, hq⟩ h1).1
    have := ih q1 h2
    rw [c1.2.1] at this
    rw [c1.1, c1.2.2.1] at this
    have e : (k + 1) * a.msPerTick = a.msPerTick + k * a.msPerTick := by rw [Nat.add_mul]; omega
    rw [e]
    exact ⟨by rw [this.1]; omega, this.2.1, by rw [this.2.2]; omega⟩

theorem ticks_append {n j k : Nat} {a b : KM R Ev Ctx PKS KS} :
    ticks C n (j + k) a = .ok b ↔ ∃ c, ticks C n j a = .ok c ∧ ticks C n k c = .ok b := by
  induction j generalizing a with
  | zero => simp [ticks]
  | succ j ih =>
    rw [Nat.succ_add]
    simp only [ticks, Res.bind_eq_ok, ih]
    constructor
    · rintro ⟨x, h1, c, h2, h3⟩; exact ⟨c, ⟨x, h1, h2⟩, h3⟩
    · rintro ⟨c, ⟨x, h1, h2⟩, h3⟩; exact ⟨x, h1, c, h2, h3⟩

theorem handleInput_clock {n : Nat} {a b : KM R Ev Ctx PKS KS} {ie : InputEvent} (hq : QInv (fun _ => True) a)
    (h : handleInput C n a ie = .ok b) :
    b.idle = 0 ∧ b.msPerTick = a.msPerTick ∧ b.sched.counter = a.sched.counter ∧ b.rep = a.rep ∧
      b.callbacks = a.callbacks := by
  unfold handleInput at h
  simp only at h
  split at h
  · simp only [Res.ok.injEq] at h; subst h; simp
  · split at h
    · split at h
      · simp at h
      · rename_i ie' q _
        simp only [Res.bind_eq_ok, Res.pure_eq, Res.ok.injEq] at h
        obtain ⟨km1, h2, rfl⟩ := h
        have := (processInputN_steps (Emits.trivial C) (km := { a with idle := 0, inq := q, log := a.log ++ [ie'] })
          ⟨hq.pending, hq.scheduled, hq.queued⟩ True.intro h2).sameFrame
        exact ⟨this.idle, this.ms, this.counter, this.rep, this.callbacks⟩
    · simp only [Res.ok.injEq] at h; subst h; simp

/-- A tick with nothing to do. -/
theorem tick_nothing {n : Nat} {a : KM R Ev Ctx PKS KS} (hp : a.sched.pending = []) (hi : a.inq = [])
    (hs : ∀ t ∈ a.sched.scheduled, a.sched.counter + a.msPerTick < t.time)
    (hc : a.sched.counter + a.msPerTick < u32Size) (hd : a.idle + a.msPerTick < u32Size) :
    tick C (n + 1) a = .ok { a with
      ctx := C.sys.setCtx a.ctx a.sched.counter a.idle
      delay := a.delay - 1
      sched := { a.sched with counter := a.sched.counter + a.msPerTick }
      idle := a.idle + a.msPerTick } := by
  have ht : a.sched.tick a.msPerTick = .ok { a.sched with counter := a.sched.counter + a.msPerTick } := by
    unfold Sched.tick
    simp only [hc, if_true]
    cases h : a.sched.scheduled with
    | nil => simp
    | cons t rest =>
      have := hs t (by simp [h])
      simp only
      rw [if_neg (by omega)]
  simp only [tick, tickInput, hi, Res.ok_bind, ht, drainN, drain, Sched.dequeue, hp, hd, if_true, Res.pure_eq]

end Verif
