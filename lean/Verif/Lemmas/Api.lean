import Verif.Lemmas.Steps

/-!
# Invariants of the public calls
-/

namespace Verif

variable {R Ev Ctx PKS KS : Type}

theorem Emits.trivial (C : Cfg R Ev Ctx PKS KS) : Emits C (fun _ => True) := by
  constructor <;> intros <;> exact True.intro

theorem Emits.weaken {C : Cfg R Ev Ctx PKS KS} {Q Q' : Event Ev → Prop} (h : Emits C Q) (hQ : ∀ e, Q e → Q' e) :
    Emits C Q' where
  npk := fun i c r x es h' e he => hQ _ (h.npk i c r x es h' e he)
  pend := fun p i c r ev x y es h' e he => hQ _ (h.pend p i c r ev x y es h' e he)
  state := fun ks r c i ev x es h' e he => hQ _ (h.state ks r c i ev x es h' e he)
  ctx := fun c ev x es h' e he => hQ _ (h.ctx c ev x es h' e he)
  resolved := fun i ko => hQ _ (h.resolved i ko)

theorem QInv.weaken {Q Q' : Event Ev → Prop} {km : KM R Ev Ctx PKS KS} (h : QInv Q km) (hQ : ∀ e, Q e → Q' e) :
    QInv Q' km :=
  ⟨fun e he => hQ _ (h.pending e he), fun t ht => hQ _ (h.scheduled t ht), h.queued⟩

theorem QInv.new (Q : Event Ev → Prop) (ctx : Ctx) : QInv Q (KM.new ctx : KM R Ev Ctx PKS KS) :=
  ⟨by simp [KM.new, Sched.new], by simp [KM.new, Sched.new], by simp [KM.new]⟩

/-- What has to be checked for a property to hold after every public call. -/
structure ApiInv (C : Cfg R Ev Ctx PKS KS) (I : KM R Ev Ctx PKS KS → Prop) : Prop where
  /-- atomic changes -/
  micro : ∀ a b, I a → QInv (fun _ => True) a → Micro C (fun _ => True) a b → I b
  /-- clocks, reporter, callbacks -/
  frame : ∀ a, I a → ∀ idle delay rep callbacks ms,
    I { a with idle := idle, delay := delay, rep := rep, callbacks := callbacks, msPerTick := ms }
  /-- an input event arrives -/
  enq : ∀ a, I a → ∀ ev, a.inq.length < inputCap → I { a with inq := a.inq ++ [ev] }
  /-- an input event is taken from the queue -/
  deq : ∀ a, I a → ∀ ie q, a.inq = ie :: q → I { a with inq := q, log := a.log ++ [ie] }
  /-- the context is told the time -/
  ctx : ∀ a, I a → ∀ t i, I { a with ctx := C.sys.setCtx a.ctx t i }
  /-- the scheduler ticks -/
  tick : ∀ a, I a → ∀ d s, a.sched.tick d = .ok s → I { a with sched := s }
  /-- reset -/
  init : ∀ a, I a → I a.init

section
variable {C : Cfg R Ev Ctx PKS KS} {I : KM R Ev Ctx PKS KS → Prop}

/-- The part of the invariant that makes `Steps` available. -/
theorem qinv_api (Q : Event Ev → Prop) (hE : Emits C Q) : ApiInv C (QInv Q) where
  micro := fun a b h _ m => h.micro hE m
  frame := fun a h _ _ _ _ _ => ⟨h.pending, h.scheduled, h.queued⟩
  enq := fun a h _ _ => ⟨h.pending, h.scheduled, h.queued⟩
  deq := fun a h _ _ _ => ⟨h.pending, h.scheduled, h.queued⟩
  ctx := fun a h _ _ => ⟨h.pending, h.scheduled, h.queued⟩
  tick := by
    intro a h d s hs
    obtain ⟨_, (⟨rfl, hno⟩ | ⟨t, rest, he, ht, _, rfl⟩)⟩ := Sched.tick_eq_ok hs
    · exact ⟨h.pending, h.scheduled, h.queued⟩
    · refine ⟨fun e hm => ?_, fun t' ht' => h.scheduled t' (by rw [he]; exact List.mem_cons_of_mem _ ht'), h.queued⟩
      simp only [List.mem_append, List.mem_singleton] at hm
      rcases hm with hm | hm
      · exact h.pending e hm
      · by_cases hl : t.live
        · simp only [hl, if_true, Option.some.injEq] at hm
          subst hm; exact h.scheduled t (by simp [he])
        · simp [hl] at hm
  init := by
    intro a h
    refine ⟨fun e he => h.pending e ?_, by simp [KM.init, Sched.init], by simp [KM.init]⟩
    simp only [KM.init, Sched.init] at he
    have : ∀ q : List (Option (Event Ev)), ∀ x, x ∈ Sched.initDrain q → x ∈ q := by
      intro q
      induction q with
      | nil => simp [Sched.initDrain]
      | cons y q ih =>
        intro x hx
        cases y with
        | none => exact List.mem_cons_of_mem _ hx
        | some y => exact List.mem_cons_of_mem _ (ih x hx)
    exact this _ _ he

theorem ApiInv.and {J : KM R Ev Ctx PKS KS → Prop} (h : ApiInv C I) (h' : ApiInv C J) :
    ApiInv C (fun km => I km ∧ J km) where
  micro := fun a b hh q m => ⟨h.micro a b hh.1 q m, h'.micro a b hh.2 q m⟩
  frame := fun a hh _ _ _ _ _ => ⟨h.frame a hh.1 _ _ _ _ _, h'.frame a hh.2 _ _ _ _ _⟩
  enq := fun a hh _ hl => ⟨h.enq a hh.1 _ hl, h'.enq a hh.2 _ hl⟩
  deq := fun a hh _ _ hl => ⟨h.deq a hh.1 _ _ hl, h'.deq a hh.2 _ _ hl⟩
  ctx := fun a hh _ _ => ⟨h.ctx a hh.1 _ _, h'.ctx a hh.2 _ _⟩
  tick := fun a hh _ _ hl => ⟨h.tick a hh.1 _ _ hl, h'.tick a hh.2 _ _ hl⟩
  init := fun a hh => ⟨h.init a hh.1, h'.init a hh.2⟩

/-- For the proofs below: together with `QInv`. -/
def Both (I : KM R Ev Ctx PKS KS → Prop) (km : KM R Ev Ctx PKS KS) : Prop := I km ∧ QInv (fun _ => True) km

theorem both_api (h : ApiInv C I) : ApiInv C (Both I) := h.and (qinv_api _ (Emits.trivial C))

theorem ApiInv.steps (h : ApiInv C I) {a b : KM R Ev Ctx PKS KS} (hs : Steps C (fun _ => True) a b)
    (ha : Both I a) : Both I b :=
  hs.inv (fun x y hx hm => ⟨h.micro x y hx.1 hx.2 hm, hx.2.micro (Emits.trivial C) hm⟩) ha

theorem ApiInv.processInputN (h : ApiInv C I) {n : Nat} {a b : KM R Ev Ctx PKS KS} {ie : InputEvent}
    (ha : Both I a) (hp : processInputN C n a ie = .ok b) : Both I b :=
  h.steps (processInputN_steps (Emits.trivial C) ha.2 True.intro hp) ha

theorem ApiInv.handleInput (h : ApiInv C I) {n : Nat} {a b : KM R Ev Ctx PKS KS} {ie : InputEvent}
    (ha : Both I a) (hp : handleInput C n a ie = .ok b) : Both I b := by
  have hB := both_api h
  unfold Verif.handleInput at hp
  have h0 : Both I { a with idle := 0 } := hB.frame a ha 0 a.delay a.rep a.callbacks a.msPerTick
  simp only at hp
  split at hp
  · simp only [Res.ok.injEq] at hp; subst hp; exact h0
  · rename_i hl
    have h1 := hB.enq _ h0 ie (by simp only; omega)
    simp only at h1
    split at hp
    · split at hp
      · simp at hp
      · rename_i ie' q hq
        simp only [Res.bind_eq_ok, Res.pure_eq, Res.ok.injEq] at hp
        obtain ⟨km1, h2, rfl⟩ := hp
        have h3 := hB.deq _ h1 ie' q hq
        have h4 := h.processInputN h3 h2
        exact hB.frame _ h4 km1.idle inputDelay km1.rep km1.callbacks km1.msPerTick
    · simp only [Res.ok.injEq] at hp; subst hp; exact h1

theorem ApiInv.tickInput (h : ApiInv C I) {n : Nat} {a b : KM R Ev Ctx PKS KS}
    (ha : Both I a) (hp : tickInput C n a = .ok b) : Both I b := by
  have hB := both_api h
  unfold Verif.tickInput at hp
  split at hp
  · rename_i ie q hq
    split at hp
    · simp only [Res.bind_eq_ok, Res.pure_eq, Res.ok.injEq] at hp
      obtain ⟨km1, h2, rfl⟩ := hp
      have h4 := h.processInputN (hB.deq _ ha ie q hq) h2
      exact hB.frame _ h4 km1.idle inputDelay km1.rep km1.callbacks km1.msPerTick
    · simp only [Res.ok.injEq] at hp; subst hp; exact ha
  · simp only [Res.ok.injEq] at hp; subst hp; exact ha

/-- The calls made by `tick`, one after the other. -/
theorem tick_eq_ok {n : Nat} {a b : KM R Ev Ctx PKS KS} (hp : tick C n a = .ok b) :
    ∃ km1 s km2, tickInput C n { a with ctx := C.sys.setCtx a.ctx a.sched.counter a.idle } = .ok km1 ∧
      km1.sched.tick km1.msPerTick = .ok s ∧
      drainN C n { km1 with delay := km1.delay - 1, sched := s } = .ok km2 ∧
      km2.idle + km2.msPerTick < u32Size ∧ b = { km2 with idle := km2.idle + km2.msPerTick } := by
  unfold tick at hp
  simp only [Res.bind_eq_ok] at hp
  obtain ⟨km1, h1, s, h2, km2, h3, h4⟩ := hp
  split at h4
  · simp only [Res.pure_eq, Res.ok.injEq] at h4
    exact ⟨km1, s, km2, h1, h2, h3, ‹_›, h4.symm⟩
  · simp at h4

/-- The calls made by `tick` when no input waits. -/
theorem tick_noInput {n : Nat} {a b : KM R Ev Ctx PKS KS} (hq : a.inq = []) (hp : tick C n a = .ok b) :
    ∃ s km2, a.sched.tick a.msPerTick = .ok s ∧
      drainN C n { a with ctx := C.sys.setCtx a.ctx a.sched.counter a.idle, delay := a.delay - 1, sched := s } = .ok km2 ∧
      km2.idle + km2.msPerTick < u32Size ∧ b = { km2 with idle := km2.idle + km2.msPerTick } := by
  obtain ⟨km1, s, km2, h1, h2, h3, h4, h5⟩ := tick_eq_ok hp
  have e : tickInput C n { a with ctx := C.sys.setCtx a.ctx a.sched.counter a.idle } =
      .ok { a with ctx := C.sys.setCtx a.ctx a.sched.counter a.idle } := by
    unfold tickInput
    simp only [hq]
  rw [e] at h1
  simp only [Res.ok.injEq] at h1
  subst h1
  exact ⟨s, km2, h2, h3, h4, h5⟩

theorem ApiInv.tickCall (h : ApiInv C I) {n : Nat} {a b : KM R Ev Ctx PKS KS}
    (ha : Both I a) (hp : Verif.tick C n a = .ok b) : Both I b := by
  have hB := both_api h
  obtain ⟨km1, s, km2, h1, h2, h3, _, rfl⟩ := tick_eq_ok hp
  have b1 := h.tickInput (hB.ctx a ha _ _) h1
  have b2 := hB.tick _ (hB.frame _ b1 km1.idle (km1.delay - 1) km1.rep km1.callbacks km1.msPerTick) _ s h2
  have b3 := h.steps (drainN_steps (Emits.trivial C) b2.2 h3) b2
  exact hB.frame _ b3 (km2.idle + km2.msPerTick) km2.delay km2.rep km2.callbacks km2.msPerTick

theorem ApiInv.ticks (h : ApiInv C I) {n k : Nat} {a b : KM R Ev Ctx PKS KS}
    (ha : Both I a) (hp : Verif.ticks C n k a = .ok b) : Both I b := by
  induction k generalizing a with
  | zero => simp only [Verif.ticks, Res.ok.injEq] at hp; subst hp; exact ha
  | succ k ih =>
    simp only [Verif.ticks, Res.bind_eq_ok] at hp
    obtain ⟨km1, h1, h2⟩ := hp
    exact ih (h.tickCall ha h1) h2

theorem ApiInv.tickBy (h : ApiInv C I) {n d : Nat} {a b : KM R Ev Ctx PKS KS}
    (ha : Both I a) (hp : Verif.tickBy C n a d = .ok b) : Both I b := by
  unfold Verif.tickBy at hp
  split at hp
  · exact h.tickCall ha hp
  · split at hp
    · simp at hp
    · exact h.ticks ha hp

theorem ApiInv.step (h : ApiInv C I) {n : Nat} {a b : KM R Ev Ctx PKS KS} {op : Op}
    (ha : Both I a) (hp : Verif.step C n a op = .ok b) : Both I b := by
  have hB := both_api h
  cases op with
  | input ev => exact h.handleInput ha hp
  | tick => exact h.tickCall ha hp
  | report =>
    simp only [Verif.step, reportOutput, map_eq_pure_bind, Res.bind_eq_ok, Res.pure_eq, Res.ok.injEq, bind_assoc] at hp
    obtain ⟨os, h1, x, rfl, rfl⟩ := hp
    exact hB.frame a ha a.idle a.delay _ a.callbacks a.msPerTick
  | init =>
    simp only [Verif.step, Res.ok.injEq] at hp; subst hp
    exact hB.init a ha
  | setCallback c f =>
    simp only [Verif.step, KM.setCallback] at hp
    split at hp
    · simp only [Res.ok.injEq] at hp; subst hp
      exact hB.frame a ha a.idle a.delay a.rep _ a.msPerTick
    · simp at hp
  | setMsPerTick ms =>
    simp only [Verif.step, Res.ok.injEq] at hp; subst hp
    exact hB.frame a ha a.idle a.delay a.rep a.callbacks ms
  | inputAfter d ev =>
    simp only [Verif.step, handleInputAfterTime, map_eq_pure_bind, Res.bind_eq_ok, Res.pure_eq, Res.ok.injEq] at hp
    obtain ⟨x, ⟨km1, h1, km2, h2, r, h3, h4⟩, h5⟩ := hp
    split at h4
    · simp at h4
    · simp only [Res.ok.injEq] at h4
      subst h4; subst h5
      exact h.handleInput (h.tickBy ha h1) h2
  | tickToNext =>
    simp only [Verif.step, tickToNext, map_eq_pure_bind, Res.bind_eq_ok, Res.pure_eq, Res.ok.injEq] at hp
    obtain ⟨x, ⟨o, h1, h2⟩, h5⟩ := hp
    cases o with
    | none => simp only [Res.ok.injEq] at h2; subst h2; subst h5; exact ha
    | some d =>
      simp only [Res.bind_eq_ok, Res.ok.injEq] at h2
      obtain ⟨km1, h3, r, h4, rfl⟩ := h2
      subst h5
      exact h.tickBy ha h3

theorem ApiInv.run (h : ApiInv C I) {n : Nat} {a b : KM R Ev Ctx PKS KS} {ops : List Op}
    (ha : Both I a) (hp : Verif.run C n a ops = .ok b) : Both I b := by
  induction ops generalizing a with
  | nil => simp only [Verif.run, Res.ok.injEq] at hp; subst hp; exact ha
  | cons op ops ih =>
    simp only [Verif.run, Res.bind_eq_ok] at hp
    obtain ⟨km1, h1, h2⟩ := hp
    exact ih (h.step ha h1) h2

/-- An invariant that holds initially holds after every sequence of calls. -/
theorem ApiInv.reachable (h : ApiInv C I) {n : Nat} {ctx : Ctx} {b : KM R Ev Ctx PKS KS} {ops : List Op}
    (h0 : I (KM.new ctx)) (hp : Verif.run C n (KM.new ctx) ops = .ok b) : I b :=
  (h.run ⟨h0, QInv.new _ ctx⟩ hp).1

end

/-- States the keymap can be in between calls. -/
def Reachable (C : Cfg R Ev Ctx PKS KS) (ctx : Ctx) (km : KM R Ev Ctx PKS KS) : Prop :=
  ∃ n ops, run C n (KM.new ctx) ops = .ok km

theorem ApiInv.of_reachable {C : Cfg R Ev Ctx PKS KS} {I : KM R Ev Ctx PKS KS → Prop} (h : ApiInv C I) {ctx : Ctx}
    {km : KM R Ev Ctx PKS KS} (h0 : I (KM.new ctx)) (hr : Reachable C ctx km) : I km := by
  obtain ⟨n, ops, hp⟩ := hr
  exact h.reachable h0 hp

end Verif
