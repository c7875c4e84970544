import Verif.Lemmas.Ticks
import Verif.Spec.Queue

/-! # Keymaps in which no key defers input -/

namespace Verif

variable {R Ev Ctx PKS KS : Type} {C : Cfg R Ev Ctx PKS KS}

/-- No key the keymap can come to, starting from its key references, waits for a decision. -/
structure Immediate (C : Cfg R Ev Ctx PKS KS) (P : R → Prop) : Prop where
  refs : ∀ i r, Res.index C.keyRefs i = .ok r → P r
  next : ∀ r, P r → ∀ i c r' es, C.sys.newPressedKey i c r = .ok (.newPressedKey (.key r'), es) → P r'
  pend : ∀ r, P r → ∀ i c p es, C.sys.newPressedKey i c r ≠ .ok (.pending p, es)

theorem Immediate.pressRef {P : R → Prop} (h : Immediate C P) {idx : Nat} {r : R} (hr : PressRef C idx r) : P r := by
  induction hr with
  | base hr => exact h.refs _ _ hr
  | step _ hs ih => exact h.next _ ih _ _ _ _ hs

theorem Immediate.micro {P : R → Prop} (h : Immediate C P) {Q : Event Ev → Prop} {a b : KM R Ev Ctx PKS KS}
    (hp : a.pend = none) (m : Micro C Q a b) : b.pend = none ∧ b.inq = a.inq := by
  cases m with
  | take ev s hd => simp [hp]
  | pendUpd ev p pks npk es s h hu hs => simp [hp] at h
  | pendNpk p r pkr es s h hu hs => simp [hp] at h
  | pendSwap p pks q q' h h1 h2 => simp [hp] at h
  | resolve p ks km' h hf he => simp [hp] at h
  | queue p ie q h hq hc => simp [hp] at h
  | startPend idx r pks hp' hq hn hb hi =>
    obtain ⟨c, es, he⟩ := hi
    exact absurd he (h.pend r (h.pressRef hb) _ _ _ _)
  | _ => exact ⟨hp, rfl⟩

theorem Immediate.steps {P : R → Prop} (h : Immediate C P) {Q : Event Ev → Prop} {a b : KM R Ev Ctx PKS KS}
    (hp : a.pend = none) (m : Steps C Q a b) : b.pend = none ∧ b.inq = a.inq ∧ b.log = a.log := by
  have := m.inv (I := fun km => km.pend = none ∧ km.inq = a.inq)
    (fun x y hx hm => by have := h.micro hx.1 hm; exact ⟨this.1, this.2.trans hx.2⟩) ⟨hp, rfl⟩
  exact ⟨this.1, this.2, m.sameFrame.log⟩

theorem Immediate.api {P : R → Prop} (h : Immediate C P) : ApiInv C (fun km => km.pend = none) where
  micro := fun _ _ hp _ m => (h.micro hp m).1
  frame := fun _ h _ _ _ _ _ => h
  enq := fun _ h _ _ => h
  deq := fun _ h _ _ _ => h
  ctx := fun _ h _ _ => h
  tick := fun _ h _ _ _ => h
  init := fun _ _ => rfl

/-- What one `handle_input` does to the queue. -/
theorem Immediate.handleInput {P : R → Prop} (h : Immediate C P) {n : Nat} {a b : KM R Ev Ctx PKS KS} {ev : InputEvent}
    (hq : QInv (fun _ => True) a) (hp : a.pend = none) (hs : handleInput C n a ev = .ok b) :
    (a.inq.length ≥ inputCap ∧ b = { a with idle := 0 }) ∨
    (a.inq.length < inputCap ∧ b.log ++ b.inq = a.log ++ a.inq ++ [ev] ∧ a.log.length ≤ b.log.length ∧
      b.log.length ≤ a.log.length + 1) := by
  unfold Verif.handleInput at hs
  simp only at hs
  split at hs
  · rename_i hl
    simp only [Res.ok.injEq] at hs
    exact Or.inl ⟨hl, hs.symm⟩
  · rename_i hl
    refine Or.inr ⟨by omega, ?_⟩
    split at hs
    · split at hs
      · simp at hs
      · rename_i ie q hq'
        simp only [Res.bind_eq_ok, Res.pure_eq, Res.ok.injEq] at hs
        obtain ⟨km1, h2, rfl⟩ := hs
        have := h.steps (a := { a with idle := 0, inq := q, log := a.log ++ [ie] }) hp
          (processInputN_steps (Emits.trivial C) ⟨hq.pending, hq.scheduled, hq.queued⟩ True.intro h2)
        simp only at this ⊢
        rw [this.2.1, this.2.2]
        refine ⟨?_, by simp, by simp⟩
        rw [List.append_assoc, List.append_assoc, hq']; rfl
    · simp only [Res.ok.injEq] at hs; subst hs
      exact ⟨by simp, by simp, by simp⟩

/-- What one `tick` does to the queue. -/
theorem Immediate.tick {P : R → Prop} (h : Immediate C P) {n : Nat} {a b : KM R Ev Ctx PKS KS}
    (hq : QInv (fun _ => True) a) (hp : a.pend = none) (hs : tick C n a = .ok b) :
    b.log = a.log ++ (if a.delay = 0 then a.inq.take 1 else []) ∧
    b.inq = (if a.delay = 0 then a.inq.drop 1 else a.inq) ∧ b.delay = (if a.delay = 0 then 0 else a.delay - 1) := by
  obtain ⟨km1, s, km2, h1, h2, h3, _, rfl⟩ := tick_eq_ok hs
  have q0 : QInv (fun _ => True) { a with ctx := C.sys.setCtx a.ctx a.sched.counter a.idle } :=
    ⟨hq.pending, hq.scheduled, hq.queued⟩
  have q1 := ((qinv_api (fun _ => True) (Emits.trivial C)).tickInput ⟨q0, q0⟩ h1).1
  have q2 : QInv (fun _ => True) ({ km1 with delay := km1.delay - 1, sched := s }) :=
    ⟨fun _ _ => True.intro, fun _ _ => True.intro, q1.queued⟩
  have key : km1.pend = none ∧ km1.log = a.log ++ (if a.delay = 0 then a.inq.take 1 else []) ∧
      km1.inq = (if a.delay = 0 then a.inq.drop 1 else a.inq) ∧
      km1.delay - 1 = (if a.delay = 0 then 0 else a.delay - 1) := by
    unfold tickInput at h1
    split at h1
    · rename_i ie q hq'
      simp only at hq'
      split at h1
      · rename_i hd
        simp only at hd
        simp only [Res.bind_eq_ok, Res.pure_eq, Res.ok.injEq] at h1
        obtain ⟨km3, h4, rfl⟩ := h1
        have := h.steps
          (a := { a with ctx := C.sys.setCtx a.ctx a.sched.counter a.idle, inq := q, log := a.log ++ [ie] }) hp
          (processInputN_steps (Emits.trivial C) ⟨hq.pending, hq.scheduled, hq.queued⟩ True.intro h4)
        simp only at this ⊢
        rw [this.2.1, this.2.2, hq', if_pos hd, if_pos hd, if_pos hd]
        exact ⟨this.1, by simp, by simp, by simp [inputDelay]⟩
      · rename_i hd
        simp only at hd
        simp only [Res.ok.injEq] at h1; subst h1
        simp [hd, hp]
    · rename_i hq'
      simp only at hq'
      simp only [Res.ok.injEq] at h1; subst h1
      simp only [hq', hp, List.take_nil, List.drop_nil, ite_self, List.append_nil, true_and]
      split
      · rename_i hd; rw [hd]
      · rfl
  have f := h.steps (a := { km1 with delay := km1.delay - 1, sched := s }) key.1 (drainN_steps (Emits.trivial C) q2 h3)
  have g := (drainN_steps (Emits.trivial C) q2 h3).sameFrame.delay
  simp only at f g ⊢
  rw [f.2.1, f.2.2, g]
  exact key.2

end Verif
