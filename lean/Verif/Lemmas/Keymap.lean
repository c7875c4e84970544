import Verif.Lemmas.Api
import Verif.Spec.Keymap

/-! # Invariants of the generic keymap -/

namespace Verif

variable {R Ev Ctx PKS KS : Type}

open Spec (indices keys virtuals)

@[simp] theorem indices_nil : indices ([] : List (PressedInput R KS)) = [] := rfl
@[simp] theorem indices_append (a b : List (PressedInput R KS)) : indices (a ++ b) = indices a ++ indices b := by
  simp [indices]
@[simp] theorem indices_key (i r ks) (a : List (PressedInput R KS)) : indices (.key i r ks :: a) = i :: indices a := rfl
@[simp] theorem indices_virt (ko) (a : List (PressedInput R KS)) : indices (.virt ko :: a) = indices a := rfl
@[simp] theorem keys_nil : keys ([] : List (PressedInput R KS)) = [] := rfl
@[simp] theorem keys_append (a b : List (PressedInput R KS)) : keys (a ++ b) = keys a ++ keys b := by
  simp [keys]
@[simp] theorem keys_key (i r ks) (a : List (PressedInput R KS)) : keys (.key i r ks :: a) = (i, r) :: keys a := rfl
@[simp] theorem keys_virt (ko) (a : List (PressedInput R KS)) : keys (.virt ko :: a) = keys a := rfl
@[simp] theorem virtuals_nil : virtuals ([] : List (PressedInput R KS)) = [] := rfl
@[simp] theorem virtuals_append (a b : List (PressedInput R KS)) : virtuals (a ++ b) = virtuals a ++ virtuals b := by
  simp [virtuals]
@[simp] theorem virtuals_key (i r ks) (a : List (PressedInput R KS)) : virtuals (.key i r ks :: a) = virtuals a := rfl
@[simp] theorem virtuals_virt (ko) (a : List (PressedInput R KS)) : virtuals (.virt ko :: a) = ko :: virtuals a := rfl

theorem indices_eq_keys (a : List (PressedInput R KS)) : indices a = (keys a).map (·.1) := by
  induction a with
  | nil => rfl
  | cons x a ih => cases x <;> simp [ih]

theorem hasPressed_iff (idx : Nat) (ps : List (PressedInput R KS)) : hasPressed idx ps = true ↔ idx ∈ indices ps := by
  induction ps with
  | nil => simp [hasPressed]
  | cons x ps ih =>
    cases x with
    | key i r ks =>
      simp only [hasPressed, indices_key, List.mem_cons, Bool.or_eq_true, decide_eq_true_eq, ih]
      constructor <;> (rintro (h | h); exact .inl h.symm; exact .inr h)
    | virt ko => simpa [hasPressed] using ih

theorem hasPressed_false_iff (idx : Nat) (ps : List (PressedInput R KS)) : hasPressed idx ps = false ↔ idx ∉ indices ps := by
  rw [← hasPressed_iff, Bool.not_eq_true]

theorem keys_removeKey (idx : Nat) (ps : List (PressedInput R KS)) (h : (indices ps).Nodup) :
    keys (removeKey idx ps) = (keys ps).filter (fun x => x.1 != idx) := by
  induction ps with
  | nil => rfl
  | cons x ps ih =>
    cases x with
    | virt ko => simpa [removeKey] using ih h
    | key i r ks =>
      simp only [indices_key, List.nodup_cons] at h
      by_cases hi : i = idx
      · subst hi
        simp only [removeKey, if_true, keys_key, bne_self_eq_false, List.filter_cons]
        rw [if_neg (by simp)]
        symm
        rw [List.filter_eq_self]
        intro a ha
        have : a.1 ∈ indices ps := by rw [indices_eq_keys]; exact List.mem_map_of_mem ha
        simp only [bne_iff_ne, ne_eq]
        intro e; rw [e] at this; exact h.1 this
      · simp [removeKey, hi, ih h.2]

theorem virtuals_removeKey (idx : Nat) (ps : List (PressedInput R KS)) : virtuals (removeKey idx ps) = virtuals ps := by
  induction ps with
  | nil => rfl
  | cons x ps ih =>
    cases x with
    | virt ko => simpa [removeKey] using ih
    | key i r ks => by_cases hi : i = idx <;> simp [removeKey, hi, ih]

theorem keys_removeVirt (ko : KeyOutput) (ps : List (PressedInput R KS)) : keys (removeVirt ko ps) = keys ps := by
  induction ps with
  | nil => rfl
  | cons x ps ih =>
    cases x with
    | key i r ks => simpa [removeVirt] using ih
    | virt ko' => by_cases hi : ko' = ko <;> simp [removeVirt, hi, ih]

theorem virtuals_removeVirt (ko : KeyOutput) (ps : List (PressedInput R KS)) :
    virtuals (removeVirt ko ps) = (virtuals ps).erase ko := by
  induction ps with
  | nil => rfl
  | cons x ps ih =>
    cases x with
    | key i r ks => simpa [removeVirt] using ih
    | virt ko' =>
      by_cases hi : ko' = ko
      · simp [removeVirt, hi]
      · simp [removeVirt, hi, ih]

theorem removeKey_sublist (idx : Nat) (ps : List (PressedInput R KS)) : (removeKey idx ps).Sublist ps := by
  induction ps with
  | nil => exact List.Sublist.refl _
  | cons x ps ih =>
    cases x with
    | virt ko => exact ih.cons_cons _
    | key i r ks =>
      by_cases hi : i = idx
      · simp [removeKey, hi]
      · simpa [removeKey, hi] using ih

theorem removeVirt_sublist (ko : KeyOutput) (ps : List (PressedInput R KS)) : (removeVirt ko ps).Sublist ps := by
  induction ps with
  | nil => exact List.Sublist.refl _
  | cons x ps ih =>
    cases x with
    | key i r ks => exact ih.cons_cons _
    | virt ko' =>
      by_cases hi : ko' = ko
      · simp [removeVirt, hi]
      · simpa [removeVirt, hi] using ih

/-- Each physical key is down at most once, and the pending key is not among the pressed ones. -/
def Distinct (km : KM R Ev Ctx PKS KS) : Prop :=
  (indices km.pressed).Nodup ∧ ∀ p, km.pend = some p → p.idx ∉ indices km.pressed

theorem Distinct.new (ctx : Ctx) : Distinct (KM.new ctx : KM R Ev Ctx PKS KS) := by
  simp [Distinct, KM.new]

theorem indices_sublist {a b : List (PressedInput R KS)} (h : a.Sublist b) : (indices a).Sublist (indices b) :=
  h.filterMap _

theorem distinct_micro {C : Cfg R Ev Ctx PKS KS} {Q : Event Ev → Prop} {a b : KM R Ev Ctx PKS KS} (h : Distinct a)
    (hq : QInv (fun _ => True) a) (m : Micro C Q a b) : Distinct b := by
  cases m with
  | updKey ev pre i r ks post ks' es s hp hu hs =>
    unfold Distinct at *
    rw [hp] at h
    simpa using h
  | ctxEv ev ctx es s hu hs => exact h
  | take ev s hd => unfold Distinct at *; simpa using h
  | takeNone s hd => exact h
  | pendUpd ev p pks npk es s hp hu hs =>
    refine ⟨h.1, fun p' hp' => ?_⟩
    simp only [Option.some.injEq] at hp'
    subst hp'; exact h.2 p hp
  | pendNpk p r pkr es s hp hu hs =>
    refine ⟨h.1, fun p' hp' => ?_⟩
    simp only [Option.some.injEq] at hp'
    subst hp'; exact h.2 p hp
  | pendSwap p pks q q' hp h1 h2 =>
    refine ⟨h.1, fun p' hp' => ?_⟩
    simp only [Option.some.injEq] at hp'
    subst hp'; exact h.2 p hp
  | resolve p ks km' hp hf he =>
    obtain ⟨_, _, rfl⟩ := resolveEnter_spec (hq.queued p hp) he
    refine ⟨?_, by simp⟩
    have := h.2 p hp
    simp only [indices_append, indices_key, indices_nil]
    rw [List.nodup_append]
    refine ⟨h.1, by simp, fun x hx y hy => ?_⟩
    simp only [List.mem_singleton] at hy
    subst hy
    intro e; subst e; exact this hx
  | queue p ie q hp hq hc =>
    refine ⟨h.1, fun p' hp' => ?_⟩
    simp only [Option.some.injEq] at hp'
    subst hp'; exact h.2 p hp
  | npk idx r pkr es s hp hq hn hu hs => exact h
  | pushKey idx r ks ps hp hq hn hf hc =>
    obtain ⟨_, rfl⟩ := pushCap_eq_ok.1 hc
    refine ⟨?_, by simp [hp]⟩
    have := (hasPressed_false_iff _ _).1 hn
    simp only [indices_append, indices_key, indices_nil]
    rw [List.nodup_append]
    refine ⟨h.1, by simp, fun x hx y hy => ?_⟩
    simp only [List.mem_singleton] at hy
    subst hy
    intro e; subst e; exact this hx
  | startPend idx r pks hp hq hn =>
    refine ⟨h.1, fun p' hp' => ?_⟩
    simp only [Option.some.injEq] at hp'
    subst hp'; exact (hasPressed_false_iff _ _).1 hn
  | remKey idx hp hq =>
    exact ⟨h.1.sublist (indices_sublist (removeKey_sublist _ _)), by simp [hp]⟩
  | pushVirt ko ps hp hq hc =>
    obtain ⟨_, rfl⟩ := pushCap_eq_ok.1 hc
    refine ⟨by simpa using h.1, by simp [hp]⟩
  | remVirt ko hp hq =>
    exact ⟨h.1.sublist (indices_sublist (removeVirt_sublist _ _)), by simp [hp]⟩

theorem distinct_api (C : Cfg R Ev Ctx PKS KS) : ApiInv C Distinct where
  micro := fun _ _ h hq m => distinct_micro h hq m
  frame := fun _ h _ _ _ _ _ => h
  enq := fun _ h _ _ => h
  deq := fun _ h _ _ _ => h
  ctx := fun _ h _ _ => h
  tick := fun _ h _ _ _ => h
  init := by intro a _; simp [Distinct, KM.init]

/-- The scheduler stays sorted. -/
theorem sorted_api (C : Cfg R Ev Ctx PKS KS) : ApiInv C (fun km => km.sched.Sorted) where
  micro := by
    intro a b h hq m
    cases m with
    | updKey ev pre i r ks post ks' es s hp hu hs => exact Sched.scheduleAll_sorted hs h
    | ctxEv ev ctx es s hu hs => exact Sched.scheduleAll_sorted hs h
    | take ev s hd =>
      have := Sched.dequeue_some hd
      simp only [fire_sched]; unfold Sched.Sorted at *; rwa [this.2.1]
    | takeNone s hd =>
      rcases Sched.dequeue_none hd with ⟨_, rfl⟩ | ⟨h1, h2, h3⟩
      · exact h
      · unfold Sched.Sorted at *; simp only; rwa [h2]
    | pendUpd ev p pks npk es s hp hu hs => exact Sched.scheduleAll_sorted hs h
    | pendNpk p r pkr es s hp hu hs => exact Sched.scheduleAll_sorted hs h
    | pendSwap p pks q q' hp h1 h2 => exact h
    | resolve p ks km' hp hf he =>
      obtain ⟨_, _, rfl⟩ := resolveEnter_spec (hq.queued p hp) he
      exact Sched.cancel_sorted _ h
    | queue p ie q hp hq hc => exact h
    | npk idx r pkr es s hp hq hn hu hs => exact Sched.scheduleAll_sorted hs h
    | pushKey idx r ks ps hp hq hn hf hc => exact h
    | startPend idx r pks hp hq hn => exact h
    | remKey idx hp hq => exact h
    | pushVirt ko ps hp hq hc => exact h
    | remVirt ko hp hq => exact h
  frame := fun _ h _ _ _ _ _ => h
  enq := fun _ h _ _ => h
  deq := fun _ h _ _ _ => h
  ctx := fun _ h _ _ => h
  tick := fun _ h _ _ hs => Sched.tick_sorted hs h
  init := by intro a _; simp [Sched.Sorted, KM.init, Sched.init]

/-- What no atomic change touches. -/
structure SameFrame (a b : KM R Ev Ctx PKS KS) : Prop where
  idle : b.idle = a.idle
  delay : b.delay = a.delay
  rep : b.rep = a.rep
  callbacks : b.callbacks = a.callbacks
  ms : b.msPerTick = a.msPerTick
  log : b.log = a.log
  counter : b.sched.counter = a.sched.counter

theorem SameFrame.refl (a : KM R Ev Ctx PKS KS) : SameFrame a a := ⟨rfl, rfl, rfl, rfl, rfl, rfl, rfl⟩
theorem SameFrame.trans {a b c : KM R Ev Ctx PKS KS} (h : SameFrame a b) (h' : SameFrame b c) : SameFrame a c :=
  ⟨h'.idle.trans h.idle, h'.delay.trans h.delay, h'.rep.trans h.rep, h'.callbacks.trans h.callbacks,
    h'.ms.trans h.ms, h'.log.trans h.log, h'.counter.trans h.counter⟩

theorem Sched.scheduleAll_counter {S : Search} {es : KeyEvents Ev} {s s' : Sched Ev}
    (h : s.scheduleAll S es = .ok s') : s'.counter = s.counter := by
  induction es generalizing s with
  | nil => simp only [scheduleAll, Res.ok.injEq] at h; rw [h]
  | cons e es ih =>
    simp only [scheduleAll, Res.bind_eq_ok] at h
    obtain ⟨s1, h1, h2⟩ := h
    rw [ih h2]
    rcases Sched.scheduleEvent_cases h1 with ⟨_, _, rfl⟩ | ⟨d, _, h⟩
    · rfl
    · exact (Sched.scheduleAfter_spec h).2.1

theorem requeue_counter {C : Cfg R Ev Ctx PKS KS} {es : List (Event Ev)} {i : Nat} {q q' : List InputEvent}
    {s s' : Sched Ev} (h : requeue C i es q s = .ok (q', s')) : s'.counter = s.counter := by
  induction es generalizing i q s with
  | nil => simp only [requeue, Res.ok.injEq, Prod.mk.injEq] at h; rw [h.2]
  | cons e es ih =>
    cases e with
    | input ie =>
      simp only [requeue, Res.bind_eq_ok] at h
      obtain ⟨q1, _, h2⟩ := h
      exact ih h2
    | key j x =>
      simp only [requeue, Res.bind_eq_ok] at h
      obtain ⟨s1, h1, h2⟩ := h
      rw [ih h2, (Sched.scheduleAfter_spec h1).2.1]
    | keymap x =>
      simp only [requeue, Res.bind_eq_ok] at h
      obtain ⟨s1, h1, h2⟩ := h
      rw [ih h2, (Sched.scheduleAfter_spec h1).2.1]

theorem sameFrame_micro {C : Cfg R Ev Ctx PKS KS} {Q : Event Ev → Prop} {a b : KM R Ev Ctx PKS KS}
    (m : Micro C Q a b) : SameFrame a b := by
  cases m with
  | updKey ev pre i r ks post ks' es s hp hu hs => exact ⟨rfl, rfl, rfl, rfl, rfl, rfl, Sched.scheduleAll_counter hs⟩
  | ctxEv ev ctx es s hu hs => exact ⟨rfl, rfl, rfl, rfl, rfl, rfl, Sched.scheduleAll_counter hs⟩
  | take ev s hd =>
    have := Sched.dequeue_some hd
    have hc : ({ a with sched := s }.fire ev).sched.counter = a.sched.counter := by simp [this.2.2]
    refine ⟨?_, ?_, ?_, ?_, ?_, ?_, hc⟩ <;>
      (unfold KM.fire; split; (split <;> rfl); rfl)
  | takeNone s hd =>
    rcases Sched.dequeue_none hd with ⟨_, rfl⟩ | ⟨h1, h2, h3⟩
    · exact SameFrame.refl _
    · exact ⟨rfl, rfl, rfl, rfl, rfl, rfl, h3⟩
  | pendUpd ev p pks npk es s hp hu hs => exact ⟨rfl, rfl, rfl, rfl, rfl, rfl, Sched.scheduleAll_counter hs⟩
  | pendNpk p r pkr es s hp hu hs => exact ⟨rfl, rfl, rfl, rfl, rfl, rfl, Sched.scheduleAll_counter hs⟩
  | pendSwap p pks q q' hp h1 h2 => exact ⟨rfl, rfl, rfl, rfl, rfl, rfl, rfl⟩
  | resolve p ks km' hp hf he =>
    unfold resolveEnter at he
    simp only [Res.bind_eq_ok, Res.pure_eq, Res.ok.injEq] at he
    obtain ⟨ps, h1, ⟨q1, s1⟩, h2, q2, h3, rfl⟩ := he
    refine ⟨rfl, rfl, rfl, rfl, rfl, rfl, ?_⟩
    have := requeue_counter h2
    exact this
  | queue p ie q hp hq hc => exact ⟨rfl, rfl, rfl, rfl, rfl, rfl, rfl⟩
  | npk idx r pkr es s hp hq hn hu hs => exact ⟨rfl, rfl, rfl, rfl, rfl, rfl, Sched.scheduleAll_counter hs⟩
  | pushKey idx r ks ps hp hq hn hf hc => exact ⟨rfl, rfl, rfl, rfl, rfl, rfl, rfl⟩
  | startPend idx r pks hp hq hn => exact ⟨rfl, rfl, rfl, rfl, rfl, rfl, rfl⟩
  | remKey idx hp hq => exact ⟨rfl, rfl, rfl, rfl, rfl, rfl, rfl⟩
  | pushVirt ko ps hp hq hc => exact ⟨rfl, rfl, rfl, rfl, rfl, rfl, rfl⟩
  | remVirt ko hp hq => exact ⟨rfl, rfl, rfl, rfl, rfl, rfl, rfl⟩

theorem Steps.sameFrame {C : Cfg R Ev Ctx PKS KS} {Q : Event Ev → Prop} {a b : KM R Ev Ctx PKS KS}
    (m : Steps C Q a b) : SameFrame a b :=
  m.rel SameFrame.refl (fun _ _ _ h h' => h.trans h') (fun _ _ m => sameFrame_micro m)

/-! ## Nothing immediate is left behind -/

/-- No cancelled entry in the queue of immediate events. -/
def NoDead (km : KM R Ev Ctx PKS KS) : Prop := none ∉ km.sched.pending

theorem scheduleAll_noDead {S : Search} {es : KeyEvents Ev} {s s' : Sched Ev}
    (h : s.scheduleAll S es = .ok s') (hn : none ∉ s.pending) : none ∉ s'.pending := by
  induction es generalizing s with
  | nil => simp only [Sched.scheduleAll, Res.ok.injEq] at h; rwa [← h]
  | cons e es ih =>
    simp only [Sched.scheduleAll, Res.bind_eq_ok] at h
    obtain ⟨s1, h1, h2⟩ := h
    refine ih h2 ?_
    rcases Sched.scheduleEvent_cases h1 with ⟨_, _, rfl⟩ | ⟨d, _, h⟩
    · simp [hn]
    · rw [(Sched.scheduleAfter_spec h).1]; exact hn

theorem noDead_micro {C : Cfg R Ev Ctx PKS KS} {Q : Event Ev → Prop} {a b : KM R Ev Ctx PKS KS}
    (h : NoDead a) (hq : QInv (fun _ => True) a) (m : Micro C Q a b) : NoDead b := by
  cases m with
  | updKey ev pre i r ks post ks' es s hp hu hs => exact scheduleAll_noDead hs h
  | ctxEv ev ctx es s hu hs => exact scheduleAll_noDead hs h
  | take ev s hd =>
    have := Sched.dequeue_some hd
    unfold NoDead at *
    simp only [fire_sched]
    rw [this.1] at h
    simp only [List.mem_cons, not_or] at h
    exact h.2
  | takeNone s hd =>
    rcases Sched.dequeue_none hd with ⟨_, rfl⟩ | ⟨h1, h2, h3⟩
    · exact h
    · unfold NoDead at h; rw [h1] at h; simp at h
  | pendUpd ev p pks npk es s hp hu hs => exact scheduleAll_noDead hs h
  | pendNpk p r pkr es s hp hu hs => exact scheduleAll_noDead hs h
  | pendSwap p pks q q' hp h1 h2 => exact h
  | resolve p ks km' hp hf he =>
    obtain ⟨_, _, rfl⟩ := resolveEnter_spec (hq.queued p hp) he
    exact h
  | queue p ie q hp hq hc => exact h
  | npk idx r pkr es s hp hq hn hu hs => exact scheduleAll_noDead hs h
  | pushKey idx r ks ps hp hq hn hf hc => exact h
  | startPend idx r pks hp hq hn => exact h
  | remKey idx hp hq => exact h
  | pushVirt ko ps hp hq hc => exact h
  | remVirt ko hp hq => exact h

theorem Steps.noDead {C : Cfg R Ev Ctx PKS KS} {Q : Event Ev → Prop} {a b : KM R Ev Ctx PKS KS}
    (m : Steps C Q a b) (h : NoDead a) (hq : QInv (fun _ => True) a) : NoDead b :=
  (m.inv (I := fun km => NoDead km ∧ QInv (fun _ => True) km)
    (fun _ _ h m => ⟨noDead_micro h.1 h.2 m, h.2.micro (Emits.trivial C) m⟩) ⟨h, hq⟩).1

theorem drain_empties {C : Cfg R Ev Ctx PKS KS} {n m : Nat} {a b : KM R Ev Ctx PKS KS} (hd : NoDead a)
    (hq : QInv (fun _ => True) a) (h : drain (handleEvent C m) n a = .ok b) : b.sched.pending = [] := by
  induction n generalizing a with
  | zero => simp [drain] at h
  | succ n ih =>
    unfold drain at h
    split at h
    · rename_i s hs
      simp only [Res.ok.injEq] at h
      subst h
      rcases Sched.dequeue_none hs with ⟨h1, rfl⟩ | ⟨h1, h2, h3⟩
      · exact h1
      · unfold NoDead at hd; rw [h1] at hd; simp at hd
    · rename_i ev s hs
      simp only [Res.bind_eq_ok] at h
      obtain ⟨km1, h1, h2⟩ := h
      have hpd := Sched.dequeue_some hs
      have hq1 : QInv (fun _ => True) ({ a with sched := s }) :=
        ⟨fun e _ => True.intro, fun t _ => True.intro, hq.queued⟩
      have s1 := handleEvent_steps (Emits.trivial C) m _ ev km1 hq1 True.intro h1
      have nd1 : NoDead ({ a with sched := s }) := by
        unfold NoDead at *
        rw [hpd.1] at hd
        simp only [List.mem_cons, not_or] at hd
        exact hd.2
      refine ih (s1.noDead ?_ (hq1.fire ev)) ((hq1.fire ev).steps (Emits.trivial C) s1) h2
      unfold NoDead at *; simpa using nd1

theorem processInputN_empties {C : Cfg R Ev Ctx PKS KS} {n : Nat} {a b : KM R Ev Ctx PKS KS} {ie : InputEvent}
    (hd : NoDead a) (hq : QInv (fun _ => True) a) (h : processInputN C n a ie = .ok b) : b.sched.pending = [] := by
  have hE := Emits.trivial C
  have hh := handleEvent_steps hE n
  unfold processInputN processInput at h
  simp only at h
  split at h
  · rename_i p hp
    simp only [Res.bind_eq_ok] at h
    obtain ⟨q, h3, km1, h4, h2⟩ := h
    have m1 : Micro C (fun _ => True) a { a with pend := some { p with queued := q } } := .queue a p ie q hp True.intro h3
    have s1 := Steps.cons m1 (updatePending_steps hE hh (hq.micro hE m1) h4)
    exact drain_empties (s1.noDead hd hq) (hq.steps hE s1) h2
  · rename_i hp
    simp only [Res.bind_eq_ok] at h
    obtain ⟨km1, h1, h2⟩ := h
    have s1 := processDirect_steps hE hh hq hp True.intro h1
    exact drain_empties (s1.noDead hd hq) (hq.steps hE s1) h2

/-- The queue of immediate events is empty. -/
def Quiet (km : KM R Ev Ctx PKS KS) : Prop := km.sched.pending = [] ∧ QInv (fun _ => True) km

theorem Quiet.noDead {km : KM R Ev Ctx PKS KS} (h : Quiet km) : NoDead km := by
  unfold NoDead; rw [h.1]; simp

theorem quiet_handleInput {C : Cfg R Ev Ctx PKS KS} {n : Nat} {a b : KM R Ev Ctx PKS KS} {ie : InputEvent}
    (hq : Quiet a) (h : handleInput C n a ie = .ok b) : Quiet b := by
  refine ⟨?_, ((qinv_api (fun _ => True) (Emits.trivial C)).handleInput ⟨hq.2, hq.2⟩ h).1⟩
  unfold handleInput at h
  simp only at h
  split at h
  · simp only [Res.ok.injEq] at h; subst h; exact hq.1
  · split at h
    · split at h
      · simp at h
      · simp only [Res.bind_eq_ok, Res.pure_eq, Res.ok.injEq] at h
        obtain ⟨km1, h2, rfl⟩ := h
        refine processInputN_empties (b := km1) ?_ ?_ h2
        · exact hq.noDead
        · exact ⟨hq.2.1, hq.2.2, hq.2.3⟩
    · simp only [Res.ok.injEq] at h; subst h; exact hq.1

theorem quiet_tickInput {C : Cfg R Ev Ctx PKS KS} {n : Nat} {a b : KM R Ev Ctx PKS KS}
    (hq : Quiet a) (h : tickInput C n a = .ok b) : Quiet b := by
  refine ⟨?_, ((qinv_api (fun _ => True) (Emits.trivial C)).tickInput ⟨hq.2, hq.2⟩ h).1⟩
  unfold tickInput at h
  split at h
  · split at h
    · simp only [Res.bind_eq_ok, Res.pure_eq, Res.ok.injEq] at h
      obtain ⟨km1, h2, rfl⟩ := h
      refine processInputN_empties (b := km1) ?_ ?_ h2
      · exact hq.noDead
      · exact ⟨hq.2.1, hq.2.2, hq.2.3⟩
    · simp only [Res.ok.injEq] at h; subst h; exact hq.1
  · simp only [Res.ok.injEq] at h; subst h; exact hq.1

theorem quiet_tick {C : Cfg R Ev Ctx PKS KS} {n : Nat} {a b : KM R Ev Ctx PKS KS}
    (hq : Quiet a) (h : tick C n a = .ok b) : Quiet b := by
  refine ⟨?_, ((qinv_api (fun _ => True) (Emits.trivial C)).tickCall ⟨hq.2, hq.2⟩ h).1⟩
  obtain ⟨km1, s, km2, h1, h2, h3, _, rfl⟩ := tick_eq_ok h
  have q1 : Quiet km1 := quiet_tickInput (a := { a with ctx := C.sys.setCtx a.ctx a.sched.counter a.idle })
    ⟨hq.1, ⟨hq.2.1, hq.2.2, hq.2.3⟩⟩ h1
  show km2.sched.pending = []
  have hq2 : QInv (fun _ => True) ({ km1 with delay := km1.delay - 1, sched := s }) :=
    ⟨fun _ _ => True.intro, fun _ _ => True.intro, q1.2.queued⟩
  have hsp : s.pending = [] ∨ (∃ e, s.pending = [some e]) ∨ s.pending = [none] := by
    obtain ⟨_, (⟨rfl, _⟩ | ⟨t, rest, he, ht, _, rfl⟩)⟩ := Sched.tick_eq_ok h2
    · left; exact q1.1
    · right
      simp only [q1.1, List.nil_append]
      cases t.live
      · right; rfl
      · left; exact ⟨_, rfl⟩
  rcases hsp with hsp | ⟨e, hsp⟩ | hsp
  · exact drain_empties (by unfold NoDead; simp [hsp]) hq2 h3
  · exact drain_empties (by unfold NoDead; simp [hsp]) hq2 h3
  · unfold drainN at h3
    cases n with
    | zero => simp [drain] at h3
    | succ n =>
      simp only [drain, Sched.dequeue, hsp, Res.ok.injEq] at h3
      rw [← h3]

theorem quiet_ticks {C : Cfg R Ev Ctx PKS KS} {n k : Nat} {a b : KM R Ev Ctx PKS KS}
    (hq : Quiet a) (h : ticks C n k a = .ok b) : Quiet b := by
  induction k generalizing a with
  | zero => simp only [ticks, Res.ok.injEq] at h; subst h; exact hq
  | succ k ih =>
    simp only [ticks, Res.bind_eq_ok] at h
    obtain ⟨km1, h1, h2⟩ := h
    exact ih (quiet_tick hq h1) h2

theorem quiet_tickBy {C : Cfg R Ev Ctx PKS KS} {n d : Nat} {a b : KM R Ev Ctx PKS KS}
    (hq : Quiet a) (h : tickBy C n a d = .ok b) : Quiet b := by
  unfold tickBy at h
  split at h
  · exact quiet_tick hq h
  · split at h
    · simp at h
    · exact quiet_ticks hq h

theorem quiet_step {C : Cfg R Ev Ctx PKS KS} {n : Nat} {a b : KM R Ev Ctx PKS KS} {op : Op}
    (hq : Quiet a) (h : step C n a op = .ok b) : Quiet b := by
  refine ⟨?_, ((qinv_api (fun _ => True) (Emits.trivial C)).step ⟨hq.2, hq.2⟩ h).1⟩
  cases op with
  | input ev => exact (quiet_handleInput hq h).1
  | tick => exact (quiet_tick hq h).1
  | report =>
    simp only [step, reportOutput, map_eq_pure_bind, Res.bind_eq_ok, Res.pure_eq, Res.ok.injEq, bind_assoc] at h
    obtain ⟨os, h1, x, rfl, rfl⟩ := h
    exact hq.1
  | init =>
    simp only [step, Res.ok.injEq] at h; subst h
    simp [KM.init, Sched.init, hq.1, Sched.initDrain]
  | setCallback c f =>
    simp only [step, KM.setCallback] at h
    split at h
    · simp only [Res.ok.injEq] at h; subst h; exact hq.1
    · simp at h
  | setMsPerTick ms => simp only [step, Res.ok.injEq] at h; subst h; exact hq.1
  | inputAfter d ev =>
    simp only [step, handleInputAfterTime, map_eq_pure_bind, Res.bind_eq_ok, Res.pure_eq, Res.ok.injEq] at h
    obtain ⟨x, ⟨km1, h1, km2, h2, r, h3, h4⟩, h5⟩ := h
    split at h4
    · simp at h4
    · simp only [Res.ok.injEq] at h4
      subst h4; subst h5
      exact (quiet_handleInput (quiet_tickBy hq h1) h2).1
  | tickToNext =>
    simp only [step, tickToNext, map_eq_pure_bind, Res.bind_eq_ok, Res.pure_eq, Res.ok.injEq] at h
    obtain ⟨x, ⟨o, h1, h2⟩, h5⟩ := h
    cases o with
    | none => simp only [Res.ok.injEq] at h2; subst h2; subst h5; exact hq.1
    | some d =>
      simp only [Res.bind_eq_ok, Res.ok.injEq] at h2
      obtain ⟨km1, h3, r, h4, rfl⟩ := h2
      subst h5
      exact (quiet_tickBy hq h3).1

theorem quiet_new (ctx : Ctx) : Quiet (KM.new ctx : KM R Ev Ctx PKS KS) := ⟨rfl, QInv.new _ ctx⟩

theorem quiet_run {C : Cfg R Ev Ctx PKS KS} {n : Nat} {a b : KM R Ev Ctx PKS KS} {ops : List Op}
    (hq : Quiet a) (h : run C n a ops = .ok b) : Quiet b := by
  induction ops generalizing a with
  | nil => simp only [run, Res.ok.injEq] at h; subst h; exact hq
  | cons op ops ih =>
    simp only [run, Res.bind_eq_ok] at h
    obtain ⟨km1, h1, h2⟩ := h
    exact ih (quiet_step hq h1) h2

theorem Reachable.quiet {C : Cfg R Ev Ctx PKS KS} {ctx : Ctx} {km : KM R Ev Ctx PKS KS} (h : Reachable C ctx km) :
    Quiet km := by
  obtain ⟨n, ops, h⟩ := h
  exact quiet_run (quiet_new ctx) h

end Verif
