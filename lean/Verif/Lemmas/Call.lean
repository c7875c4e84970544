import Verif.Lemmas.Keymap

/-!
# Properties kept by calls that only bring certain input events
-/

namespace Verif

variable {R Ev Ctx PKS KS : Type}

open Spec (indices keys virtuals)

/-- All events known to the keymap satisfy `Q`: scheduled, buffered and waiting ones. -/
structure QAll (Q : Event Ev → Prop) (km : KM R Ev Ctx PKS KS) : Prop where
  q : QInv Q km
  inq : ∀ ie ∈ km.inq, Q (.input ie)
  buf : ∀ p, km.pend = some p → ∀ e ∈ p.queued, Q e

theorem QInv.true_of {Q : Event Ev → Prop} {km : KM R Ev Ctx PKS KS} (h : QInv Q km) : QInv (fun _ => True) km :=
  h.weaken (fun _ _ => True.intro)

theorem filterMap_inputOf_mem {es : List (Event Ev)} {ie : InputEvent} (h : ie ∈ es.filterMap inputOf?) :
    Event.input ie ∈ es := by
  rw [List.mem_filterMap] at h
  obtain ⟨e, he, h⟩ := h
  cases e <;> simp [inputOf?] at h
  subst h; exact he

theorem QAll.micro {C : Cfg R Ev Ctx PKS KS} {Q : Event Ev → Prop} (hE : Emits C Q) {a b : KM R Ev Ctx PKS KS}
    (h : QAll Q a) (m : Micro C Q a b) : QAll Q b := by
  refine ⟨h.q.micro hE m, ?_, ?_⟩
  · cases m with
    | pendSwap p pks q q' hp h1 h2 =>
      obtain ⟨_, rfl⟩ := extendCap_eq_ok.1 h1
      obtain ⟨_, rfl⟩ := extendCap_eq_ok.1 h2
      intro ie hie
      simp only [List.nil_append, List.mem_append] at hie
      rcases hie with hie | hie
      · exact h.buf p hp _ (List.mem_reverse.1 (filterMap_inputOf_mem hie))
      · exact h.inq _ hie
    | resolve p ks km' hp hf he =>
      obtain ⟨_, _, rfl⟩ := resolveEnter_spec (h.q.queued p hp) he
      intro ie hie
      simp only [List.mem_append] at hie
      rcases hie with hie | hie
      · exact h.buf p hp _ (requeueList_mem (filterMap_inputOf_mem hie))
      · exact h.inq _ hie
    | take ev s hd => simpa using h.inq
    | _ => exact h.inq
  · cases m with
    | pendUpd ev p pks npk es s hp hu hs =>
      intro p' hp'
      simp only [Option.some.injEq] at hp'
      subst hp'; exact h.buf p hp
    | pendNpk p r pkr es s hp hu hs =>
      intro p' hp'
      simp only [Option.some.injEq] at hp'
      subst hp'; exact h.buf p hp
    | pendSwap p pks q q' hp h1 h2 =>
      intro p' hp'
      simp only [Option.some.injEq] at hp'
      subst hp'; simp
    | resolve p ks km' hp hf he =>
      obtain ⟨_, _, rfl⟩ := resolveEnter_spec (h.q.queued p hp) he
      simp
    | queue p ie q hp hq hc =>
      intro p' hp'
      simp only [Option.some.injEq] at hp'
      obtain ⟨_, rfl⟩ := pushCap_eq_ok.1 hc
      subst hp'
      intro e he
      simp only [List.mem_append, List.mem_singleton] at he
      rcases he with he | rfl
      · exact h.buf p hp e he
      · exact hq
    | startPend idx r pks hp hq hn =>
      intro p' hp'
      simp only [Option.some.injEq] at hp'
      subst hp'; simp
    | take ev s hd => simpa using h.buf
    | _ => exact h.buf

theorem QAll.steps {C : Cfg R Ev Ctx PKS KS} {Q : Event Ev → Prop} (hE : Emits C Q) {a b : KM R Ev Ctx PKS KS}
    (h : QAll Q a) (m : Steps C Q a b) : QAll Q b :=
  m.inv (fun _ _ h m => h.micro hE m) h

/-- What has to be checked for a property to be kept by calls that bring only input events
satisfying `Q` (and do not reset the keymap). -/
structure CallInv (C : Cfg R Ev Ctx PKS KS) (Q : Event Ev → Prop) (I : KM R Ev Ctx PKS KS → Prop) : Prop where
  micro : ∀ a b, I a → QAll Q a → Micro C Q a b → I b
  frame : ∀ a, I a → ∀ idle delay rep callbacks ms,
    I { a with idle := idle, delay := delay, rep := rep, callbacks := callbacks, msPerTick := ms }
  enq : ∀ a, I a → ∀ ev, Q (.input ev) → a.inq.length < inputCap → I { a with inq := a.inq ++ [ev] }
  deq : ∀ a, I a → ∀ ie q, a.inq = ie :: q → I { a with inq := q, log := a.log ++ [ie] }
  ctx : ∀ a, I a → ∀ t i, I { a with ctx := C.sys.setCtx a.ctx t i }
  tick : ∀ a, I a → ∀ d s, a.sched.tick d = .ok s → I { a with sched := s }

/-- The input events an operation brings satisfy `Q`, and it is not a reset. -/
def OpOk (Q : Event Ev → Prop) : Op → Prop
  | .input ev => Q (.input ev)
  | .inputAfter _ ev => Q (.input ev)
  | .init => False
  | _ => True

section
variable {C : Cfg R Ev Ctx PKS KS} {Q : Event Ev → Prop} {I : KM R Ev Ctx PKS KS → Prop}

theorem qall_call (hE : Emits C Q) : CallInv C Q (QAll Q) where
  micro := fun a b h _ m => h.micro hE m
  frame := fun a h _ _ _ _ _ => ⟨⟨h.q.pending, h.q.scheduled, h.q.queued⟩, h.inq, h.buf⟩
  enq := fun a h ev hev _ => ⟨⟨h.q.pending, h.q.scheduled, h.q.queued⟩, fun ie hie => by
    simp only [List.mem_append, List.mem_singleton] at hie
    rcases hie with hie | rfl
    · exact h.inq ie hie
    · exact hev, h.buf⟩
  deq := fun a h ie q hq => ⟨⟨h.q.pending, h.q.scheduled, h.q.queued⟩, fun ie hie =>
    h.inq ie (by rw [hq]; exact List.mem_cons_of_mem _ hie), h.buf⟩
  ctx := fun a h _ _ => ⟨⟨h.q.pending, h.q.scheduled, h.q.queued⟩, h.inq, h.buf⟩
  tick := fun a h d s hs => ⟨(qinv_api Q hE).tick a h.q d s hs, h.inq, h.buf⟩

theorem CallInv.and {J : KM R Ev Ctx PKS KS → Prop} (h : CallInv C Q I) (h' : CallInv C Q J) :
    CallInv C Q (fun km => I km ∧ J km) where
  micro := fun a b hh q m => ⟨h.micro a b hh.1 q m, h'.micro a b hh.2 q m⟩
  frame := fun a hh _ _ _ _ _ => ⟨h.frame a hh.1 _ _ _ _ _, h'.frame a hh.2 _ _ _ _ _⟩
  enq := fun a hh _ hq hl => ⟨h.enq a hh.1 _ hq hl, h'.enq a hh.2 _ hq hl⟩
  deq := fun a hh _ _ hl => ⟨h.deq a hh.1 _ _ hl, h'.deq a hh.2 _ _ hl⟩
  ctx := fun a hh _ _ => ⟨h.ctx a hh.1 _ _, h'.ctx a hh.2 _ _⟩
  tick := fun a hh _ _ hl => ⟨h.tick a hh.1 _ _ hl, h'.tick a hh.2 _ _ hl⟩

theorem CallInv.steps (h : CallInv C Q I) (hE : Emits C Q) {a b : KM R Ev Ctx PKS KS} (hs : Steps C Q a b)
    (ha : I a ∧ QAll Q a) : I b ∧ QAll Q b :=
  hs.inv (I := fun km => I km ∧ QAll Q km) (fun x y hx hm => ⟨h.micro x y hx.1 hx.2 hm, hx.2.micro hE hm⟩) ha

theorem CallInv.processInputN (h : CallInv C Q I) (hE : Emits C Q) {n : Nat} {a b : KM R Ev Ctx PKS KS}
    {ie : InputEvent} (ha : I a ∧ QAll Q a) (hi : Q (.input ie)) (hp : processInputN C n a ie = .ok b) :
    I b ∧ QAll Q b :=
  h.steps hE (processInputN_steps hE ha.2.q hi hp) ha

theorem CallInv.handleInput (h : CallInv C Q I) (hE : Emits C Q) {n : Nat} {a b : KM R Ev Ctx PKS KS}
    {ie : InputEvent} (ha : I a ∧ QAll Q a) (hi : Q (.input ie)) (hp : handleInput C n a ie = .ok b) :
    I b ∧ QAll Q b := by
  have hB := h.and (qall_call hE)
  unfold Verif.handleInput at hp
  have h0 := hB.frame a ha 0 a.delay a.rep a.callbacks a.msPerTick
  simp only at hp
  split at hp
  · simp only [Res.ok.injEq] at hp; subst hp; exact h0
  · rename_i hl
    have h1 := hB.enq _ h0 ie hi (by simp only; omega)
    simp only at h1
    split at hp
    · split at hp
      · simp at hp
      · rename_i ie' q hq
        simp only [Res.bind_eq_ok, Res.pure_eq, Res.ok.injEq] at hp
        obtain ⟨km1, h2, rfl⟩ := hp
        have h3 := hB.deq _ h1 ie' q hq
        have h4 := h.processInputN hE h3 (h1.2.inq ie' (by simp only; rw [hq]; exact List.mem_cons_self)) h2
        exact hB.frame _ h4 km1.idle inputDelay km1.rep km1.callbacks km1.msPerTick
    · simp only [Res.ok.injEq] at hp; subst hp; exact h1

theorem CallInv.tickInput (h : CallInv C Q I) (hE : Emits C Q) {n : Nat} {a b : KM R Ev Ctx PKS KS}
    (ha : I a ∧ QAll Q a) (hp : tickInput C n a = .ok b) : I b ∧ QAll Q b := by
  have hB := h.and (qall_call hE)
  unfold Verif.tickInput at hp
  split at hp
  · rename_i ie q hq
    split at hp
    · simp only [Res.bind_eq_ok, Res.pure_eq, Res.ok.injEq] at hp
      obtain ⟨km1, h2, rfl⟩ := hp
      have h4 := h.processInputN hE (hB.deq _ ha ie q hq) (ha.2.inq ie (by rw [hq]; exact List.mem_cons_self)) h2
      exact hB.frame _ h4 km1.idle inputDelay km1.rep km1.callbacks km1.msPerTick
    · simp only [Res.ok.injEq] at hp; subst hp; exact ha
  · simp only [Res.ok.injEq] at hp; subst hp; exact ha

theorem CallInv.tickCall (h : CallInv C Q I) (hE : Emits C Q) {n : Nat} {a b : KM R Ev Ctx PKS KS}
    (ha : I a ∧ QAll Q a) (hp : Verif.tick C n a = .ok b) : I b ∧ QAll Q b := by
  have hB := h.and (qall_call hE)
  obtain ⟨km1, s, km2, h1, h2, h3, _, rfl⟩ := tick_eq_ok hp
  have b1 := h.tickInput hE (hB.ctx a ha _ _) h1
  have b2 := hB.tick _ (hB.frame _ b1 km1.idle (km1.delay - 1) km1.rep km1.callbacks km1.msPerTick) _ s h2
  have b3 := h.steps hE (drainN_steps hE b2.2.q h3) b2
  exact hB.frame _ b3 (km2.idle + km2.msPerTick) km2.delay km2.rep km2.callbacks km2.msPerTick

theorem CallInv.ticks (h : CallInv C Q I) (hE : Emits C Q) {n k : Nat} {a b : KM R Ev Ctx PKS KS}
    (ha : I a ∧ QAll Q a) (hp : Verif.ticks C n k a = .ok b) : I b ∧ QAll Q b := by
  induction k generalizing a with
  | zero => simp only [Verif.ticks, Res.ok.injEq] at hp; subst hp; exact ha
  | succ k ih =>
    simp only [Verif.ticks, Res.bind_eq_ok] at hp
    obtain ⟨km1, h1, h2⟩ := hp
    exact ih (h.tickCall hE ha h1) h2

theorem CallInv.tickBy (h : CallInv C Q I) (hE : Emits C Q) {n d : Nat} {a b : KM R Ev Ctx PKS KS}
    (ha : I a ∧ QAll Q a) (hp : Verif.tickBy C n a d = .ok b) : I b ∧ QAll Q b := by
  unfold Verif.tickBy at hp
  split at hp
  · exact h.tickCall hE ha hp
  · split at hp
    · simp at hp
    · exact h.ticks hE ha hp

theorem CallInv.step (h : CallInv C Q I) (hE : Emits C Q) {n : Nat} {a b : KM R Ev Ctx PKS KS} {op : Op}
    (ho : OpOk Q op) (ha : I a ∧ QAll Q a) (hp : Verif.step C n a op = .ok b) : I b ∧ QAll Q b := by
  have hB := h.and (qall_call hE)
  cases op with
  | input ev => exact h.handleInput hE ha ho hp
  | tick => exact h.tickCall hE ha hp
  | report =>
    simp only [Verif.step, reportOutput, map_eq_pure_bind, Res.bind_eq_ok, Res.pure_eq, Res.ok.injEq, bind_assoc] at hp
    obtain ⟨os, h1, x, rfl, rfl⟩ := hp
    exact hB.frame a ha a.idle a.delay _ a.callbacks a.msPerTick
  | init => exact ho.elim
  | setCallback c f =>
    simp only [Verif.step, KM.setCallback] at hp
    split at hp
    · simp only [Res.ok.injEq] at hp; subst hp
      exact hB.frame a ha a.idle a.delay a.rep _ a.msPerTick
    · simp at hp
  | setMsPerTick ms =>
    simp only [Verif.step, Res.ok.injEq] at hp; subst hp
    exact hB.frame a ha a.idle a.delay a.rep a.callbacks ms
  | inputAfter d ev =>
    simp only [Verif.step, handleInputAfterTime, map_eq_pure_bind, Res.bind_eq_ok, Res.pure_eq, Res.ok.injEq] at hp
    obtain ⟨x, ⟨km1, h1, km2, h2, r, h3, h4⟩, h5⟩ := hp
    split at h4
    · simp at h4
    · simp only [Res.ok.injEq] at h4
      subst h4; subst h5
      exact h.handleInput hE (h.tickBy hE ha h1) ho h2
  | tickToNext =>
    simp only [Verif.step, tickToNext, map_eq_pure_bind, Res.bind_eq_ok, Res.pure_eq, Res.ok.injEq] at hp
    obtain ⟨x, ⟨o, h1, h2⟩, h5⟩ := hp
    cases o with
    | none => simp only [Res.ok.injEq] at h2; subst h2; subst h5; exact ha
    | some d =>
      simp only [Res.bind_eq_ok, Res.ok.injEq] at h2
      obtain ⟨km1, h3, r, h4, rfl⟩ := h2
      subst h5
      exact h.tickBy hE ha h3

theorem CallInv.run (h : CallInv C Q I) (hE : Emits C Q) {n : Nat} {a b : KM R Ev Ctx PKS KS} {ops : List Op}
    (ho : ∀ op ∈ ops, OpOk Q op) (ha : I a ∧ QAll Q a) (hp : Verif.run C n a ops = .ok b) : I b ∧ QAll Q b := by
  induction ops generalizing a with
  | nil => simp only [Verif.run, Res.ok.injEq] at hp; subst hp; exact ha
  | cons op ops ih =>
    simp only [Verif.run, Res.bind_eq_ok] at hp
    obtain ⟨km1, h1, h2⟩ := hp
    exact ih (fun o ho' => ho o (List.mem_cons_of_mem _ ho')) (h.step hE (ho op List.mem_cons_self) ha h1) h2

end

/-! ## Key systems that emit no physical key events -/

/-- Not a press or release of a physical key. -/
def NonPhys (e : Event Ev) : Prop := Spec.physical e = false

/-- Without physical events and without a pending key, the pressed physical keys stay the same. -/
theorem nonphys_micro {C : Cfg R Ev Ctx PKS KS} {a b : KM R Ev Ctx PKS KS} (m : Micro C NonPhys a b)
    (hp : a.pend = none) : b.pend = none ∧ keys b.pressed = keys a.pressed := by
  cases m with
  | updKey ev pre i r ks post ks' es s h hu hs => exact ⟨hp, by simp [h]⟩
  | ctxEv ev ctx es s hu hs => exact ⟨hp, rfl⟩
  | take ev s hd => simp [hp]
  | takeNone s hd => exact ⟨hp, rfl⟩
  | pendUpd ev p pks npk es s h hu hs => simp [hp] at h
  | pendNpk p r pkr es s h hu hs => simp [hp] at h
  | pendSwap p pks q q' h h1 h2 => simp [hp] at h
  | resolve p ks km' h hf he => simp [hp] at h
  | queue p ie q h hq hc => simp [hp] at h
  | npk idx r pkr es s h hq hn hu hs => exact ⟨hp, rfl⟩
  | pushKey idx r ks ps h hq hn hf hc => simp [NonPhys, Spec.physical] at hq
  | startPend idx r pks h hq hn => simp [NonPhys, Spec.physical] at hq
  | remKey idx h hq => simp [NonPhys, Spec.physical] at hq
  | pushVirt ko ps h hq hc =>
    obtain ⟨_, rfl⟩ := pushCap_eq_ok.1 hc
    exact ⟨hp, by simp⟩
  | remVirt ko h hq => exact ⟨hp, keys_removeVirt _ _⟩

theorem nonphys_steps {C : Cfg R Ev Ctx PKS KS} {a b : KM R Ev Ctx PKS KS} (m : Steps C NonPhys a b)
    (hp : a.pend = none) : b.pend = none ∧ keys b.pressed = keys a.pressed :=
  m.inv (I := fun km => km.pend = none ∧ keys km.pressed = keys a.pressed)
    (fun _ _ h m => by have := nonphys_micro m h.1; exact ⟨this.1, this.2.trans h.2⟩) ⟨hp, rfl⟩

/-- `processInputN` without a pending key: react to the event, then to its consequences. -/
theorem processInputN_direct {C : Cfg R Ev Ctx PKS KS} {n : Nat} {a b : KM R Ev Ctx PKS KS} {ie : InputEvent}
    (hp : a.pend = none) (h : processInputN C n a ie = .ok b) :
    ∃ c, processDirect C (handleEvent C n) n a ie = .ok c ∧ drainN C n c = .ok b := by
  unfold processInputN processInput at h
  simp only [hp, Res.bind_eq_ok] at h
  exact h

/-- Telling keys and context about an event keeps the pressed keys, and emits only what the key
system emits. -/
theorem notifyPressed_shape {C : Cfg R Ev Ctx PKS KS} {ctx : Ctx} {ev : Event Ev} {ps ps' : List (PressedInput R KS)}
    {s s' : Sched Ev} (h : notifyPressed C ctx ev ps s = .ok (ps', s')) :
    keys ps' = keys ps ∧ virtuals ps' = virtuals ps ∧ indices ps' = indices ps ∧ ps'.length = ps.length := by
  induction ps generalizing ps' s with
  | nil => simp only [notifyPressed, Res.ok.injEq, Prod.mk.injEq] at h; simp [← h.1]
  | cons x ps ih =>
    cases x with
    | virt ko =>
      simp only [notifyPressed, Res.bind_eq_ok, Res.pure_eq, Res.ok.injEq, Prod.mk.injEq] at h
      obtain ⟨⟨ps1, s1⟩, h1, rfl, rfl⟩ := h
      have := ih h1
      simp [this]
    | key i r ks =>
      simp only [notifyPressed, Res.bind_eq_ok, Res.pure_eq, Res.ok.injEq, Prod.mk.injEq] at h
      obtain ⟨⟨ks', es⟩, h1, s1, h2, ⟨ps1, s2⟩, h3, rfl, rfl⟩ := h
      have := ih h3
      simp [this]

theorem notifyAll_shape {C : Cfg R Ev Ctx PKS KS} {a b : KM R Ev Ctx PKS KS} {ev : Event Ev}
    (h : notifyAll C a ev = .ok b) :
    b.pend = a.pend ∧ keys b.pressed = keys a.pressed ∧ virtuals b.pressed = virtuals a.pressed ∧
      indices b.pressed = indices a.pressed ∧ b.pressed.length = a.pressed.length := by
  unfold notifyAll at h
  simp only [Res.bind_eq_ok, Res.pure_eq, Res.ok.injEq] at h
  obtain ⟨⟨ps, s⟩, h1, ⟨ctx, es⟩, h2, s', h3, rfl⟩ := h
  exact ⟨rfl, notifyPressed_shape h1⟩

end Verif
