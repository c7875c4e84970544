import Verif.Keymap
import Verif.Lemmas.Scheduler

/-!
# The keymap's calls as sequences of small steps

`Micro C Q` lists the atomic state changes the keymap makes while it handles events; `Q` restricts
the input events that are processed. Every private method of the keymap is shown to be a sequence of
such steps, so that an invariant only has to be checked step by step.
-/

namespace Verif

variable {R Ev Ctx PKS KS : Type}

/-- The key state comes from the key system (or is the no-op state). -/
def FromSys (C : Cfg R Ev Ctx PKS KS) (idx : Nat) (r : R) (ks : KS) : Prop :=
  ks = C.sys.noOp ∨ ∃ ctx es, C.sys.newPressedKey idx ctx r = .ok (.resolved ks, es)

/-- `r` is what the key system makes of the key reference at index `idx`. -/
inductive PressRef (C : Cfg R Ev Ctx PKS KS) (idx : Nat) : R → Prop
  | base {r} : Res.index C.keyRefs idx = .ok r → PressRef C idx r
  | step {r r' ctx es} : PressRef C idx r → C.sys.newPressedKey idx ctx r = .ok (.newPressedKey (.key r'), es) →
      PressRef C idx r'

/-- The pending key `r` at index `idx` becomes `r'`. -/
def Becomes (C : Cfg R Ev Ctx PKS KS) (idx : Nat) (r r' : R) : Prop :=
  (∃ p c ev p' es, C.sys.updatePending p idx c r ev = .ok (p', some (.key r'), es)) ∨
    ∃ c es, C.sys.newPressedKey idx c r = .ok (.newPressedKey (.key r'), es)

/-- `pks` is the pending state of the key `r`. -/
def IsPending (C : Cfg R Ev Ctx PKS KS) (idx : Nat) (r : R) (pks : PKS) : Prop :=
  ∃ c es, C.sys.newPressedKey idx c r = .ok (.pending pks, es)

/-- One atomic change. -/
inductive Micro (C : Cfg R Ev Ctx PKS KS) (Q : Event Ev → Prop) :
    KM R Ev Ctx PKS KS → KM R Ev Ctx PKS KS → Prop
  /-- a pressed key is updated with an event -/
  | updKey (km ev pre i r ks post ks' es s) (h : km.pressed = pre ++ .key i r ks :: post)
      (hu : C.sys.updateState ks r km.ctx i ev = .ok (ks', es))
      (hs : km.sched.scheduleAll C.search es = .ok s) :
      Micro C Q km { km with pressed := pre ++ .key i r ks' :: post, sched := s }
  /-- the context is updated with an event -/
  | ctxEv (km ev ctx es s) (hu : C.sys.ctxEvent km.ctx ev = .ok (ctx, es))
      (hs : km.sched.scheduleAll C.search es = .ok s) :
      Micro C Q km { km with ctx := ctx, sched := s }
  /-- an event is taken from the queue; a callback event calls the callback -/
  | take (km ev s) (h : km.sched.dequeue = (some ev, s)) :
      Micro C Q km ({ km with sched := s }.fire ev)
  /-- nothing is in the queue, or a cancelled event is dropped -/
  | takeNone (km s) (h : km.sched.dequeue = (none, s)) : Micro C Q km { km with sched := s }
  /-- the pending key is updated with an event -/
  | pendUpd (km ev p pks npk es s) (h : km.pend = some p)
      (hu : C.sys.updatePending p.pks p.idx km.ctx p.ref ev = .ok (pks, npk, es))
      (hs : km.sched.scheduleAll C.search es = .ok s) :
      Micro C Q km { km with sched := s, pend := some { p with pks := pks } }
  /-- the pending key becomes another key -/
  | pendNpk (km p r pkr es s) (h : km.pend = some p)
      (hu : C.sys.newPressedKey p.idx km.ctx r = .ok (pkr, es))
      (hs : km.sched.scheduleAll C.search es = .ok s) (hb : Becomes C p.idx p.ref r) :
      Micro C Q km { km with sched := s, pend := some { p with ref := r } }
  /-- the pending key becomes another pending key -/
  | pendSwap (km p pks q q') (h : km.pend = some p)
      (h1 : extendCap inputCap [] (p.queued.reverse.filterMap inputOf?) = .ok q)
      (h2 : extendCap inputCap q km.inq = .ok q') (hb : IsPending C p.idx p.ref pks) :
      Micro C Q km { km with pend := some { p with pks := pks, queued := [] }, inq := q' }
  /-- the pending key is resolved -/
  | resolve (km p ks km') (h : km.pend = some p) (hf : FromSys C p.idx p.ref ks)
      (he : resolveEnter C km p ks = .ok km') : Micro C Q km km'
  /-- an input event waits for the pending key -/
  | queue (km p ie q) (h : km.pend = some p) (hq : Q (.input ie))
      (hc : pushCap maxPressedKeys p.queued (.input ie) = .ok q) :
      Micro C Q km { km with pend := some { p with queued := q } }
  /-- the key system is asked for the key at a pressed index -/
  | npk (km idx r pkr es s) (h : km.pend = none) (hq : Q (.input (.press idx)))
      (hn : hasPressed idx km.pressed = false)
      (hu : C.sys.newPressedKey idx km.ctx r = .ok (pkr, es))
      (hs : km.sched.scheduleAll C.search es = .ok s) (hb : PressRef C idx r) : Micro C Q km { km with sched := s }
  /-- a key is pressed -/
  | pushKey (km idx r ks ps) (h : km.pend = none) (hq : Q (.input (.press idx)))
      (hn : hasPressed idx km.pressed = false) (hf : FromSys C idx r ks)
      (hc : pushCap maxPressedKeys km.pressed (.key idx r ks) = .ok ps) (hb : PressRef C idx r) :
      Micro C Q km { km with pressed := ps }
  /-- a pressed key is pending -/
  | startPend (km idx r pks) (h : km.pend = none) (hq : Q (.input (.press idx)))
      (hn : hasPressed idx km.pressed = false) (hb : PressRef C idx r) (hi : IsPending C idx r pks) :
      Micro C Q km { km with pend := some ⟨idx, r, pks, []⟩ }
  /-- a key is released -/
  | remKey (km idx) (h : km.pend = none) (hq : Q (.input (.release idx))) :
      Micro C Q km { km with pressed := removeKey idx km.pressed }
  /-- a virtual key is pressed -/
  | pushVirt (km ko ps) (h : km.pend = none) (hq : Q (.input (.vpress ko)))
      (hc : pushCap maxPressedKeys km.pressed (.virt ko) = .ok ps) :
      Micro C Q km { km with pressed := ps }
  /-- a virtual key is released -/
  | remVirt (km ko) (h : km.pend = none) (hq : Q (.input (.vrelease ko))) :
      Micro C Q km { km with pressed := removeVirt ko km.pressed }

/-- Any number of atomic changes. -/
inductive Steps (C : Cfg R Ev Ctx PKS KS) (Q : Event Ev → Prop) :
    KM R Ev Ctx PKS KS → KM R Ev Ctx PKS KS → Prop
  | refl (km) : Steps C Q km km
  | cons {km km1 km2} : Micro C Q km km1 → Steps C Q km1 km2 → Steps C Q km km2

namespace Steps
variable {C : Cfg R Ev Ctx PKS KS} {Q : Event Ev → Prop}

theorem trans {a b c : KM R Ev Ctx PKS KS} (h : Steps C Q a b) (h' : Steps C Q b c) : Steps C Q a c := by
  induction h with
  | refl => exact h'
  | cons m _ ih => exact .cons m (ih h')

theorem one {a b : KM R Ev Ctx PKS KS} (h : Micro C Q a b) : Steps C Q a b := .cons h (.refl _)

/-- Invariants are checked step by step. -/
theorem inv {I : KM R Ev Ctx PKS KS → Prop} (hi : ∀ a b, I a → Micro C Q a b → I b)
    {a b : KM R Ev Ctx PKS KS} (h : Steps C Q a b) (ha : I a) : I b := by
  induction h with
  | refl => exact ha
  | cons m _ ih => exact ih (hi _ _ ha m)

/-- Relations are checked step by step. -/
theorem rel {I : KM R Ev Ctx PKS KS → KM R Ev Ctx PKS KS → Prop} (hr : ∀ a, I a a)
    (ht : ∀ a b c, I a b → I b c → I a c) (hi : ∀ a b, Micro C Q a b → I a b)
    {a b : KM R Ev Ctx PKS KS} (h : Steps C Q a b) : I a b := by
  induction h with
  | refl => exact hr _
  | cons m _ ih => exact ht _ _ _ (hi _ _ m) ih

theorem mono {Q' : Event Ev → Prop} (hQ : ∀ e, Q e → Q' e) {a b : KM R Ev Ctx PKS KS}
    (h : Steps C Q a b) : Steps C Q' a b := by
  induction h with
  | refl => exact .refl _
  | cons m _ ih =>
    refine .cons ?_ ih
    cases m with
    | updKey ev pre i r ks post ks' es s h hu hs => exact .updKey _ ev pre i r ks post ks' es s h hu hs
    | ctxEv ev ctx es s hu hs => exact .ctxEv _ ev ctx es s hu hs
    | take ev s h => exact .take _ ev s h
    | takeNone s h => exact .takeNone _ s h
    | pendUpd ev p pks npk es s h hu hs => exact .pendUpd _ ev p pks npk es s h hu hs
    | pendNpk p r pkr es s h hu hs hb => exact .pendNpk _ p r pkr es s h hu hs hb
    | pendSwap p pks q q' h h1 h2 hb => exact .pendSwap _ p pks q q' h h1 h2 hb
    | resolve p ks km' h hf he => exact .resolve _ p ks _ h hf he
    | queue p ie q h hq hc => exact .queue _ p ie q h (hQ _ hq) hc
    | npk idx r pkr es s h hq hn hu hs hb => exact .npk _ idx r pkr es s h (hQ _ hq) hn hu hs hb
    | pushKey idx r ks ps h hq hn hf hc hb => exact .pushKey _ idx r ks ps h (hQ _ hq) hn hf hc hb
    | startPend idx r pks h hq hn hb hi => exact .startPend _ idx r pks h (hQ _ hq) hn hb hi
    | remKey idx h hq => exact .remKey _ idx h (hQ _ hq)
    | pushVirt ko ps h hq hc => exact .pushVirt _ ko ps h (hQ _ hq) hc
    | remVirt ko h hq => exact .remVirt _ ko h (hQ _ hq)

end Steps

/-- All events the key system emits satisfy `Q`. -/
structure Emits (C : Cfg R Ev Ctx PKS KS) (Q : Event Ev → Prop) : Prop where
  npk : ∀ i c r x es, C.sys.newPressedKey i c r = .ok (x, es) → ∀ e ∈ es, Q e.event
  pend : ∀ p i c r ev x y es, C.sys.updatePending p i c r ev = .ok (x, y, es) → ∀ e ∈ es, Q e.event
  state : ∀ ks r c i ev x es, C.sys.updateState ks r c i ev = .ok (x, es) → ∀ e ∈ es, Q e.event
  ctx : ∀ c ev x es, C.sys.ctxEvent c ev = .ok (x, es) → ∀ e ∈ es, Q e.event
  resolved : ∀ i ko, Q (.keymap (.resolved i ko))

/-- All events in the scheduler satisfy `Q`; events waiting for a pending key are input events. -/
structure QInv (Q : Event Ev → Prop) (km : KM R Ev Ctx PKS KS) : Prop where
  pending : ∀ e, some e ∈ km.sched.pending → Q e
  scheduled : ∀ t ∈ km.sched.scheduled, Q t.event
  queued : ∀ p, km.pend = some p → ∀ e ∈ p.queued, ∃ ie, e = .input ie

/-- Events in a scheduler. -/
def Sched.Has (s : Sched Ev) (e : Event Ev) : Prop := some e ∈ s.pending ∨ ∃ t ∈ s.scheduled, t.event = e

theorem Sched.scheduleEvent_has {S : Search} {s s' : Sched Ev} {se : SchEv Ev} (h : s.scheduleEvent S se = .ok s')
    {e : Event Ev} (he : s'.Has e) : s.Has e ∨ se.event = e := by
  rcases Sched.scheduleEvent_cases h with ⟨_, _, rfl⟩ | ⟨d, _, h⟩
  · rcases he with he | he
    · simp only [List.mem_append, List.mem_singleton, Option.some.injEq] at he
      rcases he with he | rfl
      · exact Or.inl (Or.inl he)
      · exact Or.inr rfl
    · exact Or.inl (Or.inr he)
  · obtain ⟨a1, a2, a3, _⟩ := Sched.scheduleAfter_spec h
    rcases he with he | ⟨t, ht, rfl⟩
    · rw [a1] at he; exact Or.inl (Or.inl he)
    · rcases List.mem_cons.1 (a3.mem_iff.1 ht) with rfl | ht
      · exact Or.inr rfl
      · exact Or.inl (Or.inr ⟨t, ht, rfl⟩)

theorem Sched.scheduleAll_has {S : Search} {es : KeyEvents Ev} {s s' : Sched Ev}
    (h : s.scheduleAll S es = .ok s') {e : Event Ev} (he : s'.Has e) : s.Has e ∨ ∃ se ∈ es, se.event = e := by
  induction es generalizing s with
  | nil => simp only [scheduleAll, Res.ok.injEq] at h; subst h; exact Or.inl he
  | cons a es ih =>
    simp only [scheduleAll, Res.bind_eq_ok] at h
    obtain ⟨s1, h1, h2⟩ := h
    rcases ih h2 with h | ⟨se, hm, rfl⟩
    · rcases Sched.scheduleEvent_has h1 h with h | rfl
      · exact Or.inl h
      · exact Or.inr ⟨a, List.mem_cons_self, rfl⟩
    · exact Or.inr ⟨se, List.mem_cons_of_mem _ hm, rfl⟩

theorem Sched.dequeue_some {s s' : Sched Ev} {ev : Event Ev} (h : s.dequeue = (some ev, s')) :
    s.pending = some ev :: s'.pending ∧ s'.scheduled = s.scheduled ∧ s'.counter = s.counter := by
  unfold Sched.dequeue at h
  cases hp : s.pending with
  | nil => simp [hp] at h
  | cons x q =>
    simp only [hp, Prod.mk.injEq] at h
    obtain ⟨rfl, rfl⟩ := h
    exact ⟨rfl, rfl, rfl⟩

theorem Sched.dequeue_none {s s' : Sched Ev} (h : s.dequeue = (none, s')) :
    (s.pending = [] ∧ s' = s) ∨ (s.pending = none :: s'.pending ∧ s'.scheduled = s.scheduled ∧ s'.counter = s.counter) := by
  unfold Sched.dequeue at h
  cases hp : s.pending with
  | nil => simp [hp] at h; exact Or.inl ⟨rfl, h.symm⟩
  | cons x q =>
    simp only [hp, Prod.mk.injEq] at h
    obtain ⟨rfl, rfl⟩ := h
    exact Or.inr ⟨rfl, rfl, rfl⟩

@[simp] theorem fire_sched (km : KM R Ev Ctx PKS KS) (ev : Event Ev) : (km.fire ev).sched = km.sched := by
  unfold KM.fire; split
  · split <;> rfl
  · rfl
@[simp] theorem fire_pressed (km : KM R Ev Ctx PKS KS) (ev : Event Ev) : (km.fire ev).pressed = km.pressed := by
  unfold KM.fire; split
  · split <;> rfl
  · rfl
@[simp] theorem fire_pend (km : KM R Ev Ctx PKS KS) (ev : Event Ev) : (km.fire ev).pend = km.pend := by
  unfold KM.fire; split
  · split <;> rfl
  · rfl
@[simp] theorem fire_ctx (km : KM R Ev Ctx PKS KS) (ev : Event Ev) : (km.fire ev).ctx = km.ctx := by
  unfold KM.fire; split
  · split <;> rfl
  · rfl
@[simp] theorem fire_inq (km : KM R Ev Ctx PKS KS) (ev : Event Ev) : (km.fire ev).inq = km.inq := by
  unfold KM.fire; split
  · split <;> rfl
  · rfl
@[simp] theorem fire_callbacks (km : KM R Ev Ctx PKS KS) (ev : Event Ev) : (km.fire ev).callbacks = km.callbacks := by
  unfold KM.fire; split
  · split <;> rfl
  · rfl

/-- A requeue of input events fills the input queue only. -/
theorem requeue_inputs (C : Cfg R Ev Ctx PKS KS) {es : List (Event Ev)} (hes : ∀ e ∈ es, ∃ ie, e = .input ie)
    {i : Nat} {q q' : List InputEvent} {s s' : Sched Ev} (h : requeue C i es q s = .ok (q', s')) :
    s' = s ∧ q' = q ++ es.filterMap inputOf? ∧ (es.length ≤ inputCap - q.length ∨ es = []) := by
  induction es generalizing q with
  | nil => simp only [requeue, Res.ok.injEq, Prod.mk.injEq] at h; simp [h.1, h.2]
  | cons e es ih =>
    obtain ⟨ie, rfl⟩ := hes e List.mem_cons_self
    simp only [requeue, Res.bind_eq_ok] at h
    obtain ⟨q1, h1, h2⟩ := h
    obtain ⟨h1, rfl⟩ := pushCap_eq_ok.1 h1
    obtain ⟨a, b, c⟩ := ih (fun e he => hes e (List.mem_cons_of_mem _ he)) h2
    refine ⟨a, by simp [b, inputOf?], Or.inl ?_⟩
    rcases c with c | c
    · simp only [List.length_append, List.length_cons, List.length_nil] at c ⊢; omega
    · subst c; simp; omega

theorem requeueList_mem {idx : Nat} {queued : List (Event Ev)} {e : Event Ev} (h : e ∈ requeueList idx queued) :
    e ∈ queued := by
  unfold requeueList at h
  rcases List.mem_append.1 h with h | h
  · exact (List.mem_filter.1 h).1
  · rw [Option.mem_toList] at h
    exact (List.mem_filter.1 (List.mem_of_getLast? h)).1

/-- What entering the resolution of a pending key does, when input events wait for it. -/
theorem resolveEnter_spec {C : Cfg R Ev Ctx PKS KS} {km km' : KM R Ev Ctx PKS KS} {p : Pending R Ev PKS} {ks : KS}
    (hq : ∀ e ∈ p.queued, ∃ ie, e = .input ie) (h : resolveEnter C km p ks = .ok km') :
    km.pressed.length < maxPressedKeys ∧
    ((requeueList p.idx p.queued).filterMap inputOf? ++ km.inq).length ≤ inputCap ∧
    km' = { km with pend := none, pressed := km.pressed ++ [.key p.idx p.ref ks],
                    sched := km.sched.cancel p.idx,
                    inq := (requeueList p.idx p.queued).filterMap inputOf? ++ km.inq } := by
  unfold resolveEnter at h
  simp only [Res.bind_eq_ok, Res.pure_eq, Res.ok.injEq] at h
  obtain ⟨ps, h1, ⟨q1, s1⟩, h2, q2, h3, rfl⟩ := h
  obtain ⟨h4, rfl⟩ := pushCap_eq_ok.1 h1
  obtain ⟨rfl, rfl, h6⟩ := requeue_inputs C (fun e he => hq e (requeueList_mem he)) h2
  obtain ⟨h5, rfl⟩ := extendCap_eq_ok.1 h3
  simp only [List.nil_append] at h5 ⊢
  have hle := List.length_filterMap_le inputOf? (requeueList p.idx p.queued)
  refine ⟨h4, ?_, trivial⟩
  rw [List.length_append]
  rcases h5 with h5 | h5
  · rw [h5]
    rcases h6 with h6 | h6
    · simp at h6 ⊢; omega
    · simp [h6]
  · exact h5

theorem QInv.fire {Q : Event Ev → Prop} {km : KM R Ev Ctx PKS KS} (h : QInv Q km) (ev : Event Ev) : QInv Q (km.fire ev) :=
  ⟨by simpa using h.pending, by simpa using h.scheduled, by simpa using h.queued⟩

theorem QInv.sched_all {C : Cfg R Ev Ctx PKS KS} {Q : Event Ev → Prop} {km : KM R Ev Ctx PKS KS} (h : QInv Q km)
    {es : KeyEvents Ev} (hes : ∀ e ∈ es, Q e.event) {s : Sched Ev} (hs : km.sched.scheduleAll C.search es = .ok s) :
    (∀ e, some e ∈ s.pending → Q e) ∧ (∀ t ∈ s.scheduled, Q t.event) := by
  have key : ∀ e, s.Has e → Q e := by
    intro e he
    rcases Sched.scheduleAll_has hs he with (h' | ⟨t, ht, rfl⟩) | ⟨se, hm, rfl⟩
    · exact h.pending e h'
    · exact h.scheduled t ht
    · exact hes se hm
  exact ⟨fun e he => key e (Or.inl he), fun t ht => key _ (Or.inr ⟨t, ht, rfl⟩)⟩

theorem QInv.micro {C : Cfg R Ev Ctx PKS KS} {Q Q' : Event Ev → Prop} (hE : Emits C Q) {a b : KM R Ev Ctx PKS KS}
    (h : QInv Q a) (m : Micro C Q' a b) : QInv Q b := by
  cases m with
  | updKey ev pre i r ks post ks' es s hp hu hs =>
    have := h.sched_all (hE.state _ _ _ _ _ _ _ hu) hs
    exact ⟨this.1, this.2, h.queued⟩
  | ctxEv ev ctx es s hu hs =>
    have := h.sched_all (hE.ctx _ _ _ _ hu) hs
    exact ⟨this.1, this.2, h.queued⟩
  | take ev s hd =>
    obtain ⟨h1, h2, h3⟩ := Sched.dequeue_some hd
    refine QInv.fire (km := { a with sched := s }) ⟨fun e he => h.pending e ?_, fun t ht => h.scheduled t ?_, h.queued⟩ _
    · rw [h1]; exact List.mem_cons_of_mem _ he
    · rw [← h2]; exact ht
  | takeNone s hd =>
    rcases Sched.dequeue_none hd with ⟨_, rfl⟩ | ⟨h1, h2, h3⟩
    · exact h
    · refine ⟨fun e he => h.pending e ?_, fun t ht => h.scheduled t ?_, h.queued⟩
      · rw [h1]; exact List.mem_cons_of_mem _ he
      · rw [← h2]; exact ht
  | pendUpd ev p pks npk es s hp hu hs =>
    have := h.sched_all (hE.pend _ _ _ _ _ _ _ _ hu) hs
    refine ⟨this.1, this.2, fun p' hp' => ?_⟩
    simp only [Option.some.injEq] at hp'
    subst hp'; exact h.queued p hp
  | pendNpk p r pkr es s hp hu hs =>
    have := h.sched_all (hE.npk _ _ _ _ _ hu) hs
    refine ⟨this.1, this.2, fun p' hp' => ?_⟩
    simp only [Option.some.injEq] at hp'
    subst hp'; exact h.queued p hp
  | pendSwap p pks q q' hp h1 h2 =>
    refine ⟨h.pending, h.scheduled, fun p' hp' => ?_⟩
    simp only [Option.some.injEq] at hp'
    subst hp'; simp
  | resolve p ks km' hp hf he =>
    obtain ⟨_, _, rfl⟩ := resolveEnter_spec (h.queued p hp) he
    refine ⟨h.pending, fun t ht => ?_, by simp⟩
    obtain ⟨t1, h3, rfl⟩ := List.mem_map.1 ht
    simpa using h.scheduled t1 h3
  | queue p ie q hp hq hc =>
    obtain ⟨_, rfl⟩ := pushCap_eq_ok.1 hc
    refine ⟨h.pending, h.scheduled, fun p' hp' => ?_⟩
    simp only [Option.some.injEq] at hp'
    subst hp'
    intro e he
    rcases List.mem_append.1 he with he | he
    · exact h.queued p hp e he
    · rw [List.mem_singleton] at he; exact ⟨ie, he⟩
  | npk idx r pkr es s hp hq hn hu hs =>
    have := h.sched_all (hE.npk _ _ _ _ _ hu) hs
    exact ⟨this.1, this.2, h.queued⟩
  | pushKey idx r ks ps hp hq hn hf hc => exact ⟨h.pending, h.scheduled, h.queued⟩
  | startPend idx r pks hp hq hn =>
    refine ⟨h.pending, h.scheduled, fun p' hp' => ?_⟩
    simp only [Option.some.injEq] at hp'
    subst hp'; simp
  | remKey idx hp hq => exact ⟨h.pending, h.scheduled, h.queued⟩
  | pushVirt ko ps hp hq hc => exact ⟨h.pending, h.scheduled, h.queued⟩
  | remVirt ko hp hq => exact ⟨h.pending, h.scheduled, h.queued⟩

theorem QInv.steps {C : Cfg R Ev Ctx PKS KS} {Q Q' : Event Ev → Prop} (hE : Emits C Q) {a b : KM R Ev Ctx PKS KS}
    (h : QInv Q a) (m : Steps C Q' a b) : QInv Q b :=
  m.inv (fun _ _ ha hm => ha.micro hE hm) h

/-! ## The methods are sequences of steps -/

/-- What the induction on the recursion depth provides for `handle_event`. -/
def HandlerSteps (C : Cfg R Ev Ctx PKS KS) (Q : Event Ev → Prop) (he : Handler R Ev Ctx PKS KS) : Prop :=
  ∀ km ev km', QInv Q km → Q ev → he km ev = .ok km' → Steps C Q (km.fire ev) km'

section Methods

variable {C : Cfg R Ev Ctx PKS KS} {Q : Event Ev → Prop}

theorem notifyPressed_steps (km : KM R Ev Ctx PKS KS) (ev : Event Ev) (pre ps ps' : List (PressedInput R KS))
    (s' : Sched Ev) (hp : km.pressed = pre ++ ps)
    (h : notifyPressed C km.ctx ev ps km.sched = .ok (ps', s')) :
    Steps C Q km { km with pressed := pre ++ ps', sched := s' } := by
  induction ps generalizing km pre ps' s' with
  | nil =>
    simp only [notifyPressed, Res.ok.injEq, Prod.mk.injEq] at h
    obtain ⟨rfl, rfl⟩ := h
    rw [← hp]; exact .refl _
  | cons p ps ih =>
    cases p with
    | virt ko =>
      simp only [notifyPressed, Res.bind_eq_ok, Res.pure_eq, Res.ok.injEq, Prod.mk.injEq] at h
      obtain ⟨⟨ps1, s1⟩, h1, rfl, rfl⟩ := h
      have := ih km (pre ++ [.virt ko]) ps1 s1 (by simp [hp]) h1
      simpa using this
    | key i r ks =>
      simp only [notifyPressed, Res.bind_eq_ok, Res.pure_eq, Res.ok.injEq, Prod.mk.injEq] at h
      obtain ⟨⟨ks1, es⟩, h1, s1, h2, ⟨ps1, s2⟩, h3, rfl, rfl⟩ := h
      refine .cons (.updKey km ev pre i r ks ps ks1 es s1 hp h1 h2) ?_
      have := ih { km with pressed := pre ++ .key i r ks1 :: ps, sched := s1 } (pre ++ [.key i r ks1]) ps1 s2
        (by simp) h3
      simpa using this

theorem notifyAll_steps {km km' : KM R Ev Ctx PKS KS} {ev : Event Ev} (h : notifyAll C km ev = .ok km') :
    Steps C Q km km' := by
  simp only [notifyAll, Res.bind_eq_ok, Res.pure_eq, Res.ok.injEq] at h
  obtain ⟨⟨ps, s⟩, h1, ⟨ctx, es⟩, h2, s2, h3, rfl⟩ := h
  have := notifyPressed_steps (Q := Q) km ev [] km.pressed ps s (by simp) h1
  refine this.trans (.one ?_)
  exact .ctxEv { km with pressed := [] ++ ps, sched := s } ev ctx es s2 h2 h3

theorem drain_steps {he : Handler R Ev Ctx PKS KS} (hE : Emits C Q) (hh : HandlerSteps C Q he) {n : Nat}
    {km km' : KM R Ev Ctx PKS KS} (hq : QInv Q km) (h : drain he n km = .ok km') : Steps C Q km km' := by
  induction n generalizing km with
  | zero => simp [drain] at h
  | succ n ih =>
    unfold drain at h
    split at h
    · rename_i s hd
      simp only [Res.ok.injEq] at h
      subst h
      exact .one (.takeNone _ _ hd)
    · rename_i ev s hd
      simp only [Res.bind_eq_ok] at h
      obtain ⟨km1, h1, h2⟩ := h
      have hpd := Sched.dequeue_some hd
      have hq1 : QInv Q ({ km with sched := s }) :=
        ⟨fun e he => hq.pending e (by rw [hpd.1]; exact List.mem_cons_of_mem _ he),
          fun t ht => hq.scheduled t (by rw [← hpd.2.1]; exact ht), hq.queued⟩
      have s1 := hh _ ev km1 hq1 (hq.pending ev (by rw [hpd.1]; exact List.mem_cons_self)) h1
      refine .cons (.take km ev s hd) (s1.trans (ih ?_ h2))
      exact (hq1.fire ev).steps hE s1

theorem resolve_steps {he : Handler R Ev Ctx PKS KS} (hE : Emits C Q) (hh : HandlerSteps C Q he) {n : Nat}
    {km km' : KM R Ev Ctx PKS KS} {p : Pending R Ev PKS} {ks : KS} (hq : QInv Q km) (hp : km.pend = some p)
    (hf : FromSys C p.idx p.ref ks) (h : resolve C he n km p ks = .ok km') : Steps C Q km km' := by
  simp only [resolve, Res.bind_eq_ok] at h
  obtain ⟨km1, h1, km2, h2, o, ho, h3⟩ := h
  have m1 : Micro C Q km km1 := .resolve km p ks km1 hp hf h1
  have s2 := drain_steps hE hh (hq.micro hE m1) h2
  refine .cons m1 (s2.trans ?_)
  cases o with
  | none => simp only [Res.pure_eq, Res.ok.injEq] at h3; subst h3; exact .refl _
  | some ko => exact hh _ _ _ ((hq.micro hE m1).steps hE s2) (hE.resolved _ _) h3

theorem resolveEnter_pend (km : KM R Ev Ctx PKS KS) (p : Pending R Ev PKS) (ks : KS) (x : Option (Pending R Ev PKS)) :
    resolveEnter C { km with pend := x } p ks = resolveEnter C km p ks := rfl

theorem resolve_pend (he : Handler R Ev Ctx PKS KS) (n : Nat) (km : KM R Ev Ctx PKS KS) (p : Pending R Ev PKS)
    (ks : KS) (x : Option (Pending R Ev PKS)) :
    resolve C he n { km with pend := x } p ks = resolve C he n km p ks := rfl

/-- The loop only reads the pending state from its argument `p`. -/
theorem pendLoop_pend (he : Handler R Ev Ctx PKS KS) (n m : Nat) (km : KM R Ev Ctx PKS KS) (p : Pending R Ev PKS)
    (npk : NPK R) (x : Option (Pending R Ev PKS)) :
    pendLoop C he n m { km with pend := x } p npk = pendLoop C he n m km p npk := by
  induction m generalizing km p npk x with
  | zero => cases npk <;> rfl
  | succ m ih =>
    cases npk with
    | noOp => rfl
    | key r =>
      simp only [pendLoop]
      congr 1; funext a
      obtain ⟨pkr, es⟩ := a
      simp only
      congr 1; funext s
      cases pkr with
      | pending pks => rfl
      | resolved ks => rfl
      | newPressedKey npk =>
        cases npk with
        | noOp => rfl
        | key r' => exact ih { km with sched := s } _ _ x

theorem pendLoop_steps {he : Handler R Ev Ctx PKS KS} (hE : Emits C Q) (hh : HandlerSteps C Q he) {n m : Nat}
    {km km' : KM R Ev Ctx PKS KS} {p : Pending R Ev PKS} {npk : NPK R} (hq : QInv Q km) (hp : km.pend = some p)
    (hb : ∀ r, npk = .key r → Becomes C p.idx p.ref r) (h : pendLoop C he n m km p npk = .ok km') : Steps C Q km km' := by
  induction m generalizing km p npk with
  | zero => cases npk <;> simp [pendLoop] at h
  | succ m ih =>
    cases npk with
    | noOp => exact resolve_steps hE hh hq hp (Or.inl rfl) h
    | key r =>
      simp only [pendLoop, Res.bind_eq_ok] at h
      obtain ⟨⟨pkr, es⟩, h1, s, h2, h3⟩ := h
      have m1 : Micro C Q km { km with sched := s, pend := some { p with ref := r } } :=
        .pendNpk km p r pkr es s hp h1 h2 (hb r rfl)
      have hq1 := hq.micro hE m1
      refine .cons m1 ?_
      cases pkr with
      | resolved ks =>
        simp only at h3
        refine resolve_steps (p := { p with ref := r }) hE hh hq1 rfl (Or.inr ⟨_, _, h1⟩) (ks := ks) (n := n) ?_
        rw [← h3]; rfl
      | newPressedKey npk =>
        cases npk with
        | noOp =>
          simp only at h3
          refine resolve_steps (p := { p with ref := r }) hE hh hq1 rfl (Or.inl rfl) (n := n) ?_
          rw [← h3]; rfl
        | key r' =>
          simp only at h3
          refine ih (p := { p with ref := r }) (npk := .key r') hq1 rfl
            (fun _ e => by cases e; exact Or.inr ⟨_, _, h1⟩) ?_
          rw [← h3]
          exact pendLoop_pend he n m { km with sched := s } _ _ _
      | pending pks =>
        simp only [Res.bind_eq_ok, Res.pure_eq, Res.ok.injEq] at h3
        obtain ⟨q, h4, q', h5, rfl⟩ := h3
        exact .one (.pendSwap { km with sched := s, pend := some { p with ref := r } } { p with ref := r } pks q q' rfl
          h4 h5 ⟨_, _, h1⟩)

theorem updatePending_steps {he : Handler R Ev Ctx PKS KS} (hE : Emits C Q) (hh : HandlerSteps C Q he) {n : Nat}
    {km km' : KM R Ev Ctx PKS KS} {ev : Event Ev} (hq : QInv Q km)
    (h : updatePending C he n km ev = .ok km') : Steps C Q km km' := by
  unfold updatePending at h
  split at h
  · simp only [Res.pure_eq, Res.ok.injEq] at h; subst h; exact .refl _
  · rename_i p hp
    simp only [Res.bind_eq_ok] at h
    obtain ⟨⟨pks, npk, es⟩, h1, s, h2, h3⟩ := h
    have m1 : Micro C Q km { km with sched := s, pend := some { p with pks := pks } } :=
      .pendUpd km ev p pks npk es s hp h1 h2
    refine .cons m1 ?_
    cases npk with
    | none => simp only [Res.pure_eq, Res.ok.injEq] at h3; subst h3; exact .refl _
    | some npk =>
      refine pendLoop_steps hE hh (hq.micro hE m1) rfl (fun r e => ?_) h3
      subst e; exact Or.inl ⟨_, _, _, _, _, h1⟩

theorem pressLoop_steps {he : Handler R Ev Ctx PKS KS} (hE : Emits C Q) (hh : HandlerSteps C Q he) {m idx : Nat}
    {km km' : KM R Ev Ctx PKS KS} {r : R} (hq : QInv Q km) (hp : km.pend = none) (hQ : Q (.input (.press idx)))
    (hn : hasPressed idx km.pressed = false) (hb : PressRef C idx r) (h : pressLoop C he idx m km r = .ok km') :
    Steps C Q km km' := by
  induction m generalizing km r with
  | zero => simp [pressLoop] at h
  | succ m ih =>
    simp only [pressLoop, Res.bind_eq_ok] at h
    obtain ⟨⟨pkr, es⟩, h1, s, h2, h3⟩ := h
    have m1 : Micro C Q km { km with sched := s } := .npk km idx r pkr es s hp hQ hn h1 h2 hb
    have hq1 := hq.micro hE m1
    refine .cons m1 ?_
    cases pkr with
    | resolved ks =>
      simp only [Res.bind_eq_ok] at h3
      obtain ⟨ps, h4, o, ho, h5⟩ := h3
      have m2 : Micro C Q { km with sched := s } { km with sched := s, pressed := ps } :=
        .pushKey { km with sched := s } idx r ks ps hp hQ hn (Or.inr ⟨_, _, h1⟩) h4 hb
      refine .cons m2 ?_
      cases o with
      | none => simp only [Res.pure_eq, Res.ok.injEq] at h5; subst h5; exact .refl _
      | some ko => exact hh _ _ _ (hq1.micro hE m2) (hE.resolved _ _) h5
    | newPressedKey npk =>
      cases npk with
      | noOp =>
        simp only [Res.bind_eq_ok, Res.pure_eq, Res.ok.injEq] at h3
        obtain ⟨ps, h4, rfl⟩ := h3
        exact .one (.pushKey { km with sched := s } idx r C.sys.noOp ps hp hQ hn (Or.inl rfl) h4 hb)
      | key r' => exact ih (km := { km with sched := s }) hq1 hp hn (hb.step h1) h3
    | pending pks =>
      simp only [Res.pure_eq, Res.ok.injEq] at h3
      subst h3
      exact .one (.startPend { km with sched := s } idx r pks hp hQ hn hb ⟨_, _, h1⟩)

/-- Notifying keys and context keeps the pending key and the pressed indices. -/
theorem notifyPressed_has {ctx : Ctx} {ev : Event Ev} {ps ps' : List (PressedInput R KS)} {s s' : Sched Ev}
    (h : notifyPressed C ctx ev ps s = .ok (ps', s')) (idx : Nat) : hasPressed idx ps' = hasPressed idx ps := by
  induction ps generalizing s ps' s' with
  | nil => simp only [notifyPressed, Res.ok.injEq, Prod.mk.injEq] at h; rw [h.1]
  | cons p ps ih =>
    cases p with
    | virt ko =>
      simp only [notifyPressed, Res.bind_eq_ok, Res.pure_eq, Res.ok.injEq, Prod.mk.injEq] at h
      obtain ⟨⟨ps1, s1⟩, h1, rfl, rfl⟩ := h
      simpa [hasPressed] using ih h1
    | key i r ks =>
      simp only [notifyPressed, Res.bind_eq_ok, Res.pure_eq, Res.ok.injEq, Prod.mk.injEq] at h
      obtain ⟨⟨ks1, es⟩, h1, s1, h2, ⟨ps1, s2⟩, h3, rfl, rfl⟩ := h
      simp [hasPressed, ih h3]

theorem notifyAll_pend {km km' : KM R Ev Ctx PKS KS} {ev : Event Ev} (h : notifyAll C km ev = .ok km') :
    km'.pend = km.pend := by
  simp only [notifyAll, Res.bind_eq_ok, Res.pure_eq, Res.ok.injEq] at h
  obtain ⟨⟨ps, s⟩, h1, ⟨ctx, es⟩, h2, s2, h3, rfl⟩ := h
  rfl

theorem processDirect_steps {he : Handler R Ev Ctx PKS KS} (hE : Emits C Q) (hh : HandlerSteps C Q he) {n : Nat}
    {km km' : KM R Ev Ctx PKS KS} {ie : InputEvent} (hq : QInv Q km) (hp : km.pend = none) (hQ : Q (.input ie))
    (h : processDirect C he n km ie = .ok km') : Steps C Q km km' := by
  simp only [processDirect, Res.bind_eq_ok] at h
  obtain ⟨km1, h1, h2⟩ := h
  have s1 : Steps C Q km km1 := notifyAll_steps h1
  have hq1 := hq.steps hE s1
  have hp1 : km1.pend = none := by rw [notifyAll_pend h1, hp]
  refine s1.trans ?_
  cases ie with
  | press idx =>
    simp only at h2
    split at h2
    · simp only [Res.pure_eq, Res.ok.injEq] at h2; subst h2; exact .refl _
    · rename_i hn
      simp only [Res.bind_eq_ok] at h2
      obtain ⟨r, hr, h3⟩ := h2
      exact pressLoop_steps hE hh hq1 hp1 hQ (by simpa using hn) (.base hr) h3
  | release idx =>
    simp only [Res.pure_eq, Res.ok.injEq] at h2; subst h2
    exact .one (.remKey km1 idx hp1 hQ)
  | vpress ko =>
    simp only [Res.bind_eq_ok, Res.pure_eq, Res.ok.injEq] at h2
    obtain ⟨ps, h3, rfl⟩ := h2
    exact .one (.pushVirt km1 ko ps hp1 hQ h3)
  | vrelease ko =>
    simp only [Res.pure_eq, Res.ok.injEq] at h2; subst h2
    exact .one (.remVirt km1 ko hp1 hQ)

theorem processInput_steps {he : Handler R Ev Ctx PKS KS} (hE : Emits C Q) (hh : HandlerSteps C Q he) {n : Nat}
    {km km' : KM R Ev Ctx PKS KS} {ie : InputEvent} (hq : QInv Q km) (hQ : Q (.input ie))
    (h : processInput C he n km ie = .ok km') : Steps C Q km km' := by
  unfold processInput at h
  simp only at h
  split at h
  · rename_i p hp
    simp only [Res.bind_eq_ok] at h
    obtain ⟨q, h3, km1, h4, h2⟩ := h
    have m1 : Micro C Q km { km with pend := some { p with queued := q } } := .queue km p ie q hp hQ h3
    have s1 := Steps.cons m1 (updatePending_steps hE hh (hq.micro hE m1) h4)
    exact s1.trans (drain_steps hE hh (hq.steps hE s1) h2)
  · rename_i hp
    simp only [Res.bind_eq_ok] at h
    obtain ⟨km1, h1, h2⟩ := h
    have s1 := processDirect_steps hE hh hq hp hQ h1
    exact s1.trans (drain_steps hE hh (hq.steps hE s1) h2)

theorem handleEvent_steps (hE : Emits C Q) (n : Nat) : HandlerSteps C Q (handleEvent C n) := by
  induction n with
  | zero => intro km ev km' _ _ h; simp [handleEvent] at h
  | succ n ih =>
    intro km ev km' hq hQ h
    simp only [handleEvent, handleBody, Res.bind_eq_ok] at h
    obtain ⟨km1, h1, km2, h2, h3⟩ := h
    have s1 := updatePending_steps hE ih (hq.fire ev) h1
    have s2 : Steps C Q km1 km2 := notifyAll_steps h2
    refine (s1.trans s2).trans ?_
    have hq2 := ((hq.fire ev).steps hE s1).steps hE s2
    cases ev with
    | input ie => exact processInput_steps hE ih hq2 hQ h3
    | key i e => simp only [Res.pure_eq, Res.ok.injEq] at h3; subst h3; exact .refl _
    | keymap e => simp only [Res.pure_eq, Res.ok.injEq] at h3; subst h3; exact .refl _

theorem drainN_steps (hE : Emits C Q) {n : Nat} {km km' : KM R Ev Ctx PKS KS} (hq : QInv Q km)
    (h : drainN C n km = .ok km') : Steps C Q km km' :=
  drain_steps hE (handleEvent_steps hE n) hq h

theorem processInputN_steps (hE : Emits C Q) {n : Nat} {km km' : KM R Ev Ctx PKS KS} {ie : InputEvent}
    (hq : QInv Q km) (hQ : Q (.input ie)) (h : processInputN C n km ie = .ok km') : Steps C Q km km' :=
  processInput_steps hE (handleEvent_steps hE n) hq hQ h

end Methods

end Verif
