import Verif.Lemmas.Halt

/-!
# The keymap comes to rest

A potential that goes down with every tick as long as something is scheduled: what all waiting events can still lead to,
and how long it takes.
-/

namespace Verif.Rest

open Spec

variable {R Ev Ctx PKS KS : Type}

/-- What scheduled events can lead to, and how long it takes until they are due. -/
def cost (w : Event Ev → Nat) : KeyEvents Ev → Nat
  | [] => 0
  | e :: es => (match e.schedule with | .immediate => w e.event | .after d => w e.event + d + 1) + cost w es

/-- The potential of the queue of events: a cancelled event takes its time, too. -/
def pendingPot (w : Event Ev → Nat) : List (Option (Event Ev)) → Nat
  | [] => 0
  | o :: q => (match o with | some e => w e | none => 1) + pendingPot w q

/-- The potential of the scheduled events at time `c`. -/
def timedPot (w : Event Ev → Nat) (c : Nat) : List (Timed Ev) → Nat
  | [] => 0
  | t :: ts => w t.event + (t.time - c) + 1 + timedPot w c ts

/-- The potential of a scheduler. -/
def schedPot (w : Event Ev → Nat) (s : Sched Ev) : Nat := pendingPot w s.pending + timedPot w s.counter s.scheduled

/-- An input event in the queue. -/
def inPot (e D : Nat) : InputEvent → Nat
  | .press _ => 20 * e * (D + 3)
  | .release _ => 20 * e
  | _ => 2

/-- An input event kept for an undecided key. -/
def keptPot (e D : Nat) : InputEvent → Nat
  | .press _ => 20 * e * (D + 3) - e
  | .release _ => 19 * e
  | _ => 1

/-- The input queue. -/
def inqPot (e D : Nat) (q : List InputEvent) : Nat := (q.map (inPot e D)).sum

/-- The kept events. -/
def queuedPot (e D : Nat) (q : List (Event Ev)) : Nat := ((q.filterMap inputOf?).map (keptPot e D)).sum

/-- The undecided key. -/
def waitPot (e D : Nat) (rank : R → Nat) : Option (Pending R Ev PKS) → Nat
  | none => 0
  | some p => 20 * e * (rank p.ref + 1) + queuedPot e D p.queued

/-- The potential of a keymap. -/
def pot (w : Event Ev → Nat) (e D : Nat) (rank : R → Nat) (cp : Ctx → Nat) (km : KM R Ev Ctx PKS KS) : Nat :=
  inqPot e D km.inq + waitPot e D rank km.pend + schedPot w km.sched + cp km.ctx

/-- A key system whose events lead to less and less. `E` bounds what pressing, releasing or deciding a key leads to. -/
structure Tires (C : Cfg R Ev Ctx PKS KS) (rank : R → Nat) (D E : Nat) (w ctxW keyW : Event Ev → Nat) (G : Ctx → Prop)
    (cp : Ctx → Nat) : Prop where
  emits : Emits C NonPhys
  good : ∀ c ev c' es, G c → C.sys.ctxEvent c ev = .ok (c', es) → G c'
  goodSet : ∀ c t i, G c → G (C.sys.setCtx c t i)
  cpSet : ∀ c t i, cp (C.sys.setCtx c t i) = cp c
  ctx : ∀ c ev c' es, G c → NonPhys ev → C.sys.ctxEvent c ev = .ok (c', es) → cost w es + cp c' ≤ cp c + ctxW ev
  ctxIn : ∀ c ie c' es, G c → C.sys.ctxEvent c (.input ie) = .ok (c', es) → cost w es + cp c' ≤ cp c + E
  state : ∀ ks r c i ev ks' es, NonPhys ev → C.sys.updateState ks r c i ev = .ok (ks', es) → cost w es ≤ keyW ev
  stateIn : ∀ ks r c i ie ks' es, C.sys.updateState ks r c i (.input ie) = .ok (ks', es) → cost w es ≤ E
  weight : ∀ ev, NonPhys ev → ctxW ev + maxPressedKeys * keyW ev < w ev
  virt : ∀ ie, NonPhys (Ev := Ev) (.input ie) → 3 ≤ w (.input ie) ∧ ctxW (.input ie) = 0 ∧ keyW (.input ie) = 0
  resolved : ∀ i ko, w (.keymap (.resolved i ko)) ≤ E
  wait : ∀ p i c r ev p' es, G c → NonPhys ev → C.sys.updatePending p i c r ev = .ok (p', none, es) → cost w es = 0
  waitIn : ∀ p i c r ie p' es, G c → C.sys.updatePending p i c r (.input ie) = .ok (p', none, es) → cost w es ≤ E
  decided : ∀ p i c r ev p' n es, G c → C.sys.updatePending p i c r ev = .ok (p', some n, es) → cost w es ≤ E
  npkCost : ∀ i c r x es, G c → C.sys.newPressedKey i c r = .ok (x, es) → cost w es ≤ E
  rank_le : ∀ r, rank r ≤ D
  npk : ∀ i c r r' es, C.sys.newPressedKey i c r = .ok (.newPressedKey (.key r'), es) → rank r' < rank r
  pend : ∀ p i c r ev p' r' es, C.sys.updatePending p i c r ev = .ok (p', some (.key r'), es) → rank r' < rank r

variable {C : Cfg R Ev Ctx PKS KS} {rank : R → Nat} {D E : Nat} {w ctxW keyW : Event Ev → Nat} {G : Ctx → Prop}
  {cp : Ctx → Nat}

/-! ## The scheduler -/

theorem pendingPot_append (a b : List (Option (Event Ev))) : pendingPot w (a ++ b) = pendingPot w a + pendingPot w b := by
  induction a with
  | nil => simp [pendingPot]
  | cons x a ih => simp only [List.cons_append, pendingPot, ih]; omega

theorem timedPot_append (c : Nat) (a b : List (Timed Ev)) : timedPot w c (a ++ b) = timedPot w c a + timedPot w c b := by
  induction a with
  | nil => simp [timedPot]
  | cons x a ih => simp only [List.cons_append, timedPot, ih]; omega

theorem scheduleEvent_pot {S : Search} {s s' : Sched Ev} {se : SchEv Ev} (h : s.scheduleEvent S se = .ok s') :
    schedPot w s' = schedPot w s + cost w [se] := by
  unfold Sched.scheduleEvent at h
  obtain ⟨sch, ev⟩ := se
  cases sch with
  | immediate =>
    simp only [Sched.enqueue, Res.bind_eq_ok, Res.pure_eq, Res.ok.injEq] at h
    obtain ⟨q, h1, rfl⟩ := h
    obtain ⟨_, rfl⟩ := pushCap_eq_ok.1 h1
    simp only [schedPot, pendingPot_append, cost, pendingPot]; omega
  | after d =>
    simp only [Sched.scheduleAfter] at h
    split at h
    · split at h
      · simp only [Res.ok.injEq] at h
        subst h
        simp only [schedPot, cost]
        rw [timedPot_append]
        have := timedPot_append (w := w) s.counter (s.scheduled.take (S.pos (s.scheduled.map Timed.time) (s.counter + d)))
          (s.scheduled.drop (S.pos (s.scheduled.map Timed.time) (s.counter + d)))
        rw [List.take_append_drop] at this
        rw [this]
        simp only [timedPot]
        omega
      · simp at h
    · simp at h

theorem scheduleAll_pot {S : Search} {es : KeyEvents Ev} {s s' : Sched Ev} (h : s.scheduleAll S es = .ok s') :
    schedPot w s' = schedPot w s + cost w es := by
  induction es generalizing s with
  | nil => simp only [Sched.scheduleAll, Res.ok.injEq] at h; subst h; simp [cost]
  | cons a es ih =>
    simp only [Sched.scheduleAll, Res.bind_eq_ok] at h
    obtain ⟨s1, h1, h2⟩ := h
    rw [ih h2, scheduleEvent_pot h1]
    simp only [cost]; omega

theorem cancel_pot (s : Sched Ev) (idx : Nat) : schedPot w (s.cancel idx) = schedPot w s := by
  simp only [schedPot, Sched.cancel]
  congr 1
  induction s.scheduled with
  | nil => rfl
  | cons t ts ih =>
    simp only [List.map_cons, timedPot, ih]
    have : (Sched.cancelOne idx t).event = t.event ∧ (Sched.cancelOne idx t).time = t.time := by
      unfold Sched.cancelOne
      split
      · split <;> exact ⟨rfl, rfl⟩
      · exact ⟨rfl, rfl⟩
    rw [this.1, this.2]

theorem timedPot_later (c d : Nat) (ts : List (Timed Ev)) : timedPot w (c + d) ts ≤ timedPot w c ts := by
  induction ts with
  | nil => exact Nat.le_refl _
  | cons t ts ih => simp only [timedPot]; omega

/-- Time passes: what is scheduled gets nearer. -/
theorem tick_pot {s s' : Sched Ev} {d : Nat} (hw : ∀ t ∈ s.scheduled, 1 ≤ w t.event) (hd : 0 < d) (h : s.tick d = .ok s') :
    schedPot w s' ≤ schedPot w s ∧ (s.scheduled ≠ [] → schedPot w s' < schedPot w s) := by
  obtain ⟨_, h | ⟨t, rest, hs, ht, _, rfl⟩⟩ := Sched.tick_eq_ok h
  · obtain ⟨rfl, hh⟩ := h
    simp only [schedPot]
    cases hs : s.scheduled with
    | nil => simp [timedPot]
    | cons t rest =>
      rw [hs] at hh
      have := hh t rfl
      have l := timedPot_later (w := w) s.counter d rest
      simp only [timedPot]
      constructor
      · omega
      · intro _; omega
  · have l := timedPot_later (w := w) s.counter d rest
    have hw := hw t (by rw [hs]; exact List.mem_cons_self)
    have : pendingPot w [if t.live then some t.event else none] ≤ w t.event := by
      cases t.live <;> simp [pendingPot]; exact hw
    simp only [schedPot, hs, pendingPot_append, timedPot]
    constructor
    · omega
    · intro _; omega

/-! ## What holds of every state on the way -/

/-- Pressed keys and kept events are at most 16, the context is as it should be, events are not key presses. -/
structure Inv (G : Ctx → Prop) (km : KM R Ev Ctx PKS KS) : Prop where
  halt : HaltInv km
  good : G km.ctx
  kept : ∀ p, km.pend = some p → p.queued.length ≤ maxPressedKeys

theorem Inv.micro (hT : Tires C rank D E w ctxW keyW G cp) {Q : Event Ev → Prop} {a b : KM R Ev Ctx PKS KS}
    (h : Inv G a) (m : Micro C Q a b) : Inv G b := by
  refine ⟨⟨pressed_micro h.halt.pressed m, h.halt.q.micro hT.emits m⟩, ?_, ?_⟩
  · cases m with
    | ctxEv ev ctx es s hu hs => exact hT.good _ _ _ _ h.good hu
    | take ev s hd => simpa using h.good
    | resolve p ks km' hp hf he =>
      unfold resolveEnter at he
      simp only [Res.bind_eq_ok, Res.pure_eq, Res.ok.injEq] at he
      obtain ⟨ps, h1, ⟨q1, s1⟩, h2, q2, h3, rfl⟩ := he
      exact h.good
    | _ => exact h.good
  · cases m with
    | take ev s hd => simpa using h.kept
    | pendUpd ev p pks npk es s hp hu hs =>
      intro p' hp'; simp only [Option.some.injEq] at hp'; subst hp'; exact h.kept p hp
    | pendNpk p r pkr es s hp hu hs hb =>
      intro p' hp'; simp only [Option.some.injEq] at hp'; subst hp'; exact h.kept p hp
    | pendSwap p pks q q' hp h1 h2 =>
      intro p' hp'; simp only [Option.some.injEq] at hp'; subst hp'; exact Nat.zero_le _
    | resolve p ks km' hp hf he => intro p' hp'; rw [resolveEnter_ok_pend he] at hp'; cases hp'
    | queue p ie q hp hq hc =>
      intro p' hp'; simp only [Option.some.injEq] at hp'; subst hp'
      obtain ⟨h4, rfl⟩ := pushCap_eq_ok.1 hc
      simp; omega
    | startPend idx r pks hp hq hn => intro p' hp'; simp only [Option.some.injEq] at hp'; subst hp'; exact Nat.zero_le _
    | _ => exact h.kept

theorem Inv.steps (hT : Tires C rank D E w ctxW keyW G cp) {Q : Event Ev → Prop} {a b : KM R Ev Ctx PKS KS}
    (h : Inv G a) (m : Steps C Q a b) : Inv G b := m.inv (fun _ _ h m => h.micro hT m) h

theorem Inv.fire {km : KM R Ev Ctx PKS KS} (h : Inv G km) (ev : Event Ev) : Inv G (km.fire ev) :=
  ⟨h.halt.fire ev, by simpa using h.good, by simpa using h.kept⟩

theorem fire_pot (km : KM R Ev Ctx PKS KS) (ev : Event Ev) : pot w e D rank cp (km.fire ev) = pot w e D rank cp km := by
  simp [pot]

/-! ## Handling events -/

theorem notifyPressed_pot {k : Nat} {ctx : Ctx} {ev : Event Ev}
    (hk : ∀ ks r i ks' es, C.sys.updateState ks r ctx i ev = .ok (ks', es) → cost w es ≤ k)
    {ps ps' : List (PressedInput R KS)} {s s' : Sched Ev} (h : notifyPressed C ctx ev ps s = .ok (ps', s')) :
    schedPot w s' ≤ schedPot w s + ps.length * k := by
  induction ps generalizing s ps' s' with
  | nil =>
    simp only [notifyPressed, Res.ok.injEq, Prod.mk.injEq] at h
    rw [h.2]; simp
  | cons p ps ih =>
    cases p with
    | virt ko =>
      simp only [notifyPressed, Res.bind_eq_ok, Res.pure_eq, Res.ok.injEq, Prod.mk.injEq] at h
      obtain ⟨⟨ps1, s1⟩, h1, _, rfl⟩ := h
      have := ih h1
      simp only [List.length_cons, Nat.add_mul]; omega
    | key i r ks =>
      simp only [notifyPressed, Res.bind_eq_ok, Res.pure_eq, Res.ok.injEq, Prod.mk.injEq] at h
      obtain ⟨⟨ks1, es⟩, h1, s1, h2, ⟨ps1, s2⟩, h3, _, rfl⟩ := h
      have a1 := ih h3
      have a2 := scheduleAll_pot (w := w) h2
      have a3 := hk _ _ _ _ _ h1
      simp only [List.length_cons, Nat.add_mul] at a2 ⊢
      omega

theorem notifyAll_pot {k cw e : Nat} {a b : KM R Ev Ctx PKS KS} {ev : Event Ev} (hi : a.pressed.length ≤ maxPressedKeys)
    (hk : ∀ ks r i ks' es, C.sys.updateState ks r a.ctx i ev = .ok (ks', es) → cost w es ≤ k)
    (hc : ∀ c' es, C.sys.ctxEvent a.ctx ev = .ok (c', es) → cost w es + cp c' ≤ cp a.ctx + cw)
    (h : notifyAll C a ev = .ok b) : pot w e D rank cp b ≤ pot w e D rank cp a + (cw + maxPressedKeys * k) := by
  simp only [notifyAll, Res.bind_eq_ok, Res.pure_eq, Res.ok.injEq] at h
  obtain ⟨⟨ps, s⟩, h1, ⟨ctx, es⟩, h2, s2, h3, rfl⟩ := h
  have a1 := notifyPressed_pot hk h1
  have a2 := scheduleAll_pot (w := w) h3
  have a3 := hc _ _ h2
  have a4 := Nat.mul_le_mul_right k hi
  simp only [pot] at *
  omega

/-- What handling an event costs: less than its weight. -/
def Lessens (w : Event Ev → Nat) (e D : Nat) (rank : R → Nat) (cp : Ctx → Nat) (G : Ctx → Prop)
    (he : Handler R Ev Ctx PKS KS) : Prop :=
  ∀ a ev b, Inv G a → NonPhys ev → he a ev = .ok b → pot w e D rank cp b < pot w e D rank cp a + w ev

section
variable {e : Nat} {he : Handler R Ev Ctx PKS KS}

theorem dequeue_pot {s s' : Sched Ev} {ev : Event Ev} (h : s.dequeue = (some ev, s')) :
    schedPot w s = schedPot w s' + w ev := by
  obtain ⟨h1, h2, h3⟩ := Sched.dequeue_some h
  simp only [schedPot, h1, h2, h3, pendingPot]; omega

theorem drain_pot (hT : Tires C rank D E w ctxW keyW G cp) (hl : Lessens w e D rank cp G he)
    (hh : HandlerSteps C NonPhys he) {n : Nat} {a b : KM R Ev Ctx PKS KS} (hi : Inv G a) (h : drain he n a = .ok b) :
    pot w e D rank cp b ≤ pot w e D rank cp a ∧
      (a.sched.pending ≠ [] → pot w e D rank cp b < pot w e D rank cp a) := by
  induction n generalizing a with
  | zero => simp [drain] at h
  | succ n ih =>
    unfold drain at h
    split at h
    · rename_i s hd
      simp only [Res.ok.injEq] at h
      subst h
      rcases Sched.dequeue_none hd with ⟨h1, rfl⟩ | ⟨h1, h2, h3⟩
      · exact ⟨Nat.le_refl _, fun h => absurd h1 h⟩
      · simp only [pot, schedPot, h1, h2, h3, pendingPot]
        constructor
        · omega
        · intro _; omega
    · rename_i ev s hd
      simp only [Res.bind_eq_ok] at h
      obtain ⟨km1, h1, h2⟩ := h
      have hpd := Sched.dequeue_some hd
      have hi1 : Inv G ({ a with sched := s }) := ⟨⟨hi.halt.pressed,
        ⟨fun e he => hi.halt.q.pending e (by rw [hpd.1]; exact List.mem_cons_of_mem _ he),
          fun t ht => hi.halt.q.scheduled t (by rw [← hpd.2.1]; exact ht), hi.halt.q.queued⟩⟩, hi.good, hi.kept⟩
      have hev : NonPhys ev := hi.halt.q.pending ev (by rw [hpd.1]; exact List.mem_cons_self)
      have hi2 := (hi1.fire ev).steps hT (hh _ ev km1 hi1.halt.q hev h1)
      have l1 := hl _ ev km1 hi1 hev h1
      have l2 := (ih hi2 h2).1
      have l0 := dequeue_pot (w := w) hd
      simp only [pot] at *
      constructor
      · omega
      · intro _; omega

theorem keptPot_le (ie : InputEvent) (he : 1 ≤ e) : inPot e D ie ≤ keptPot e D ie + e := by
  cases ie <;> simp [inPot, keptPot] <;> omega

theorem inqPot_append (a b : List InputEvent) : inqPot e D (a ++ b) = inqPot e D a + inqPot e D b := by
  simp [inqPot]

/-- Kept events go back to the queue. -/
theorem back_pot (he : 1 ≤ e) (q : List InputEvent) : inqPot e D q ≤ (q.map (keptPot e D)).sum + e * q.length := by
  induction q with
  | nil => simp [inqPot]
  | cons x q ih =>
    have := keptPot_le (D := D) x he
    simp only [inqPot, List.map_cons, List.sum_cons, List.length_cons, Nat.mul_add] at *
    omega

theorem sum_filter_le {α : Type} (f : α → Nat) (g : α → Bool) (l : List α) :
    ((l.filter g).map f).sum + ((l.filter (fun x => !g x)).map f).sum = (l.map f).sum := by
  induction l with
  | nil => rfl
  | cons x l ih => cases h : g x <;> simp [h] <;> omega

/-- The cost of a kept event of any kind. -/
def evPot (e D : Nat) (ev : Event Ev) : Nat := match inputOf? ev with | some ie => keptPot e D ie | none => 0

theorem queuedPot_eq (q : List (Event Ev)) : queuedPot e D q = (q.map (evPot e D)).sum := by
  unfold queuedPot
  induction q with
  | nil => rfl
  | cons x q ih => cases h : inputOf? x <;> simp [h, evPot, ih]

theorem requeue_pot (idx : Nat) (q : List (Event Ev)) :
    queuedPot e D (requeueList idx q) ≤ queuedPot e D q ∧ (requeueList idx q).length ≤ q.length := by
  unfold requeueList
  have key : ∀ (l : List (Event Ev)), (l.getLast?.toList.map (evPot e D)).sum ≤ (l.map (evPot e D)).sum ∧
      l.getLast?.toList.length ≤ l.length := by
    intro l
    rcases List.eq_nil_or_concat l with rfl | ⟨l, x, rfl⟩
    · simp
    · simp
  have k := key (q.filter (isOwn idx))
  have s1 := sum_filter_le (evPot e D) (isOwn idx) q
  have s2 : (q.filter (isOwn idx)).length + (q.filter (fun x => !isOwn idx x)).length = q.length := by
    induction q with
    | nil => rfl
    | cons x q ih =>
      have ih := ih (key _) (sum_filter_le _ _ _)
      cases h : isOwn idx x <;> simp [h] <;> omega
  rw [queuedPot_eq, queuedPot_eq, List.map_append, List.sum_append, List.length_append]
  omega

/-- The undecided key is decided: this pays for all that follows. -/
theorem resolve_pot (hT : Tires C rank D E w ctxW keyW G cp) (he1 : e = E + 1) (hl : Lessens w e D rank cp G he)
    (hh : HandlerSteps C NonPhys he) {n : Nat} {a b : KM R Ev Ctx PKS KS} {p : Pending R Ev PKS} {ks : KS} (hi : Inv G a)
    (hp : a.pend = some p) (hf : FromSys C p.idx p.ref ks) (h : resolve C he n a p ks = .ok b) :
    pot w e D rank cp b + 2 * e ≤ pot w e D rank cp a := by
  unfold resolve at h
  simp only [Res.bind_eq_ok] at h
  obtain ⟨km1, h1, km2, h2, o, ho, h3⟩ := h
  have i1 := hi.micro hT (.resolve (Q := NonPhys) a p ks km1 hp hf h1)
  obtain ⟨_, _, rfl⟩ := resolveEnter_spec (hi.halt.q.queued p hp) h1
  have d1 := (drain_pot hT hl hh i1 h2).1
  have i2 := i1.steps hT (drain_steps hT.emits hh i1.halt.q h2)
  have hk := hi.kept p hp
  have r1 := requeue_pot (e := e) (D := D) p.idx p.queued
  have b1 := back_pot (D := D) (e := e) (by omega) ((requeueList p.idx p.queued).filterMap inputOf?)
  have l1 : ((requeueList p.idx p.queued).filterMap inputOf?).length ≤ maxPressedKeys :=
    Nat.le_trans (List.length_filterMap_le _ _) (Nat.le_trans r1.2 hk)
  have m1 := Nat.mul_le_mul_left e l1
  have w0 : 20 * e ≤ 20 * e * (rank p.ref + 1) := Nat.le_mul_of_pos_right _ (by omega)
  have key : pot w e D rank cp km2 + 4 * e ≤ pot w e D rank cp a := by
    refine Nat.le_trans (Nat.add_le_add_right d1 _) ?_
    have r1 := r1.1
    unfold queuedPot at r1
    simp only [pot, waitPot, hp, cancel_pot, inqPot_append, queuedPot]
    simp only [maxPressedKeys] at m1
    omega
  cases o with
  | none => simp only [Res.pure_eq, Res.ok.injEq] at h3; subst h3; omega
  | some ko =>
    have := hl _ _ _ i2 (hT.emits.resolved _ _) h3
    have := hT.resolved p.idx ko
    omega

theorem extend_eq {α : Type} {cap : Nat} {a b c : List α} (h : extendCap cap a b = .ok c) : c = a ++ b := by
  exact (extendCap_eq_ok.1 h).2

theorem pendLoop_pot (hT : Tires C rank D E w ctxW keyW G cp) (he1 : e = E + 1) (hl : Lessens w e D rank cp G he)
    (hh : HandlerSteps C NonPhys he) {n m : Nat} {a b : KM R Ev Ctx PKS KS} {p : Pending R Ev PKS} {npk : NPK R} (hi : Inv G a)
    (hp : a.pend = some p) (hb : ∀ r, npk = .key r → Becomes C p.idx p.ref r) (h : pendLoop C he n m a p npk = .ok b) :
    pot w e D rank cp b + 2 * e ≤ pot w e D rank cp a := by
  induction m generalizing a p npk with
  | zero => cases npk <;> simp [pendLoop] at h
  | succ m ih =>
    cases npk with
    | noOp => exact resolve_pot hT he1 hl hh hi hp (Or.inl rfl) h
    | key r =>
      simp only [pendLoop, Res.bind_eq_ok] at h
      obtain ⟨⟨pkr, es⟩, h1, s, h2, h3⟩ := h
      have i1 := hi.micro hT (.pendNpk (Q := NonPhys) a p r pkr es s hp h1 h2 (hb r rfl))
      have hlt : rank r < rank p.ref := by
        rcases hb r rfl with ⟨_, _, _, _, _, h⟩ | ⟨_, _, h⟩
        · exact hT.pend _ _ _ _ _ _ _ _ h
        · exact hT.npk _ _ _ _ _ h
      have c1 : schedPot w s = schedPot w a.sched + cost w es := scheduleAll_pot (w := w) h2
      have c2 := hT.npkCost _ _ _ _ _ hi.good h1
      have w1 : 20 * e * (rank r + 1) + 20 * e ≤ 20 * e * (rank p.ref + 1) := by
        have := Nat.mul_le_mul_left (20 * e) (show rank r + 1 + 1 ≤ rank p.ref + 1 by omega)
        rw [Nat.mul_add, Nat.mul_one] at this
        exact this
      have p1 : pot w e D rank cp { a with sched := s, pend := some { p with ref := r } } + 19 * e ≤ pot w e D rank cp a := by
        simp only [pot, waitPot, hp]
        omega
      cases pkr with
      | resolved ks =>
        have := resolve_pot hT he1 hl hh i1 (p := { p with ref := r }) rfl (Or.inr ⟨_, _, h1⟩) (ks := ks) (n := n) (b := b)
          (by rw [← h3]; rfl)
        omega
      | newPressedKey npk =>
        cases npk with
        | noOp =>
          have := resolve_pot hT he1 hl hh i1 (p := { p with ref := r }) rfl (Or.inl rfl) (n := n) (b := b)
            (by rw [← h3]; rfl)
          omega
        | key r' =>
          have := ih (p := { p with ref := r }) (npk := .key r') i1 rfl
            (fun _ e => by cases e; exact Or.inr ⟨_, _, h1⟩)
            (by rw [← h3]; exact pendLoop_pend he n m { a with sched := s } _ _ _)
          omega
      | pending pks =>
        simp only [Res.bind_eq_ok, Res.pure_eq, Res.ok.injEq] at h3
        obtain ⟨q, h4, q', h5, rfl⟩ := h3
        obtain rfl := extend_eq h4
        obtain rfl := extend_eq h5
        have hk := hi.kept p hp
        have b1 := back_pot (D := D) (e := e) (by omega) (p.queued.reverse.filterMap inputOf?)
        have l1 : (p.queued.reverse.filterMap inputOf?).length ≤ maxPressedKeys :=
          Nat.le_trans (List.length_filterMap_le _ _) (by rw [List.length_reverse]; exact hk)
        have m1 := Nat.mul_le_mul_left e l1
        have rv : ((p.queued.reverse.filterMap inputOf?).map (keptPot e D)).sum = queuedPot e D p.queued := by
          unfold queuedPot
          rw [List.filterMap_reverse, List.map_reverse, List.sum_reverse]
        simp only [maxPressedKeys] at m1
        simp only [pot, waitPot, inqPot_append, List.nil_append] at p1 ⊢
        simp only [queuedPot, List.filterMap_nil, List.map_nil, List.sum_nil] at p1 rv ⊢
        omega

/-- The undecided key is told about an event. -/
theorem updatePending_pot (hT : Tires C rank D E w ctxW keyW G cp) (he1 : e = E + 1) (hl : Lessens w e D rank cp G he)
    (hh : HandlerSteps C NonPhys he) {n k : Nat} {a b : KM R Ev Ctx PKS KS} {ev : Event Ev} (hi : Inv G a)
    (hk : ∀ p i r p' es, C.sys.updatePending p i a.ctx r ev = .ok (p', none, es) → cost w es ≤ k)
    (h : updatePending C he n a ev = .ok b) : pot w e D rank cp b ≤ pot w e D rank cp a + k := by
  unfold updatePending at h
  split at h
  · simp only [Res.pure_eq, Res.ok.injEq] at h; subst h; exact Nat.le_add_right _ _
  · rename_i p hp
    simp only [Res.bind_eq_ok] at h
    obtain ⟨⟨pks, npk, es⟩, h1, s, h2, h3⟩ := h
    have i1 := hi.micro hT (.pendUpd (Q := NonPhys) a ev p pks npk es s hp h1 h2)
    have c1 : schedPot w s = schedPot w a.sched + cost w es := scheduleAll_pot (w := w) h2
    cases npk with
    | none =>
      simp only [Res.pure_eq, Res.ok.injEq] at h3
      subst h3
      have := hk _ _ _ _ _ h1
      simp only [pot, waitPot, hp]
      omega
    | some npk =>
      have := pendLoop_pot hT he1 hl hh i1 rfl (fun r e => by subst e; exact Or.inl ⟨_, _, _, _, _, h1⟩) h3
      have c2 := hT.decided _ _ _ _ _ _ _ _ hi.good h1
      have e1 : pot w e D rank cp { a with sched := s, pend := some { p with pks := pks } } = pot w e D rank cp a + cost w es := by
        simp only [pot, waitPot, hp]; omega
      omega

theorem pressLoop_pot (hT : Tires C rank D E w ctxW keyW G cp) (he1 : e = E + 1) (hl : Lessens w e D rank cp G he)
    {m idx : Nat} {a b : KM R Ev Ctx PKS KS} {r : R} (hi : Inv G a) (hp : a.pend = none)
    (h : pressLoop C he idx m a r = .ok b) :
    pot w e D rank cp b ≤ pot w e D rank cp a + 20 * e * (rank r + 1) + 2 * E := by
  induction m generalizing a r with
  | zero => simp [pressLoop] at h
  | succ m ih =>
    simp only [pressLoop, Res.bind_eq_ok] at h
    obtain ⟨⟨pkr, es⟩, h1, s, h2, h3⟩ := h
    have hs := hi.halt.q.sched_all (hT.emits.npk _ _ _ _ _ h1) h2
    have i1 : Inv G { a with sched := s } := ⟨⟨hi.halt.pressed, ⟨hs.1, hs.2, hi.halt.q.queued⟩⟩, hi.good, hi.kept⟩
    have c1 : schedPot w s = schedPot w a.sched + cost w es := scheduleAll_pot (w := w) h2
    have c2 := hT.npkCost _ _ _ _ _ hi.good h1
    have p1 : pot w e D rank cp { a with sched := s } ≤ pot w e D rank cp a + E := by simp only [pot]; omega
    cases pkr with
    | resolved ks =>
      simp only [Res.bind_eq_ok] at h3
      obtain ⟨ps, h4, o, ho, h5⟩ := h3
      obtain ⟨hlen, rfl⟩ := pushCap_eq_ok.1 h4
      have e1 : pot w e D rank cp { a with sched := s, pressed := a.pressed ++ [.key idx r ks] } =
        pot w e D rank cp { a with sched := s } := rfl
      cases o with
      | none => simp only [Res.pure_eq, Res.ok.injEq] at h5; subst h5; omega
      | some ko =>
        have i2 : Inv G { a with sched := s, pressed := a.pressed ++ [.key idx r ks] } :=
          ⟨⟨by simp only [List.length_append, List.length_cons, List.length_nil]; exact hlen, i1.halt.q.1, i1.halt.q.2, i1.halt.q.3⟩, hi.good, hi.kept⟩
        have := hl _ _ _ i2 (hT.emits.resolved _ _) h5
        have := hT.resolved idx ko
        omega
    | newPressedKey npk =>
      cases npk with
      | noOp =>
        simp only [Res.bind_eq_ok, Res.pure_eq, Res.ok.injEq] at h3
        obtain ⟨ps, h4, rfl⟩ := h3
        have e1 : pot w e D rank cp { a with sched := s, pressed := ps } = pot w e D rank cp { a with sched := s } := rfl
        omega
      | key r' =>
        have := ih (a := { a with sched := s }) i1 hp h3
        have hlt := hT.npk _ _ _ _ _ h1
        have := Nat.mul_le_mul_left (20 * e) (show rank r' + 1 + 1 ≤ rank r + 1 by omega)
        rw [Nat.mul_add, Nat.mul_one] at this
        omega
    | pending pks =>
      simp only [Res.pure_eq, Res.ok.injEq] at h3
      subst h3
      simp only [pot, waitPot, hp, queuedPot, List.filterMap_nil, List.map_nil, List.sum_nil] at p1 ⊢
      omega

end

/-! ## Whole calls -/

section
variable {e : Nat} {he : Handler R Ev Ctx PKS KS}

theorem Inv.input (hT : Tires C rank D E w ctxW keyW G cp) {n : Nat} {a b : KM R Ev Ctx PKS KS} {ie : InputEvent} (hi : Inv G a)
    (hh : HandlerSteps C (fun _ => True) he) (hp : a.pend = none) (h : processDirect C he n a ie = .ok b) : Inv G b :=
  hi.steps hT (processDirect_steps (Emits.trivial C) hh hi.halt.q.true_of hp trivial h)

theorem processInput_pot (hT : Tires C rank D E w ctxW keyW G cp) (he1 : e = E + 1) (hl : Lessens w e D rank cp G he)
    (hh : HandlerSteps C NonPhys he) (hh' : HandlerSteps C (fun _ => True) he) {n : Nat} {a b : KM R Ev Ctx PKS KS}
    {ie : InputEvent} (hi : Inv G a) (h : processInput C he n a ie = .ok b) :
    pot w e D rank cp b + 1 ≤ pot w e D rank cp a + inPot e D ie := by
  unfold processInput at h
  simp only at h
  split at h
  · rename_i p hp
    simp only [Res.bind_eq_ok] at h
    obtain ⟨q, h3, c, h4, h2⟩ := h
    have i1 := hi.micro hT (.queue (Q := fun _ => True) a p ie q hp trivial h3)
    have i2 := i1.steps hT (updatePending_steps (Emits.trivial C) hh' i1.halt.q.true_of h4)
    have d1 := (drain_pot hT hl hh i2 h2).1
    obtain ⟨_, rfl⟩ := pushCap_eq_ok.1 h3
    have p1 : pot w e D rank cp { a with pend := some { p with queued := p.queued ++ [.input ie] } } =
        pot w e D rank cp a + keptPot e D ie := by
      simp only [pot, waitPot, hp, queuedPot, List.filterMap_append, List.map_append, List.sum_append, List.filterMap_cons,
        inputOf?, List.filterMap_nil, List.map_cons, List.map_nil, List.sum_cons, List.sum_nil]
      omega
    have w0 : 20 * e ≤ 20 * e * (D + 3) := Nat.le_mul_of_pos_right _ (by omega)
    cases ie with
    | press i =>
      have u1 := updatePending_pot hT he1 hl hh i1 (fun p i r p' es h => hT.waitIn p i _ r _ p' es hi.good h) h4
      simp only [keptPot, inPot] at p1 ⊢; omega
    | release i =>
      have u1 := updatePending_pot hT he1 hl hh i1 (fun p i r p' es h => hT.waitIn p i _ r _ p' es hi.good h) h4
      simp only [keptPot, inPot] at p1 ⊢; omega
    | vpress ko =>
      have u1 := updatePending_pot (k := 0) hT he1 hl hh i1
        (fun p i r p' es h => Nat.le_of_eq (hT.wait p i _ r (.input (.vpress ko)) p' es hi.good rfl h)) h4
      simp only [keptPot, inPot] at p1 ⊢; omega
    | vrelease ko =>
      have u1 := updatePending_pot (k := 0) hT he1 hl hh i1
        (fun p i r p' es h => Nat.le_of_eq (hT.wait p i _ r (.input (.vrelease ko)) p' es hi.good rfl h)) h4
      simp only [keptPot, inPot] at p1 ⊢; omega
  · rename_i hp
    simp only [Res.bind_eq_ok] at h
    obtain ⟨c, h1, h2⟩ := h
    have i2 := hi.input hT hh' hp h1
    have d1 := (drain_pot hT hl hh i2 h2).1
    simp only [processDirect, Res.bind_eq_ok] at h1
    obtain ⟨a1, h3, h4⟩ := h1
    have i3 := hi.steps hT (notifyAll_steps (Q := NonPhys) h3)
    have hp1 : a1.pend = none := by rw [notifyAll_pend h3, hp]
    have nPhys : pot w e D rank cp a1 ≤ pot w e D rank cp a + (E + maxPressedKeys * E) :=
      notifyAll_pot hi.halt.pressed (fun ks r i ks' es h => hT.stateIn ks r _ i _ ks' es h)
        (fun c' es h => hT.ctxIn _ _ c' es hi.good h) h3
    have nVirt : NonPhys (Ev := Ev) (.input ie) → pot w e D rank cp a1 ≤ pot w e D rank cp a := fun hn => by
      have := notifyAll_pot (D := D) (rank := rank) (e := e) hi.halt.pressed
        (fun ks r i ks' es h => hT.state ks r _ i _ ks' es hn h) (fun c' es h => hT.ctx _ _ c' es hi.good hn h) h3
      rw [(hT.virt ie hn).2.1, (hT.virt ie hn).2.2] at this
      omega
    simp only [maxPressedKeys] at nPhys
    cases ie with
    | press idx =>
      simp only at h4
      split at h4
      · simp only [Res.pure_eq, Res.ok.injEq] at h4; subst h4
        have w0 : 20 * e ≤ 20 * e * (D + 3) := Nat.le_mul_of_pos_right _ (by omega)
        simp only [inPot]; omega
      · simp only [Res.bind_eq_ok] at h4
        obtain ⟨r, hr, h5⟩ := h4
        have := pressLoop_pot hT he1 hl i3 hp1 h5
        have := Nat.mul_le_mul_left (20 * e) (show rank r + 1 + 2 ≤ D + 3 by have := hT.rank_le r; omega)
        rw [Nat.mul_add] at this
        simp only [inPot]; omega
    | release idx =>
      simp only [Res.pure_eq, Res.ok.injEq] at h4; subst h4
      have e1 : pot w e D rank cp { a1 with pressed := removeKey idx a1.pressed } = pot w e D rank cp a1 := rfl
      simp only [inPot]; omega
    | vpress ko =>
      simp only [Res.bind_eq_ok, Res.pure_eq, Res.ok.injEq] at h4
      obtain ⟨ps, h5, rfl⟩ := h4
      have e1 : pot w e D rank cp { a1 with pressed := ps } = pot w e D rank cp a1 := rfl
      have := nVirt rfl
      simp only [inPot]; omega
    | vrelease ko =>
      simp only [Res.pure_eq, Res.ok.injEq] at h4; subst h4
      have e1 : pot w e D rank cp { a1 with pressed := removeVirt ko a1.pressed } = pot w e D rank cp a1 := rfl
      have := nVirt rfl
      simp only [inPot]; omega

theorem handleEvent_lessens (hT : Tires C rank D E w ctxW keyW G cp) (he1 : e = E + 1) (n : Nat) :
    Lessens w e D rank cp G (handleEvent C n) := by
  induction n with
  | zero => intro a ev b _ _ h; simp [handleEvent] at h
  | succ n ih =>
    intro a ev b hi hev h
    have hh : HandlerSteps C NonPhys (handleEvent C n) := handleEvent_steps hT.emits n
    have hh' : HandlerSteps C (fun _ => True) (handleEvent C n) := handleEvent_steps (Emits.trivial C) n
    simp only [handleEvent, handleBody, Res.bind_eq_ok] at h
    obtain ⟨a1, h1, a2, h2, h3⟩ := h
    have i0 := hi.fire ev
    have u1 := updatePending_pot (e := e) (k := 0) hT he1 ih hh i0
      (fun p i r p' es h => Nat.le_of_eq (hT.wait p i _ r _ p' es i0.good hev h)) h1
    have i1 := i0.steps hT (updatePending_steps hT.emits hh i0.halt.q h1)
    have n1 := notifyAll_pot (D := D) (rank := rank) (e := e) i1.halt.pressed
        (fun ks r i ks' es h => hT.state ks r _ i _ ks' es hev h) (fun c' es h => hT.ctx _ _ c' es i1.good hev h) h2
    have i2 := i1.steps hT (notifyAll_steps (Q := NonPhys) h2)
    have hw := hT.weight ev hev
    rw [fire_pot] at u1
    cases ev with
    | input ie =>
      have := processInput_pot hT he1 ih hh hh' i2 h3
      have hv := hT.virt ie hev
      rw [hv.2.1, hv.2.2] at n1
      have : inPot e D ie = 2 := by cases ie <;> first | rfl | (simp [NonPhys, Spec.physical] at hev)
      omega
    | key _ _ => simp only [Res.pure_eq, Res.ok.injEq] at h3; subst h3; omega
    | keymap _ => simp only [Res.pure_eq, Res.ok.injEq] at h3; subst h3; omega

theorem clocks_micro {Q : Event Ev → Prop} {a b : KM R Ev Ctx PKS KS} (m : Micro C Q a b) :
    b.delay = a.delay ∧ b.msPerTick = a.msPerTick := by
  cases m with
  | resolve p ks km' hp hf he =>
    unfold resolveEnter at he
    simp only [Res.bind_eq_ok, Res.pure_eq, Res.ok.injEq] at he
    obtain ⟨ps, h1, ⟨q1, s1⟩, h2, q2, h3, rfl⟩ := he
    exact ⟨rfl, rfl⟩
  | take ev s hd =>
    unfold KM.fire
    split
    · split <;> exact ⟨rfl, rfl⟩
    · exact ⟨rfl, rfl⟩
  | _ => exact ⟨rfl, rfl⟩

theorem clocks_steps {Q : Event Ev → Prop} {a b : KM R Ev Ctx PKS KS} (m : Steps C Q a b) :
    b.delay = a.delay ∧ b.msPerTick = a.msPerTick :=
  m.inv (I := fun km => km.delay = a.delay ∧ km.msPerTick = a.msPerTick)
    (fun _ _ h m => ⟨(clocks_micro m).1.trans h.1, (clocks_micro m).2.trans h.2⟩) ⟨rfl, rfl⟩

/-- The invariant holds after every public call. -/
theorem inv_api (hT : Tires C rank D E w ctxW keyW G cp) : ApiInv C (Inv (R := R) (Ev := Ev) (PKS := PKS) (KS := KS) G) where
  micro := fun a b h _ m => h.micro hT m
  frame := fun a h _ _ _ _ _ => ⟨⟨h.halt.pressed, ⟨h.halt.q.pending, h.halt.q.scheduled, h.halt.q.queued⟩⟩, h.good, h.kept⟩
  enq := fun a h _ _ => ⟨⟨h.halt.pressed, ⟨h.halt.q.pending, h.halt.q.scheduled, h.halt.q.queued⟩⟩, h.good, h.kept⟩
  deq := fun a h _ _ _ => ⟨⟨h.halt.pressed, ⟨h.halt.q.pending, h.halt.q.scheduled, h.halt.q.queued⟩⟩, h.good, h.kept⟩
  ctx := fun a h t i => ⟨⟨h.halt.pressed, ⟨h.halt.q.pending, h.halt.q.scheduled, h.halt.q.queued⟩⟩, hT.goodSet _ _ _ h.good, h.kept⟩
  tick := fun a h d s hs => ⟨⟨h.halt.pressed, (qinv_api NonPhys hT.emits).tick a h.halt.q d s hs⟩, h.good, h.kept⟩
  init := fun a h => ⟨⟨Nat.zero_le _, (qinv_api NonPhys hT.emits).init a h.halt.q⟩, h.good, fun p hp => by cases hp⟩

/-- **Every tick brings the keymap nearer to rest.** -/
theorem tick_lessens (hT : Tires C rank D E w ctxW keyW G cp) {n : Nat} {a b : KM R Ev Ctx PKS KS} (hi : Inv G a)
    (hm : 0 < a.msPerTick) (h : tick C n a = .ok b) : Inv G b ∧ b.msPerTick = a.msPerTick ∧
      (a.hasScheduledEvents = true ∨ 0 < a.delay →
        pot w (E + 1) D rank cp b + b.delay < pot w (E + 1) D rank cp a + a.delay) := by
  have hT' := hT
  obtain ⟨c, s, d, h1, h2, h3, h4, rfl⟩ := tick_eq_ok h
  have hl : Lessens w (E + 1) D rank cp G (handleEvent C n) := handleEvent_lessens hT rfl n
  have hh : HandlerSteps C NonPhys (handleEvent C n) := handleEvent_steps hT.emits n
  have hh' : HandlerSteps C (fun _ => True) (handleEvent C n) := handleEvent_steps (Emits.trivial C) n
  have i0 : Inv G { a with ctx := C.sys.setCtx a.ctx a.sched.counter a.idle } := (inv_api hT).ctx _ hi _ _
  have p0 : pot w (E + 1) D rank cp { a with ctx := C.sys.setCtx a.ctx a.sched.counter a.idle } =
    pot w (E + 1) D rank cp a := by simp only [pot, hT.cpSet]
  have iC : Inv G c := ((inv_api hT).tickInput ⟨i0, i0.halt.q.true_of⟩ h1).1
  have key : c.msPerTick = a.msPerTick ∧
      ((pot w (E + 1) D rank cp c < pot w (E + 1) D rank cp a ∧ c.delay ≤ a.delay + 1) ∨
      (c = { a with ctx := C.sys.setCtx a.ctx a.sched.counter a.idle } ∧ (a.inq = [] ∨ 0 < a.delay))) := by
    unfold tickInput at h1
    split at h1
    · rename_i ie q hq
      simp only at hq
      split at h1
      · rename_i hd
        simp only [Res.bind_eq_ok, Res.pure_eq, Res.ok.injEq] at h1
        obtain ⟨k, h5, rfl⟩ := h1
        have i1 := (inv_api hT).deq _ i0 ie q hq
        have := processInput_pot (e := E + 1) hT rfl hl hh hh' i1 h5
        have cl := clocks_steps (processInput_steps (Emits.trivial C) hh' i1.halt.q.true_of trivial h5)
        refine ⟨cl.2, Or.inl ⟨?_, by simp [inputDelay]⟩⟩
        have e1 : pot w (E + 1) D rank cp { k with delay := inputDelay } = pot w (E + 1) D rank cp k := rfl
        have e2 : pot w (E + 1) D rank cp a = inPot (E + 1) D ie + pot w (E + 1) D rank cp
            { a with ctx := C.sys.setCtx a.ctx a.sched.counter a.idle, inq := q, log := a.log ++ [ie] } := by
          simp only [pot, hT.cpSet, hq, inqPot, List.map_cons, List.sum_cons]; omega
        simp only at this
        omega
      · rename_i hd
        simp only [Res.ok.injEq] at h1; subst h1
        exact ⟨rfl, Or.inr ⟨rfl, Or.inr (by simp only at hd; omega)⟩⟩
    · rename_i hq
      simp only [Res.ok.injEq] at h1; subst h1
      exact ⟨rfl, Or.inr ⟨rfl, Or.inl hq⟩⟩
  have t1 := tick_pot (w := w) (fun t ht => by have := hT.weight _ (iC.halt.q.scheduled t ht); omega)
    (by rw [key.1]; exact hm) h2
  have iD : Inv G { c with delay := c.delay - 1, sched := s } :=
    (inv_api hT).tick _ ((inv_api hT).frame c iC c.idle (c.delay - 1) c.rep c.callbacks c.msPerTick) _ _ h2
  have d1 := drain_pot hT hl hh iD h3
  have cl := clocks_steps (drain_steps hT.emits hh iD.halt.q h3)
  have p1 : pot w (E + 1) D rank cp { c with delay := c.delay - 1, sched := s } + schedPot w c.sched =
    pot w (E + 1) D rank cp c + schedPot w s := by simp only [pot]; omega
  refine ⟨(inv_api hT).frame d (iD.steps hT (drain_steps hT.emits hh iD.halt.q h3)) _ d.delay d.rep d.callbacks d.msPerTick,
    cl.2.trans key.1, ?_⟩
  intro hx
  have e1 : pot w (E + 1) D rank cp { d with idle := d.idle + d.msPerTick } = pot w (E + 1) D rank cp d := rfl
  rw [e1]
  have cl1 : d.delay = c.delay - 1 := cl.1
  simp only [cl1]
  rcases key.2 with ⟨k1, k2⟩ | ⟨rfl, k2⟩
  · omega
  · simp only at cl1 t1 d1 p1 ⊢
    by_cases hd : 0 < a.delay
    · omega
    · have hq : a.inq = [] := k2.resolve_right hd
      have hx := hx.resolve_right hd
      simp only [KM.hasScheduledEvents, hq, List.isEmpty_nil, Bool.not_true, Bool.or_false, Bool.or_eq_true,
        Bool.not_eq_true', List.isEmpty_eq_false_iff] at hx
      by_cases hs : a.sched.scheduled = []
      · have hpd := hx.resolve_right (fun h => h hs)
        have : s.pending ≠ [] := by
          obtain ⟨_, h | ⟨t, rest, hs', ht, _, rfl⟩⟩ := Sched.tick_eq_ok h2
          · obtain ⟨rfl, hh⟩ := h; exact hpd
          · simp
        have := d1.2 this
        omega
      · have := t1.2 hs
        omega

/-- A keymap at rest stays at rest. -/
theorem tick_rest {n : Nat} {a b : KM R Ev Ctx PKS KS} (hr : a.hasScheduledEvents = false) (h : tick C n a = .ok b) :
    b.hasScheduledEvents = false ∧ b.pressed = a.pressed ∧ b.pend = a.pend := by
  simp only [KM.hasScheduledEvents, Bool.or_eq_false_iff, Bool.not_eq_false', List.isEmpty_iff] at hr
  obtain ⟨⟨h1, h2⟩, h3⟩ := hr
  obtain ⟨c, s, d, h4, h5, h6, h7, rfl⟩ := tick_eq_ok h
  simp only [tickInput, h3, Res.ok.injEq] at h4
  subst h4
  obtain ⟨_, ⟨rfl, _⟩ | ⟨t, rest, hs', ht, _, rfl⟩⟩ := Sched.tick_eq_ok h5
  · unfold drainN at h6
    cases n with
    | zero => simp [drain] at h6
    | succ n =>
      unfold drain at h6
      simp only [Sched.dequeue, h1, Res.ok.injEq] at h6
      subst h6
      simp [KM.hasScheduledEvents, h1, h2, h3]
  · simp only [h2] at hs'; cases hs'

/-- **After enough ticks the keymap is at rest**: `k` ticks, for every `k` from some number on. -/
theorem rests (hT : Tires C rank D E w ctxW keyW G cp) (n : Nat) {a b : KM R Ev Ctx PKS KS} (hi : Inv G a) (hm : 0 < a.msPerTick)
    {k : Nat} (hk : pot w (E + 1) D rank cp a + a.delay ≤ k) (h : ticks C n k a = .ok b) : b.hasScheduledEvents = false := by
  induction k generalizing a with
  | zero =>
    simp only [ticks, Res.ok.injEq] at h; subst h
    cases hs : a.hasScheduledEvents with
    | false => rfl
    | true =>
      have hpos : ∀ x y z u v : Nat, x + y + z + u + v ≤ 0 → x = 0 ∧ y = 0 ∧ z = 0 ∧ u = 0 := by omega
      obtain ⟨q1, _, q3, _⟩ := hpos _ _ _ _ _ hk
      simp only [KM.hasScheduledEvents, Bool.or_eq_true, Bool.not_eq_true', List.isEmpty_eq_false_iff] at hs
      rcases hs with (hs | hs) | hs
      · cases hx : a.sched.pending with
        | nil => exact absurd hx hs
        | cons o q =>
          simp only [schedPot, hx, pendingPot] at q3
          cases o with
          | none => simp only at q3; omega
          | some ev =>
            have := hT.weight ev (hi.halt.q.pending ev (by rw [hx]; exact List.mem_cons_self))
            simp only at q3; omega
      · cases hx : a.sched.scheduled with
        | nil => exact absurd hx hs
        | cons o q => simp only [schedPot, hx, timedPot] at q3; omega
      · cases hx : a.inq with
        | nil => exact absurd hx hs
        | cons o q =>
          simp only [hx, inqPot, List.map_cons, List.sum_cons] at q1
          have : 0 < inPot (E + 1) D o := by cases o <;> simp [inPot]
          omega
  | succ k ih =>
    simp only [ticks, Res.bind_eq_ok] at h
    obtain ⟨c, h1, h2⟩ := h
    have t := tick_lessens hT hi hm h1
    by_cases hx : a.hasScheduledEvents = true ∨ 0 < a.delay
    · have := t.2.2 hx
      exact ih t.1 (by rw [t.2.1]; exact hm) (by omega) h2
    · have hr : a.hasScheduledEvents = false := by
        cases ha : a.hasScheduledEvents with
        | false => rfl
        | true => exact absurd (Or.inl ha) hx
      have r1 := (tick_rest hr h1).1
      clear ih h1 t hx hr hk hm hi hT
      induction k generalizing c with
      | zero => simp only [ticks, Res.ok.injEq] at h2; subst h2; exact r1
      | succ k ih =>
        simp only [ticks, Res.bind_eq_ok] at h2
        obtain ⟨c', h3, h4⟩ := h2
        exact ih c' h4 (tick_rest r1 h3).1

end

end Verif.Rest
