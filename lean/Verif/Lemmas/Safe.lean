import Verif.Spec.Safe

/-!
# Calls that panic only if a fixed-size buffer is full

`Fine x Q`: the call `x` returns a value with `Q`, or panics because a buffer is full (or the depth of the model is
exhausted). `Sound` lists what a key system has to satisfy, and `Inv` is the invariant of the keymap, from which
all calls of `Keymap` are fine.
-/

namespace Verif

/-- The call returns a value with `Q`, unless a buffer is full. -/
def Res.Fine {α : Type} (Q : α → Prop) : Res α → Prop
  | .ok a => Q a
  | .panic p => p = .capacity
  | .fuel => True

namespace Res

variable {α β : Type} {Q Q' : α → Prop} {P : β → Prop}

theorem Fine.bind {x : Res α} {f : α → Res β} (h : x.Fine Q) (hf : ∀ a, Q a → (f a).Fine P) : (x >>= f).Fine P := by
  cases x with
  | ok a => exact hf a h
  | panic p => exact h
  | fuel => trivial

theorem Fine.mono {x : Res α} (h : x.Fine Q) (hq : ∀ a, Q a → Q' a) : x.Fine Q' := by
  cases x with
  | ok a => exact hq a h
  | panic p => exact h
  | fuel => trivial

theorem Fine.map {x : Res α} {f : α → β} (h : x.Fine Q) (hf : ∀ a, Q a → P (f a)) : (f <$> x).Fine P := by
  cases x with
  | ok a => exact hf a h
  | panic p => exact h
  | fuel => trivial

theorem Fine.index {xs : List α} {i : Nat} {a : α} (h : xs[i]? = some a) (hq : Q a) : (Res.index xs i).Fine Q := by
  simp only [Res.index, h]
  exact hq

/-- The value of a call that returned. -/
theorem Fine.ok {x : Res α} {a : α} (h : x.Fine Q) (hx : x = .ok a) : Q a := by
  subst hx
  exact h

theorem Fine.and_eq {x : Res α} (h : x.Fine Q) : x.Fine (fun a => Q a ∧ x = .ok a) := by
  cases x with
  | ok a => exact ⟨h, rfl⟩
  | panic p => exact h
  | fuel => trivial

end Res

theorem pushCap_fine {α : Type} (cap : Nat) (xs : List α) (x : α) : (pushCap cap xs x).Fine (· = xs ++ [x]) := by
  unfold pushCap
  split
  · rfl
  · rfl

theorem extendCap_fine {α : Type} (cap : Nat) (xs ys : List α) : (extendCap cap xs ys).Fine (· = xs ++ ys) := by
  rw [extendCap_eq]
  split
  · rfl
  · rfl

variable {R Ev Ctx PKS KS : Type}

section

variable (keys : Nat) (D : Nat) (KEv : Ev → Prop)

/-- The event carries what the key system expects. -/
def EvOk : Event Ev → Prop
  | .input e => InOk keys e
  | .key _ e => KEv e
  | .keymap _ => True

/-- The events are ok, and their delays are at most `D`. -/
def EsOk (es : KeyEvents Ev) : Prop :=
  ∀ e ∈ es, EvOk keys KEv e.event ∧ ∀ d, e.schedule = .after d → d ≤ D

/-- The events of the scheduler are ok, and its clock is at most `T`. -/
structure SchedOk (T : Nat) (s : Sched Ev) : Prop where
  pending : ∀ e, some e ∈ s.pending → EvOk keys KEv e
  scheduled : ∀ t ∈ s.scheduled, EvOk keys KEv t.event
  counter : s.counter ≤ T

variable {keys D KEv}

theorem EsOk.nil : EsOk keys D KEv [] := fun _ h => by cases h

theorem EsOk.cons {e : SchEv Ev} {es : KeyEvents Ev} (h : EvOk keys KEv e.event) (hd : ∀ d, e.schedule = .after d → d ≤ D)
    (hs : EsOk keys D KEv es) : EsOk keys D KEv (e :: es) := by
  intro x hx
  rcases List.mem_cons.1 hx with rfl | hx
  · exact ⟨h, hd⟩
  · exact hs x hx

theorem EsOk.append {es es' : KeyEvents Ev} (h : EsOk keys D KEv es) (h' : EsOk keys D KEv es') : EsOk keys D KEv (es ++ es') := by
  intro x hx
  rcases List.mem_append.1 hx with hx | hx
  · exact h x hx
  · exact h' x hx

variable {S : Search} {T : Nat} (hT : T + D < u32Size)

include hT

theorem scheduleAfter_fine {s : Sched Ev} (h : SchedOk keys KEv T s) {d : Nat} (hd : d ≤ D) {e : Event Ev} (he : EvOk keys KEv e) :
    (s.scheduleAfter S d e).Fine (SchedOk keys KEv T) := by
  have hc := h.counter
  unfold Sched.scheduleAfter
  rw [if_pos (by omega)]
  split
  · refine ⟨h.pending, ?_, hc⟩
    intro t ht
    simp only [List.mem_append, List.mem_cons] at ht
    rcases ht with ht | rfl | ht
    · exact h.scheduled t (List.mem_of_mem_take ht)
    · exact he
    · exact h.scheduled t (List.mem_of_mem_drop ht)
  · rfl

omit hT in
theorem enqueue_fine {s : Sched Ev} (h : SchedOk keys KEv T s) {o : Option (Event Ev)} (ho : ∀ e, o = some e → EvOk keys KEv e) :
    (s.enqueue o).Fine (SchedOk keys KEv T) := by
  refine (pushCap_fine _ _ _).bind ?_
  rintro q rfl
  refine ⟨?_, h.scheduled, h.counter⟩
  intro e he
  rcases List.mem_append.1 he with he | he
  · exact h.pending e he
  · exact ho e (by simpa [eq_comm] using he)

theorem scheduleAll_fine {es : KeyEvents Ev} : ∀ {s : Sched Ev}, SchedOk keys KEv T s → EsOk keys D KEv es →
    (s.scheduleAll S es).Fine (SchedOk keys KEv T) := by
  induction es with
  | nil => exact fun h _ => h
  | cons e es ih =>
    intro s h he
    obtain ⟨h1, h2⟩ := he e (.head _)
    have : (s.scheduleEvent S e).Fine (SchedOk keys KEv T) := by
      unfold Sched.scheduleEvent
      split
      · exact enqueue_fine h (fun e' he' => by cases he'; exact h1)
      · rename_i d hd
        exact scheduleAfter_fine hT h (h2 d hd) h1
    exact this.bind fun s' hs' => ih hs' (fun x hx => he x (.tail _ hx))

omit hT in
theorem SchedOk.cancel {s : Sched Ev} (h : SchedOk keys KEv T s) (i : Nat) : SchedOk keys KEv T (s.cancel i) := by
  refine ⟨h.pending, ?_, h.counter⟩
  intro t ht
  obtain ⟨u, hu, rfl⟩ := List.mem_map.1 ht
  have := h.scheduled u hu
  simp only [Sched.cancelOne]
  split
  · split
    · exact this
    · exact this
  · exact this

omit hT in
theorem SchedOk.dequeue {s : Sched Ev} (h : SchedOk keys KEv T s) : SchedOk keys KEv T s.dequeue.2 ∧ ∀ e, s.dequeue.1 = some e → EvOk keys KEv e := by
  unfold Sched.dequeue
  split
  · exact ⟨h, fun e he => by cases he⟩
  · rename_i e q hq
    refine ⟨⟨fun e he => h.pending e (hq ▸ .tail _ he), h.scheduled, h.counter⟩, ?_⟩
    rintro e' rfl
    exact h.pending e' (hq ▸ .head _)

omit hT in
theorem tickSched_fine {s : Sched Ev} (h : SchedOk keys KEv T s) {d : Nat} (hd : T + d < u32Size) :
    (s.tick d).Fine (SchedOk keys KEv (T + d)) := by
  have hc := h.counter
  unfold Sched.tick
  rw [if_pos (by omega)]
  split
  · rename_i t rest hr
    split
    · have hs : SchedOk keys KEv (T + d) { s with counter := s.counter + d, scheduled := rest } :=
        ⟨h.pending, fun t ht => h.scheduled t (hr ▸ .tail _ ht), by show s.counter + d ≤ T + d; omega⟩
      refine enqueue_fine hs ?_
      intro e he
      split at he
      · cases he
        exact h.scheduled t (hr ▸ .head _)
      · cases he
    · exact ⟨h.pending, h.scheduled, by show s.counter + d ≤ T + d; omega⟩
  · exact ⟨h.pending, h.scheduled, by show s.counter + d ≤ T + d; omega⟩

end

/-! ## The keymap -/

/-- What a key system has to satisfy: `J` holds of its context, `RefOk i` of the key references at position `i`, `KsOk i r` of
the states of pressed keys, `PksOk i r` of pending ones, `KEv` of its events; its delays are at most `D`. -/
structure Sound (C : Cfg R Ev Ctx PKS KS) (D : Nat) (J : Ctx → Prop) (RefOk : Nat → R → Prop) (KsOk : Nat → R → KS → Prop)
    (PksOk : Nat → R → PKS → Prop) (KEv : Ev → Prop) : Prop where
  refs : ∀ i r, C.keyRefs[i]? = some r → RefOk i r
  noOp : ∀ i r, KsOk i r C.sys.noOp
  press : ∀ i r c, RefOk i r → J c → (C.sys.newPressedKey i c r).Fine fun x =>
    EsOk C.keyRefs.length D KEv x.2 ∧
      match x.1 with
      | .resolved ks => KsOk i r ks
      | .newPressedKey (.key r') => RefOk i r'
      | .newPressedKey .noOp => True
      | .pending p => PksOk i r p
  pending : ∀ i r p c ev, PksOk i r p → J c → EvOk C.keyRefs.length KEv ev → (C.sys.updatePending p i c r ev).Fine fun x =>
    EsOk C.keyRefs.length D KEv x.2.2 ∧
      match x.2.1 with
      | none => PksOk i r x.1
      | some .noOp => True
      | some (.key r') => RefOk i r'
  state : ∀ i r ks c ev, KsOk i r ks → J c → EvOk C.keyRefs.length KEv ev → (C.sys.updateState ks r c i ev).Fine fun x =>
    EsOk C.keyRefs.length D KEv x.2 ∧ KsOk i r x.1
  ctx : ∀ c ev, J c → EvOk C.keyRefs.length KEv ev → (C.sys.ctxEvent c ev).Fine fun x => EsOk C.keyRefs.length D KEv x.2 ∧ J x.1
  setCtx : ∀ c t i, J c → J (C.sys.setCtx c t i)
  output : ∀ i r ks, KsOk i r ks → (C.sys.keyOutput r ks).Fine fun _ => True

section

variable (C : Cfg R Ev Ctx PKS KS) (J : Ctx → Prop) (KsOk : Nat → R → KS → Prop) (PksOk : Nat → R → PKS → Prop) (KEv : Ev → Prop)

/-- The pressed keys. -/
def PressedOk (ps : List (PressedInput R KS)) : Prop := ∀ i r ks, .key i r ks ∈ ps → KsOk i r ks

/-- The events received while a key is pending. -/
def QueuedOk (es : List (Event Ev)) : Prop := ∀ e ∈ es, ∃ ie, e = .input ie ∧ InOk C.keyRefs.length ie

/-- The part of the invariant that does not speak of the pending key. -/
structure Core (T U ms : Nat) (km : KM R Ev Ctx PKS KS) : Prop where
  ctx : J km.ctx
  pressed : PressedOk KsOk km.pressed
  sched : SchedOk C.keyRefs.length KEv T km.sched
  inq : ∀ e ∈ km.inq, InOk C.keyRefs.length e
  idle : km.idle ≤ U
  ms : km.msPerTick = ms

/-- The invariant: the clock is at most `T`, the idle time at most `U`, and a tick takes `ms`. -/
structure Inv (T U ms : Nat) (km : KM R Ev Ctx PKS KS) : Prop where
  core : Core C J KsOk KEv T U ms km
  pend : ∀ p, km.pend = some p → PksOk p.idx p.ref p.pks ∧ QueuedOk C p.queued

variable {C J KsOk PksOk KEv} {D T U ms : Nat} {RefOk : Nat → R → Prop}

theorem PressedOk.push {ps : List (PressedInput R KS)} (h : PressedOk KsOk ps) {i : Nat} {r : R} {ks : KS} (hk : KsOk i r ks) :
    PressedOk KsOk (ps ++ [.key i r ks]) := by
  intro i' r' ks' hm
  rcases List.mem_append.1 hm with hm | hm
  · exact h _ _ _ hm
  · simp only [List.mem_cons, List.not_mem_nil, or_false, PressedInput.key.injEq] at hm
    obtain ⟨rfl, rfl, rfl⟩ := hm
    exact hk

theorem PressedOk.virt {ps : List (PressedInput R KS)} (h : PressedOk KsOk ps) (ko : KeyOutput) : PressedOk KsOk (ps ++ [.virt ko]) := by
  intro i' r' ks' hm
  rcases List.mem_append.1 hm with hm | hm
  · exact h _ _ _ hm
  · simp at hm

theorem PressedOk.removeKey {ps : List (PressedInput R KS)} (h : PressedOk KsOk ps) (i : Nat) : PressedOk KsOk (removeKey i ps) := by
  have hsub : ∀ ps : List (PressedInput R KS), ∀ x ∈ Verif.removeKey i ps, x ∈ ps := by
    intro ps
    induction ps with
    | nil => intro x hx; cases hx
    | cons p ps ih =>
      intro x hx
      cases p with
      | key j r ks =>
        simp only [Verif.removeKey] at hx
        split at hx
        · exact .tail _ hx
        · rcases List.mem_cons.1 hx with rfl | hx
          · exact .head _
          · exact .tail _ (ih x hx)
      | virt ko =>
        simp only [Verif.removeKey] at hx
        rcases List.mem_cons.1 hx with rfl | hx
        · exact .head _
        · exact .tail _ (ih x hx)
  exact fun i r ks hm => h _ _ _ (hsub ps _ hm)

theorem PressedOk.removeVirt {ps : List (PressedInput R KS)} (h : PressedOk KsOk ps) (ko : KeyOutput) : PressedOk KsOk (removeVirt ko ps) := by
  have hsub : ∀ ps : List (PressedInput R KS), ∀ x ∈ Verif.removeVirt ko ps, x ∈ ps := by
    intro ps
    induction ps with
    | nil => intro x hx; cases hx
    | cons p ps ih =>
      intro x hx
      cases p with
      | virt k =>
        simp only [Verif.removeVirt] at hx
        split at hx
        · exact .tail _ hx
        · rcases List.mem_cons.1 hx with rfl | hx
          · exact .head _
          · exact .tail _ (ih x hx)
      | key i r ks =>
        simp only [Verif.removeVirt] at hx
        rcases List.mem_cons.1 hx with rfl | hx
        · exact .head _
        · exact .tail _ (ih x hx)
  exact fun i r ks hm => h _ _ _ (hsub ps _ hm)

section

variable (hS : Sound C D J RefOk KsOk PksOk KEv) (hT : T + D < u32Size)

include hS hT

theorem notifyPressed_fine {c : Ctx} (hc : J c) {ev : Event Ev} (hev : EvOk C.keyRefs.length KEv ev) :
    ∀ {ps : List (PressedInput R KS)} {s : Sched Ev}, PressedOk KsOk ps → SchedOk C.keyRefs.length KEv T s →
      (notifyPressed C c ev ps s).Fine fun x => PressedOk KsOk x.1 ∧ SchedOk C.keyRefs.length KEv T x.2
  | [], s, h, hs => ⟨h, hs⟩
  | .virt ko :: ps, s, h, hs => by
    refine (notifyPressed_fine hc hev (fun i r ks hm => h i r ks (.tail _ hm)) hs).bind ?_
    rintro ⟨ps', s'⟩ ⟨h1, h2⟩
    refine ⟨?_, h2⟩
    intro i r ks hm
    rcases List.mem_cons.1 hm with hm | hm
    · cases hm
    · exact h1 i r ks hm
  | .key i r ks :: ps, s, h, hs => by
    refine (hS.state i r ks c ev (h i r ks (.head _)) hc hev).bind ?_
    rintro ⟨ks', es⟩ ⟨h1, h2⟩
    refine (scheduleAll_fine hT hs h1).bind ?_
    intro s1 hs1
    refine (notifyPressed_fine hc hev (fun i r ks hm => h i r ks (.tail _ hm)) hs1).bind ?_
    rintro ⟨ps', s'⟩ ⟨h3, h4⟩
    refine ⟨?_, h4⟩
    intro i' r' ks'' hm
    rcases List.mem_cons.1 hm with hm | hm
    · cases hm
      exact h2
    · exact h3 i' r' ks'' hm

theorem notifyAll_fine {km : KM R Ev Ctx PKS KS} (h : Core C J KsOk KEv T U ms km) {ev : Event Ev} (hev : EvOk C.keyRefs.length KEv ev) :
    (notifyAll C km ev).Fine fun km' => Core C J KsOk KEv T U ms km' ∧ km'.pend = km.pend := by
  refine (notifyPressed_fine hS hT h.ctx hev h.pressed h.sched).bind ?_
  rintro ⟨ps, s⟩ ⟨h1, h2⟩
  refine (hS.ctx km.ctx ev h.ctx hev).bind ?_
  rintro ⟨c, es⟩ ⟨h3, h4⟩
  refine (scheduleAll_fine hT h2 h3).bind ?_
  intro s' hs'
  exact ⟨⟨h4, h1, hs', h.inq, h.idle, h.ms⟩, rfl⟩

theorem drain_fine {he : Handler R Ev Ctx PKS KS} (hh : ∀ km ev, Inv C J KsOk PksOk KEv T U ms km → EvOk C.keyRefs.length KEv ev →
      (he km ev).Fine (Inv C J KsOk PksOk KEv T U ms)) :
    ∀ (n : Nat) {km : KM R Ev Ctx PKS KS}, Inv C J KsOk PksOk KEv T U ms km → (drain he n km).Fine (Inv C J KsOk PksOk KEv T U ms)
  | 0, _, _ => trivial
  | n + 1, km, h => by
    obtain ⟨h1, h2⟩ := h.core.sched.dequeue
    unfold drain
    split
    · rename_i s hs
      rw [hs] at h1
      exact ⟨⟨h.core.ctx, h.core.pressed, h1, h.core.inq, h.core.idle, h.core.ms⟩, h.pend⟩
    · rename_i ev s hs
      rw [hs] at h1 h2
      refine (hh { km with sched := s } ev ⟨⟨h.core.ctx, h.core.pressed, h1, h.core.inq, h.core.idle, h.core.ms⟩, h.pend⟩ (h2 ev rfl)).bind ?_
      intro km' h'
      exact drain_fine hh n h'

omit hS hT in
theorem requeue_fine : ∀ {i : Nat} {es : List (Event Ev)} {q : List InputEvent} {s : Sched Ev}, QueuedOk C es →
    (∀ e ∈ q, InOk C.keyRefs.length e) → SchedOk C.keyRefs.length KEv T s →
    (requeue C i es q s).Fine fun x => (∀ e ∈ x.1, InOk C.keyRefs.length e) ∧ SchedOk C.keyRefs.length KEv T x.2
  | _, [], q, s, _, hq, hs => ⟨hq, hs⟩
  | i, e :: es, q, s, he, hq, hs => by
    obtain ⟨ie, rfl, hie⟩ := he e (.head _)
    refine (pushCap_fine _ _ _).bind ?_
    rintro q' rfl
    refine requeue_fine (fun e h => he e (.tail _ h)) ?_ hs
    intro e hm
    rcases List.mem_append.1 hm with hm | hm
    · exact hq e hm
    · simp only [List.mem_cons, List.not_mem_nil, or_false] at hm
      exact hm ▸ hie

omit hS hT in
theorem resolveEnter_fine {km : KM R Ev Ctx PKS KS} (h : Core C J KsOk KEv T U ms km) {p : Pending R Ev PKS} (hq : QueuedOk C p.queued) {ks : KS}
    (hk : KsOk p.idx p.ref ks) : (resolveEnter C km p ks).Fine (Inv C J KsOk PksOk KEv T U ms) := by
  refine (pushCap_fine _ _ _).bind ?_
  rintro ps rfl
  have hq' : QueuedOk C (requeueList p.idx p.queued) := by
    intro e he
    simp only [requeueList, List.mem_append, List.mem_filter, Option.mem_toList] at he
    rcases he with ⟨he, _⟩ | he
    · exact hq e he
    · exact hq e (List.mem_filter.1 (List.mem_of_getLast? he)).1
  refine (requeue_fine hq' (fun e he => by cases he) (h.sched.cancel p.idx)).bind ?_
  rintro ⟨q, s⟩ ⟨h1, h2⟩
  refine (extendCap_fine _ _ _).bind ?_
  rintro q' rfl
  refine ⟨⟨h.ctx, h.pressed.push hk, h2, ?_, h.idle, h.ms⟩, fun p hp => by cases hp⟩
  intro e he
  rcases List.mem_append.1 he with he | he
  · exact h1 e he
  · exact h.inq e he

variable {he : Handler R Ev Ctx PKS KS} (hh : ∀ km ev, Inv C J KsOk PksOk KEv T U ms km → EvOk C.keyRefs.length KEv ev →
      (he km ev).Fine (Inv C J KsOk PksOk KEv T U ms))

include hh

theorem resolve_fine {n : Nat} {km : KM R Ev Ctx PKS KS} (h : Core C J KsOk KEv T U ms km) {p : Pending R Ev PKS} (hq : QueuedOk C p.queued) {ks : KS}
    (hk : KsOk p.idx p.ref ks) : (resolve C he n km p ks).Fine (Inv C J KsOk PksOk KEv T U ms) := by
  refine (resolveEnter_fine (PksOk := PksOk) h hq hk).bind ?_
  intro km1 h1
  refine (drain_fine hS hT hh n h1).bind ?_
  intro km2 h2
  refine (hS.output _ _ _ hk).bind ?_
  intro o _
  cases o with
  | none => exact h2
  | some ko => exact hh _ _ h2 trivial

theorem pendLoop_fine {n : Nat} : ∀ (m : Nat) {km : KM R Ev Ctx PKS KS} {p : Pending R Ev PKS} {k : NPK R}, Core C J KsOk KEv T U ms km →
    QueuedOk C p.queued → (∀ r, k = .key r → RefOk p.idx r) → (pendLoop C he n m km p k).Fine (Inv C J KsOk PksOk KEv T U ms)
  | 0, _, _, _, _, _, _ => trivial
  | m + 1, km, p, .noOp, h, hq, _ => resolve_fine hS hT hh h hq (hS.noOp _ _)
  | m + 1, km, p, .key r, h, hq, hr => by
    refine (hS.press p.idx r km.ctx (hr r rfl) h.ctx).bind ?_
    rintro ⟨pkr, es⟩ ⟨h1, h2⟩
    refine (scheduleAll_fine hT h.sched h1).bind ?_
    intro s hs
    have hcore : Core C J KsOk KEv T U ms { km with sched := s } := ⟨h.ctx, h.pressed, hs, h.inq, h.idle, h.ms⟩
    cases pkr with
    | resolved ks => exact resolve_fine hS hT hh (p := { p with ref := r }) hcore hq h2
    | newPressedKey k =>
      cases k with
      | key r' => exact pendLoop_fine m (p := { p with ref := r }) hcore hq (fun r'' hr'' => by cases hr''; exact h2)
      | noOp => exact resolve_fine hS hT hh (p := { p with ref := r }) hcore hq (hS.noOp _ _)
    | pending pks =>
      refine (extendCap_fine _ _ _).bind ?_
      rintro q rfl
      refine (extendCap_fine _ _ _).bind ?_
      rintro q rfl
      refine ⟨⟨h.ctx, h.pressed, hs, ?_, h.idle, h.ms⟩, ?_⟩
      · intro e hm
        simp only [List.nil_append, List.mem_append, List.mem_filterMap, List.mem_reverse] at hm
        rcases hm with ⟨x, hx, hxe⟩ | hm
        · obtain ⟨ie, rfl, hie⟩ := hq x hx
          cases hxe
          exact hie
        · exact h.inq e hm
      · intro p' hp'
        cases hp'
        exact ⟨h2, fun e he => by cases he⟩

theorem updatePending_fine {n : Nat} {km : KM R Ev Ctx PKS KS} (h : Inv C J KsOk PksOk KEv T U ms km) {ev : Event Ev}
    (hev : EvOk C.keyRefs.length KEv ev) : (updatePending C he n km ev).Fine (Inv C J KsOk PksOk KEv T U ms) := by
  unfold updatePending
  split
  · exact h
  · rename_i p hp
    obtain ⟨h1, h2⟩ := h.pend p hp
    refine (hS.pending p.idx p.ref p.pks km.ctx ev h1 h.core.ctx hev).bind ?_
    rintro ⟨pks, npk, es⟩ ⟨h3, h4⟩
    refine (scheduleAll_fine hT h.core.sched h3).bind ?_
    intro s hs
    have hcore : Core C J KsOk KEv T U ms { km with sched := s, pend := some { p with pks := pks } } :=
      ⟨h.core.ctx, h.core.pressed, hs, h.core.inq, h.core.idle, h.core.ms⟩
    cases npk with
    | none =>
      refine ⟨hcore, ?_⟩
      intro p' hp'
      cases hp'
      exact ⟨h4, h2⟩
    | some k =>
      refine pendLoop_fine hS hT hh n (p := { p with pks := pks }) hcore h2 ?_
      rintro r rfl
      exact h4

theorem pressLoop_fine {idx : Nat} : ∀ (m : Nat) {km : KM R Ev Ctx PKS KS} {r : R}, Inv C J KsOk PksOk KEv T U ms km → km.pend = none →
    RefOk idx r → (pressLoop C he idx m km r).Fine (Inv C J KsOk PksOk KEv T U ms)
  | 0, _, _, _, _, _ => trivial
  | m + 1, km, r, h, hn, hr => by
    refine (hS.press idx r km.ctx hr h.core.ctx).bind ?_
    rintro ⟨pkr, es⟩ ⟨h1, h2⟩
    refine (scheduleAll_fine hT h.core.sched h1).bind ?_
    intro s hs
    have hcore : Core C J KsOk KEv T U ms { km with sched := s } := ⟨h.core.ctx, h.core.pressed, hs, h.core.inq, h.core.idle, h.core.ms⟩
    have hpush : ∀ {ks : KS}, KsOk idx r ks → Inv C J KsOk PksOk KEv T U ms { km with sched := s, pressed := km.pressed ++ [.key idx r ks] } :=
      fun hk => ⟨⟨hcore.ctx, hcore.pressed.push hk, hs, hcore.inq, hcore.idle, hcore.ms⟩, h.pend⟩
    cases pkr with
    | resolved ks =>
      refine (pushCap_fine _ _ _).bind ?_
      rintro ps rfl
      refine (hS.output _ _ _ h2).bind ?_
      intro o _
      cases o with
      | none => exact hpush h2
      | some ko => exact hh _ _ (hpush h2) trivial
    | newPressedKey k =>
      cases k with
      | key r' => exact pressLoop_fine m ⟨hcore, h.pend⟩ hn h2
      | noOp =>
        refine (pushCap_fine _ _ _).bind ?_
        rintro ps rfl
        exact hpush (hS.noOp _ _)
    | pending pks =>
      refine ⟨⟨hcore.ctx, hcore.pressed, hs, hcore.inq, hcore.idle, hcore.ms⟩, ?_⟩
      intro p' hp'
      cases hp'
      exact ⟨h2, fun e he => by cases he⟩

theorem processDirect_fine {n : Nat} {km : KM R Ev Ctx PKS KS} (h : Inv C J KsOk PksOk KEv T U ms km) (hn : km.pend = none) {ie : InputEvent}
    (hie : InOk C.keyRefs.length ie) : (processDirect C he n km ie).Fine (Inv C J KsOk PksOk KEv T U ms) := by
  refine (notifyAll_fine hS hT h.core (ev := .input ie) hie).bind ?_
  rintro km' ⟨h1, h2⟩
  have hpend : ∀ p, km'.pend = some p → PksOk p.idx p.ref p.pks ∧ QueuedOk C p.queued := fun p hp => by rw [h2, hn] at hp; cases hp
  cases ie with
  | press i =>
    dsimp only
    split
    · exact ⟨h1, hpend⟩
    · have hi : C.keyRefs[i]? = some C.keyRefs[i] := List.getElem?_eq_getElem hie
      refine (Res.Fine.index (Q := RefOk i) hi (hS.refs i _ hi)).bind ?_
      intro r hr
      exact pressLoop_fine hS hT hh n ⟨h1, hpend⟩ (h2.trans hn) hr
  | release i => exact ⟨⟨h1.ctx, h1.pressed.removeKey i, h1.sched, h1.inq, h1.idle, h1.ms⟩, hpend⟩
  | vpress ko =>
    refine (pushCap_fine _ _ _).bind ?_
    rintro ps rfl
    exact ⟨⟨h1.ctx, h1.pressed.virt ko, h1.sched, h1.inq, h1.idle, h1.ms⟩, hpend⟩
  | vrelease ko => exact ⟨⟨h1.ctx, h1.pressed.removeVirt ko, h1.sched, h1.inq, h1.idle, h1.ms⟩, hpend⟩

theorem processInput_fine {n : Nat} {km : KM R Ev Ctx PKS KS} (h : Inv C J KsOk PksOk KEv T U ms km) {ie : InputEvent}
    (hie : InOk C.keyRefs.length ie) : (processInput C he n km ie).Fine (Inv C J KsOk PksOk KEv T U ms) := by
  have hd : ∀ km', Inv C J KsOk PksOk KEv T U ms km' → (drain he n km').Fine (Inv C J KsOk PksOk KEv T U ms) :=
    fun km' h' => drain_fine hS hT hh n h'
  unfold processInput
  split
  · rename_i p hp
    obtain ⟨h1, h2⟩ := h.pend p hp
    refine (pushCap_fine _ _ _).bind ?_
    rintro q rfl
    refine Res.Fine.bind (Q := Inv C J KsOk PksOk KEv T U ms) ?_ hd
    refine updatePending_fine hS hT hh (ev := .input ie) (km := { km with pend := some { p with queued := p.queued ++ [.input ie] } })
      ⟨⟨h.core.ctx, h.core.pressed, h.core.sched, h.core.inq, h.core.idle, h.core.ms⟩, ?_⟩ hie
    intro p' hp'
    cases hp'
    refine ⟨h1, ?_⟩
    intro e hm
    rcases List.mem_append.1 hm with hm | hm
    · exact h2 e hm
    · simp only [List.mem_cons, List.not_mem_nil, or_false] at hm
      exact ⟨ie, hm, hie⟩
  · rename_i hn
    exact (processDirect_fine hS hT hh h hn hie).bind hd

theorem handleBody_fine {n : Nat} {km : KM R Ev Ctx PKS KS} (h : Inv C J KsOk PksOk KEv T U ms km) {ev : Event Ev}
    (hev : EvOk C.keyRefs.length KEv ev) : (handleBody C he n km ev).Fine (Inv C J KsOk PksOk KEv T U ms) := by
  have hf : Inv C J KsOk PksOk KEv T U ms (km.fire ev) := by
    unfold KM.fire
    split
    · split
      · exact ⟨⟨h.core.ctx, h.core.pressed, h.core.sched, h.core.inq, h.core.idle, h.core.ms⟩, h.pend⟩
      · exact h
    · exact h
  refine (updatePending_fine hS hT hh hf hev).bind ?_
  intro km1 h1
  refine (notifyAll_fine hS hT h1.core hev).bind ?_
  rintro km2 ⟨h2, h3⟩
  have h2' : Inv C J KsOk PksOk KEv T U ms km2 := ⟨h2, fun p hp => h1.pend p (h3 ▸ hp)⟩
  cases ev with
  | input ie => exact processInput_fine hS hT hh h2' hev
  | key i e => exact h2'
  | keymap e => exact h2'

end

variable (hS : Sound C D J RefOk KsOk PksOk KEv) (hT : T + D < u32Size)

include hS

theorem handleEvent_fine (hT : T + D < u32Size) : ∀ (n : Nat) (km : KM R Ev Ctx PKS KS) (ev : Event Ev), Inv C J KsOk PksOk KEv T U ms km →
    EvOk C.keyRefs.length KEv ev → (handleEvent C n km ev).Fine (Inv C J KsOk PksOk KEv T U ms)
  | 0, _, _, _, _ => trivial
  | n + 1, _, _, h, hev => handleBody_fine hS hT (handleEvent_fine hT n) h hev

theorem processInputN_fine (hT : T + D < u32Size) {n : Nat} {km : KM R Ev Ctx PKS KS} (h : Inv C J KsOk PksOk KEv T U ms km) {ie : InputEvent}
    (hie : InOk C.keyRefs.length ie) : (processInputN C n km ie).Fine (Inv C J KsOk PksOk KEv T U ms) :=
  processInput_fine hS hT (handleEvent_fine hS hT n) h hie

theorem handleInput_fine (hT : T + D < u32Size) {n : Nat} {km : KM R Ev Ctx PKS KS} (h : Inv C J KsOk PksOk KEv T U ms km) {ie : InputEvent}
    (hie : InOk C.keyRefs.length ie) : (handleInput C n km ie).Fine (Inv C J KsOk PksOk KEv T U ms) := by
  have hc := h.core
  have hq : ∀ e ∈ km.inq ++ [ie], InOk C.keyRefs.length e := by
    intro e hm
    rcases List.mem_append.1 hm with hm | hm
    · exact hc.inq e hm
    · simp only [List.mem_cons, List.not_mem_nil, or_false] at hm
      exact hm ▸ hie
  unfold handleInput
  dsimp only
  split
  · exact ⟨⟨hc.ctx, hc.pressed, hc.sched, hc.inq, Nat.zero_le _, hc.ms⟩, h.pend⟩
  · split
    · split
      · rename_i heq
        simp at heq
      · rename_i e q heq
        rw [heq] at hq
        refine (processInputN_fine (U := U) hS hT (ie := e) (km := { km with idle := 0, inq := q, log := km.log ++ [e] }) ⟨⟨hc.ctx, hc.pressed, hc.sched, fun e h => hq e (.tail _ h), Nat.zero_le _, hc.ms⟩, h.pend⟩
          (hq e (.head _))).bind ?_
        intro km' h'
        exact ⟨⟨h'.core.ctx, h'.core.pressed, h'.core.sched, h'.core.inq, h'.core.idle, h'.core.ms⟩, h'.pend⟩
    · exact ⟨⟨hc.ctx, hc.pressed, hc.sched, hq, Nat.zero_le _, hc.ms⟩, h.pend⟩

theorem tick_fine (hT : T + ms + D < u32Size) (hU : U + ms < u32Size) {n : Nat} {km : KM R Ev Ctx PKS KS} (h : Inv C J KsOk PksOk KEv T U ms km) :
    (tick C n km).Fine (Inv C J KsOk PksOk KEv (T + ms) (U + ms) ms) := by
  have hT0 : T + D < u32Size := by omega
  have hc := h.core
  have h0 : Inv C J KsOk PksOk KEv T U ms { km with ctx := C.sys.setCtx km.ctx km.sched.counter km.idle } :=
    ⟨⟨hS.setCtx _ _ _ hc.ctx, hc.pressed, hc.sched, hc.inq, hc.idle, hc.ms⟩, h.pend⟩
  unfold tick
  have h1 : (tickInput C n { km with ctx := C.sys.setCtx km.ctx km.sched.counter km.idle }).Fine (Inv C J KsOk PksOk KEv T U ms) := by
    generalize { km with ctx := C.sys.setCtx km.ctx km.sched.counter km.idle } = km0 at h0
    unfold tickInput
    split
    · rename_i ie q hq
      have hc := h0.core
      split
      · refine (processInputN_fine hS hT0 (ie := ie) (km := { km0 with inq := q, log := km0.log ++ [ie] }) ⟨⟨hc.ctx, hc.pressed, hc.sched, fun e h => hc.inq e (hq ▸ .tail _ h), hc.idle, hc.ms⟩, h0.pend⟩
          (hc.inq _ (hq ▸ .head _))).bind ?_
        intro km' h'
        exact ⟨⟨h'.core.ctx, h'.core.pressed, h'.core.sched, h'.core.inq, h'.core.idle, h'.core.ms⟩, h'.pend⟩
      · exact h0
    · exact h0
  refine h1.bind ?_
  intro km1 h1
  have hc1 := h1.core
  have hts : (km1.sched.tick km1.msPerTick).Fine (SchedOk C.keyRefs.length KEv (T + ms)) := by
    rw [hc1.ms]
    exact tickSched_fine hc1.sched (by omega)
  refine hts.bind ?_
  intro s hs
  refine (drain_fine hS (T := T + ms) (by omega) (handleEvent_fine hS (by omega) n) n
    (km := { km1 with delay := km1.delay - 1, sched := s })
    ⟨⟨hc1.ctx, hc1.pressed, hs, hc1.inq, hc1.idle, hc1.ms⟩, h1.pend⟩).bind ?_
  intro km2 h2
  have hi := h2.core.idle
  have hm := h2.core.ms
  rw [hm, if_pos (by omega)]
  exact ⟨⟨h2.core.ctx, h2.core.pressed, h2.core.sched, h2.core.inq, by show km2.idle + ms ≤ U + ms; omega, rfl⟩, h2.pend⟩

omit hS in
theorem initDrain_mem : ∀ (q : List (Option (Event Ev))) {e : Option (Event Ev)}, e ∈ Sched.initDrain q → e ∈ q
  | [], _, h => h
  | none :: q, _, h => .tail _ h
  | some _ :: q, _, h => .tail _ (initDrain_mem q h)

omit hS in
theorem pressedOutputs_fine (hS : Sound C D J RefOk KsOk PksOk KEv) : ∀ {ps : List (PressedInput R KS)}, PressedOk KsOk ps →
    (pressedOutputs C.sys ps).Fine fun _ => True
  | [], _ => trivial
  | .key i r ks :: ps, h => (hS.output i r ks (h i r ks (.head _))).bind fun _ _ =>
      (pressedOutputs_fine hS (fun i r ks hm => h i r ks (.tail _ hm))).bind fun _ _ => trivial
  | .virt _ :: ps, h => (pressedOutputs_fine hS (fun i r ks hm => h i r ks (.tail _ hm))).bind fun _ _ => trivial

omit hS in
theorem ClockBelow.now {limit : Nat} : ∀ {ops : List Op} {t ms : Nat}, ClockBelow limit t ms ops → t < limit
  | [], _, _, h => h
  | .tick :: ops, _, _, h => Nat.lt_of_le_of_lt (Nat.le_add_right _ _) (ClockBelow.now (ops := ops) h)
  | .init :: _, _, _, h => h.1
  | .setMsPerTick _ :: ops, _, _, h => ClockBelow.now (ops := ops) h
  | .input _ :: ops, _, _, h => ClockBelow.now (ops := ops) h
  | .report :: ops, _, _, h => ClockBelow.now (ops := ops) h
  | .setCallback _ _ :: ops, _, _, h => ClockBelow.now (ops := ops) h
  | .inputAfter _ _ :: ops, _, _, h => ClockBelow.now (ops := ops) h
  | .tickToNext :: ops, _, _, h => ClockBelow.now (ops := ops) h

theorem run_fine {n : Nat} : ∀ {ops : List Op} {T ms : Nat} {km : KM R Ev Ctx PKS KS}, Inv C J KsOk PksOk KEv T T ms km →
    (∀ op ∈ ops, Plays C.keyRefs.length op) → ClockBelow (u32Size - D) T ms ops →
    (run C n km ops).Fine fun km' => ∃ T' ms', Inv C J KsOk PksOk KEv T' T' ms' km'
  | [], T, ms, km, h, _, _ => ⟨T, ms, h⟩
  | op :: ops, T, ms, km, h, hp, hT => by
    have hp' : ∀ op ∈ ops, Plays C.keyRefs.length op := fun o ho => hp o (.tail _ ho)
    have hc := h.core
    have hT0 := hT.now
    unfold run
    cases op with
    | input e =>
      simp only [ClockBelow] at hT
      have hT1 := hT.now
      exact (handleInput_fine hS (by omega) h (hp _ (.head _))).bind fun km' h' => run_fine h' hp' hT
    | tick =>
      simp only [ClockBelow] at hT
      have hT1 := hT.now
      exact (tick_fine hS (by omega) (by omega) h).bind fun km' h' => run_fine h' hp' hT
    | report =>
      simp only [ClockBelow] at hT
      have hr : (step C n km .report).Fine (Inv C J KsOk PksOk KEv T T ms) := by
        refine Res.Fine.map (Q := fun x => Inv C J KsOk PksOk KEv T T ms x.1) ?_ (fun _ h => h)
        refine (pressedOutputs_fine hS hc.pressed).bind ?_
        intro os _
        exact ⟨⟨hc.ctx, hc.pressed, hc.sched, hc.inq, hc.idle, hc.ms⟩, h.pend⟩
      exact hr.bind fun km' h' => run_fine h' hp' hT
    | init =>
      simp only [ClockBelow] at hT
      refine run_fine (T := 0) (ms := 1) ⟨⟨hc.ctx, (fun i r ks hm => by cases hm), ?_, (fun e hm => by cases hm), Nat.zero_le _, rfl⟩,
        fun p hp => by cases hp⟩ hp' hT.2
      refine ⟨(fun e hm => hc.sched.pending e (initDrain_mem _ hm)), (fun t hm => by cases hm), Nat.zero_le _⟩
    | setCallback c f =>
      simp only [ClockBelow] at hT
      have hr : (step C n km (.setCallback c f)).Fine (Inv C J KsOk PksOk KEv T T ms) := by
        simp only [step, KM.setCallback]
        split
        · exact ⟨⟨hc.ctx, hc.pressed, hc.sched, hc.inq, hc.idle, hc.ms⟩, h.pend⟩
        · rfl
      exact hr.bind fun km' h' => run_fine h' hp' hT
    | setMsPerTick m =>
      simp only [ClockBelow] at hT
      exact run_fine (T := T) (ms := m) ⟨⟨hc.ctx, hc.pressed, hc.sched, hc.inq, hc.idle, rfl⟩, h.pend⟩ hp' hT
    | inputAfter d e => exact (hp _ (.head _)).elim
    | tickToNext => exact (hp _ (.head _)).elim

end

end Verif
