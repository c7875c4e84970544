import Verif.Lemmas.Call

/-!
# Every call comes to an end

The model cuts the mutual recursion of the keymap at a depth. Here: if key references form no cycle and the events
a key system emits immediately get lighter and lighter, then some depth suffices, and the result does not depend
on the depth beyond it.
-/

namespace Verif

variable {R Ev Ctx PKS KS : Type}

/-! ## Computations that need a limited depth -/

/-- With enough depth (each of the three), the result is always the same, and is not "out of depth". -/
def Stable {α : Type} (f : Nat → Nat → Nat → Res α) : Prop :=
  ∃ r, r ≠ .fuel ∧ ∃ N, ∀ a b m, N ≤ a → N ≤ b → N ≤ m → f a b m = r

namespace Stable
variable {α β : Type}

theorem const {x : Res α} (h : x ≠ .fuel) : Stable (fun _ _ _ => x) := ⟨x, h, 0, fun _ _ _ _ _ _ => rfl⟩

theorem bind {f : Nat → Nat → Nat → Res α} {g : Nat → Nat → Nat → α → Res β} (hf : Stable f)
    (hg : ∀ x, (∃ a b m, f a b m = .ok x) → Stable (fun a b m => g a b m x)) : Stable (fun a b m => f a b m >>= g a b m) := by
  obtain ⟨r, hr, N, h⟩ := hf
  cases r with
  | fuel => exact absurd rfl hr
  | panic p => exact ⟨.panic p, by simp, N, fun a b m ha hb hm => by simp only [h a b m ha hb hm]; rfl⟩
  | ok x =>
    obtain ⟨r, hr, M, h'⟩ := hg x ⟨N, N, N, h _ _ _ (Nat.le_refl _) (Nat.le_refl _) (Nat.le_refl _)⟩
    refine ⟨r, hr, max N M, fun a b m ha hb hm => ?_⟩
    simp only [h a b m (by omega) (by omega) (by omega), Res.ok_bind]
    exact h' a b m (by omega) (by omega) (by omega)

theorem bind_const {x : Res α} {g : Nat → Nat → Nat → α → Res β} (hf : x ≠ .fuel)
    (hg : ∀ y, x = .ok y → Stable (fun a b m => g a b m y)) : Stable (fun a b m => x >>= g a b m) :=
  bind (const hf) (fun y ⟨_, _, _, h⟩ => hg y h)

theorem succ1 {f : Nat → Nat → Nat → Res α} (h : Stable (fun a b m => f (a + 1) b m)) : Stable f := by
  obtain ⟨r, hr, N, h⟩ := h
  refine ⟨r, hr, N + 1, fun a b m ha hb hm => ?_⟩
  have := h (a - 1) b m (by omega) (by omega) (by omega)
  simpa [show a - 1 + 1 = a by omega] using this

theorem succ2 {f : Nat → Nat → Nat → Res α} (h : Stable (fun a b m => f a (b + 1) m)) : Stable f := by
  obtain ⟨r, hr, N, h⟩ := h
  refine ⟨r, hr, N + 1, fun a b m ha hb hm => ?_⟩
  have := h a (b - 1) m (by omega) (by omega) (by omega)
  simpa [show b - 1 + 1 = b by omega] using this

theorem succ3 {f : Nat → Nat → Nat → Res α} (h : Stable (fun a b m => f a b (m + 1))) : Stable f := by
  obtain ⟨r, hr, N, h⟩ := h
  refine ⟨r, hr, N + 1, fun a b m ha hb hm => ?_⟩
  have := h a b (m - 1) (by omega) (by omega) (by omega)
  simpa [show m - 1 + 1 = m by omega] using this

theorem diag {f : Nat → Nat → Nat → Res α} (h : Stable f) : Stable (fun a _ _ => f a a a) := by
  obtain ⟨r, hr, N, h⟩ := h
  exact ⟨r, hr, N, fun a _ _ ha _ _ => h a a a ha ha ha⟩

theorem diag3 {f : Nat → Nat → Nat → Res α} (h : Stable f) : Stable (fun a b _ => f a b b) := by
  obtain ⟨r, hr, N, h⟩ := h
  exact ⟨r, hr, N, fun a b _ ha hb _ => h a b b ha hb hb⟩

end Stable

/-! ## Weights -/

/-- What the immediate events among `es` weigh. -/
def immWeight (w : Event Ev → Nat) : KeyEvents Ev → Nat
  | [] => 0
  | e :: es => (match e.schedule with | .immediate => w e.event | .after _ => 0) + immWeight w es

/-- What the queued events weigh. -/
def queueWeight (w : Event Ev → Nat) : List (Option (Event Ev)) → Nat
  | [] => 0
  | none :: q => queueWeight w q
  | some e :: q => w e + queueWeight w q

theorem queueWeight_append (w : Event Ev → Nat) (p q : List (Option (Event Ev))) :
    queueWeight w (p ++ q) = queueWeight w p + queueWeight w q := by
  induction p with
  | nil => simp [queueWeight]
  | cons x p ih => cases x <;> simp [queueWeight, ih] <;> omega

theorem scheduleAll_weight (w : Event Ev → Nat) {S : Search} {es : KeyEvents Ev} {s s' : Sched Ev}
    (h : s.scheduleAll S es = .ok s') : queueWeight w s'.pending = queueWeight w s.pending + immWeight w es := by
  induction es generalizing s with
  | nil =>
    simp only [Sched.scheduleAll, Res.ok.injEq] at h
    subst h; simp [immWeight]
  | cons e es ih =>
    simp only [Sched.scheduleAll, Res.bind_eq_ok] at h
    obtain ⟨s1, h1, h2⟩ := h
    rw [ih h2]
    rcases Sched.scheduleEvent_cases h1 with ⟨hi, _, rfl⟩ | ⟨d, hi, h⟩
    · simp only [immWeight, hi, queueWeight_append, queueWeight]; omega
    · rw [(Sched.scheduleAfter_spec h).1]
      simp [immWeight, hi]

theorem scheduleAfter_ne_fuel {S : Search} {s : Sched Ev} {d : Nat} {e : Event Ev} : s.scheduleAfter S d e ≠ .fuel := by
  simp only [Sched.scheduleAfter]
  split
  · split <;> simp
  · simp

theorem pushCap_ne_fuel {α : Type} {cap : Nat} {xs : List α} {x : α} : pushCap cap xs x ≠ .fuel := by
  unfold pushCap; split <;> simp

theorem extendCap_ne_fuel {α : Type} {cap : Nat} {xs ys : List α} : extendCap cap xs ys ≠ .fuel := by
  rw [extendCap_eq]; split <;> simp

theorem index_ne_fuel {α : Type} {xs : List α} {i : Nat} : Res.index xs i ≠ .fuel := by
  unfold Res.index; split <;> simp

theorem bind_ne_fuel {α β : Type} {x : Res α} {f : α → Res β} (hx : x ≠ .fuel) (hf : ∀ a, x = .ok a → f a ≠ .fuel) :
    (x >>= f) ≠ .fuel := by
  intro h
  rcases Res.bind_eq_fuel.1 h with h | ⟨a, h1, h2⟩
  · exact hx h
  · exact hf a h1 h2

theorem scheduleAll_ne_fuel {S : Search} {es : KeyEvents Ev} {s : Sched Ev} : s.scheduleAll S es ≠ .fuel := by
  induction es generalizing s with
  | nil => simp [Sched.scheduleAll]
  | cons e es ih =>
    refine bind_ne_fuel ?_ (fun s' _ => ih)
    unfold Sched.scheduleEvent
    split
    · exact bind_ne_fuel pushCap_ne_fuel (fun _ _ => by simp)
    · exact scheduleAfter_ne_fuel

theorem schedTick_ne_fuel {s : Sched Ev} {d : Nat} : s.tick d ≠ .fuel := by
  simp only [Sched.tick]
  split
  · split
    · split
      · exact bind_ne_fuel pushCap_ne_fuel (fun _ _ => by simp)
      · simp
    · simp
  · simp

theorem nextEventTime_ne_fuel {s : Sched Ev} : s.nextEventTime ≠ .fuel := by
  unfold Sched.nextEventTime
  split
  · simp
  · split
    · simp
    · split <;> simp

/-- A key system whose events get lighter, and whose key references have no cycle (`rank` goes down). -/
structure Cascade (C : Cfg R Ev Ctx PKS KS) (rank : R → Nat) (w ctxW keyW : Event Ev → Nat) : Prop where
  /-- no key system function goes on forever -/
  npk_ends : ∀ i c r, C.sys.newPressedKey i c r ≠ .fuel
  pend_ends : ∀ p i c r ev, C.sys.updatePending p i c r ev ≠ .fuel
  state_ends : ∀ ks r c i ev, C.sys.updateState ks r c i ev ≠ .fuel
  ctx_ends : ∀ c ev, C.sys.ctxEvent c ev ≠ .fuel
  output_ends : ∀ r ks, C.sys.keyOutput r ks ≠ .fuel
  /-- only virtual input events are emitted -/
  emits : Emits C NonPhys
  ctx : ∀ c ev c' es, NonPhys ev → C.sys.ctxEvent c ev = .ok (c', es) → immWeight w es ≤ ctxW ev
  state : ∀ ks r c i ev ks' es, NonPhys ev → C.sys.updateState ks r c i ev = .ok (ks', es) → immWeight w es ≤ keyW ev
  weight : ∀ ev, NonPhys ev → 2 * (ctxW ev + maxPressedKeys * keyW ev) < w ev
  wait : ∀ p i c r ev p' es, C.sys.updatePending p i c r ev = .ok (p', none, es) → immWeight w es = 0
  npk : ∀ i c r r' es, C.sys.newPressedKey i c r = .ok (.newPressedKey (.key r'), es) → rank r' < rank r
  pend : ∀ p i c r ev p' r' es, C.sys.updatePending p i c r ev = .ok (p', some (.key r'), es) → rank r' < rank r

variable {C : Cfg R Ev Ctx PKS KS} {rank : R → Nat} {w ctxW keyW : Event Ev → Nat}

/-- The rank of the pending key. -/
def KM.depth (rank : R → Nat) (km : KM R Ev Ctx PKS KS) : Nat :=
  match km.pend with
  | none => 0
  | some p => rank p.ref + 1

/-- The weight of the event queue. -/
def KM.load (w : Event Ev → Nat) (km : KM R Ev Ctx PKS KS) : Nat := queueWeight w km.sched.pending

theorem fire_rank (km : KM R Ev Ctx PKS KS) (ev : Event Ev) : (km.fire ev).depth rank = km.depth rank := by simp [KM.depth]
theorem fire_load (km : KM R Ev Ctx PKS KS) (ev : Event Ev) : (km.fire ev).load w = km.load w := by simp [KM.load]

/-- What holds of every state on the way. -/
structure HaltInv (km : KM R Ev Ctx PKS KS) : Prop where
  pressed : km.pressed.length ≤ maxPressedKeys
  q : QInv NonPhys km

theorem pressed_micro {Q : Event Ev → Prop} {a b : KM R Ev Ctx PKS KS} (h : a.pressed.length ≤ maxPressedKeys)
    (m : Micro C Q a b) : b.pressed.length ≤ maxPressedKeys := by
  cases m with
  | updKey ev pre i r ks post ks' es s hp hu hs => simpa [hp] using h
  | ctxEv ev ctx es s hu hs => exact h
  | take ev s hd => simpa using h
  | takeNone s hd => exact h
  | pendUpd ev p pks npk es s hp hu hs => exact h
  | pendNpk p r pkr es s hp hu hs => exact h
  | pendSwap p pks q q' hp h1 h2 => exact h
  | resolve p ks km' hp hf he =>
    unfold resolveEnter at he
    simp only [Res.bind_eq_ok, Res.pure_eq, Res.ok.injEq] at he
    obtain ⟨ps, h1, ⟨q1, s1⟩, h2, q2, h3, rfl⟩ := he
    obtain ⟨h4, rfl⟩ := pushCap_eq_ok.1 h1
    simp; omega
  | queue p ie q hp hq hc => exact h
  | npk idx r pkr es s hp hq hn hu hs => exact h
  | pushKey idx r ks ps hp hq hn hf hc =>
    obtain ⟨h4, rfl⟩ := pushCap_eq_ok.1 hc
    simp; omega
  | startPend idx r pks hp hq hn => exact h
  | remKey idx hp hq => exact Nat.le_trans (removeKey_sublist _ _).length_le h
  | pushVirt ko ps hp hq hc =>
    obtain ⟨h4, rfl⟩ := pushCap_eq_ok.1 hc
    simp; omega
  | remVirt ko hp hq => exact Nat.le_trans (removeVirt_sublist _ _).length_le h

theorem HaltInv.micro (hC : Cascade C rank w ctxW keyW) {Q : Event Ev → Prop} {a b : KM R Ev Ctx PKS KS}
    (h : HaltInv a) (m : Micro C Q a b) : HaltInv b := ⟨pressed_micro h.pressed m, h.q.micro hC.emits m⟩

theorem HaltInv.steps (hC : Cascade C rank w ctxW keyW) {Q : Event Ev → Prop} {a b : KM R Ev Ctx PKS KS}
    (h : HaltInv a) (m : Steps C Q a b) : HaltInv b := m.inv (fun _ _ h m => h.micro hC m) h

theorem HaltInv.fire {km : KM R Ev Ctx PKS KS} (h : HaltInv km) (ev : Event Ev) : HaltInv (km.fire ev) :=
  ⟨by simpa using h.pressed, h.q.fire ev⟩

/-- Virtual and internal events never make a new key pending. -/
theorem rank_micro (hC : Cascade C rank w ctxW keyW) {a b : KM R Ev Ctx PKS KS} (m : Micro C NonPhys a b) :
    b.depth rank ≤ a.depth rank := by
  cases m with
  | take ev s hd => simp [KM.depth]
  | pendUpd ev p pks npk es s hp hu hs => simp [KM.depth, hp]
  | pendNpk p r pkr es s hp hu hs hb =>
    have : rank r < rank p.ref := by
      rcases hb with ⟨_, _, _, _, _, h⟩ | ⟨_, _, h⟩
      · exact hC.pend _ _ _ _ _ _ _ _ h
      · exact hC.npk _ _ _ _ _ h
    simp [KM.depth, hp]; omega
  | pendSwap p pks q q' hp h1 h2 => simp [KM.depth, hp]
  | resolve p ks km' hp hf he =>
    unfold resolveEnter at he
    simp only [Res.bind_eq_ok, Res.pure_eq, Res.ok.injEq] at he
    obtain ⟨ps, h1, ⟨q1, s1⟩, h2, q2, h3, rfl⟩ := he
    simp [KM.depth]
  | queue p ie q hp hq hc => simp [KM.depth, hp]
  | startPend idx r pks h hq hn => simp [NonPhys, Spec.physical] at hq
  | _ => exact Nat.le_refl _

theorem rank_steps (hC : Cascade C rank w ctxW keyW) {a b : KM R Ev Ctx PKS KS} (m : Steps C NonPhys a b) :
    b.depth rank ≤ a.depth rank :=
  m.rel (I := fun a b => b.depth rank ≤ a.depth rank) (fun _ => Nat.le_refl _) (fun _ _ _ h h' => Nat.le_trans h' h)
    (fun _ _ m => rank_micro hC m)

/-- How much telling everyone about an event may add to the queue. -/
def noise (ctxW keyW : Event Ev → Nat) (ev : Event Ev) : Nat := ctxW ev + maxPressedKeys * keyW ev

theorem notifyPressed_load (hC : Cascade C rank w ctxW keyW) {ctx : Ctx} {ev : Event Ev} {ps ps' : List (PressedInput R KS)}
    {s s' : Sched Ev} (hQ : NonPhys ev) (h : notifyPressed C ctx ev ps s = .ok (ps', s')) :
    queueWeight w s'.pending ≤ queueWeight w s.pending + ps.length * keyW ev := by
  induction ps generalizing s ps' s' with
  | nil =>
    simp only [notifyPressed, Res.ok.injEq, Prod.mk.injEq] at h
    rw [h.2]; simp
  | cons p ps ih =>
    cases p with
    | virt ko =>
      simp only [notifyPressed, Res.bind_eq_ok, Res.pure_eq, Res.ok.injEq, Prod.mk.injEq] at h
      obtain ⟨⟨ps1, s1⟩, h1, _, rfl⟩ := h
      have := ih h1
      simp only [List.length_cons, Nat.add_mul]; omega
    | key i r ks =>
      simp only [notifyPressed, Res.bind_eq_ok, Res.pure_eq, Res.ok.injEq, Prod.mk.injEq] at h
      obtain ⟨⟨ks1, es⟩, h1, s1, h2, ⟨ps1, s2⟩, h3, _, rfl⟩ := h
      have a1 := ih h3
      have a2 : queueWeight w s1.pending = queueWeight w s.pending + immWeight w es := scheduleAll_weight w h2
      have a3 := hC.state _ _ _ _ _ _ _ hQ h1
      simp only [List.length_cons, Nat.add_mul]
      omega

theorem notifyAll_load (hC : Cascade C rank w ctxW keyW) {km km' : KM R Ev Ctx PKS KS} {ev : Event Ev} (hi : HaltInv km)
    (hQ : NonPhys ev) (h : notifyAll C km ev = .ok km') : km'.load w ≤ km.load w + noise ctxW keyW ev := by
  simp only [notifyAll, Res.bind_eq_ok, Res.pure_eq, Res.ok.injEq] at h
  obtain ⟨⟨ps, s⟩, h1, ⟨ctx, es⟩, h2, s2, h3, rfl⟩ := h
  have a1 := notifyPressed_load hC hQ h1
  have a2 := scheduleAll_weight w h3
  have a3 := hC.ctx _ _ _ _ hQ h2
  have a4 := Nat.mul_le_mul_right (keyW ev) hi.pressed
  simp only [KM.load, noise] at *
  omega

theorem notifyPressed_ne_fuel (hC : Cascade C rank w ctxW keyW) {ctx : Ctx} {ev : Event Ev} {ps : List (PressedInput R KS)}
    {s : Sched Ev} : notifyPressed C ctx ev ps s ≠ .fuel := by
  induction ps generalizing s with
  | nil => simp [notifyPressed]
  | cons p ps ih =>
    cases p with
    | virt ko => exact bind_ne_fuel ih (fun _ _ => by simp)
    | key i r ks =>
      exact bind_ne_fuel (hC.state_ends _ _ _ _ _) (fun _ _ =>
        bind_ne_fuel scheduleAll_ne_fuel (fun _ _ => bind_ne_fuel ih (fun _ _ => by simp)))

theorem notifyAll_ne_fuel (hC : Cascade C rank w ctxW keyW) {km : KM R Ev Ctx PKS KS} {ev : Event Ev} : notifyAll C km ev ≠ .fuel :=
  bind_ne_fuel (notifyPressed_ne_fuel hC) (fun _ _ => bind_ne_fuel (hC.ctx_ends _ _) (fun _ _ =>
    bind_ne_fuel scheduleAll_ne_fuel (fun _ _ => by simp)))

theorem requeue_ne_fuel {i : Nat} {es : List (Event Ev)} {q : List InputEvent} {s : Sched Ev} : requeue C i es q s ≠ .fuel := by
  induction es generalizing i q s with
  | nil => simp [requeue]
  | cons e es ih =>
    cases e with
    | input ie => exact bind_ne_fuel pushCap_ne_fuel (fun _ _ => ih)
    | key k e => exact bind_ne_fuel scheduleAfter_ne_fuel (fun _ _ => ih)
    | keymap e => exact bind_ne_fuel scheduleAfter_ne_fuel (fun _ _ => ih)

theorem resolveEnter_ne_fuel {km : KM R Ev Ctx PKS KS} {p : Pending R Ev PKS} {ks : KS} : resolveEnter C km p ks ≠ .fuel :=
  bind_ne_fuel pushCap_ne_fuel (fun _ _ => bind_ne_fuel requeue_ne_fuel (fun _ _ =>
    bind_ne_fuel extendCap_ne_fuel (fun _ _ => by simp)))

theorem resolveEnter_ok_pend {km km' : KM R Ev Ctx PKS KS} {p : Pending R Ev PKS} {ks : KS}
    (h : resolveEnter C km p ks = .ok km') : km'.pend = none := by
  unfold resolveEnter at h
  simp only [Res.bind_eq_ok, Res.pure_eq, Res.ok.injEq] at h
  obtain ⟨ps, h1, ⟨q1, s1⟩, h2, q2, h3, rfl⟩ := h
  rfl

/-! ## Handling an event lightens the queue -/

/-- What handling an event does: the pending key gets closer to the end, or the queue does. -/
def Lightens (C : Cfg R Ev Ctx PKS KS) (rank : R → Nat) (w : Event Ev → Nat) (he : Handler R Ev Ctx PKS KS) : Prop :=
  ∀ km ev km', HaltInv km → NonPhys ev → he km ev = .ok km' → km'.depth rank = km.depth rank → km'.load w < km.load w + w ev

theorem drain_load (hC : Cascade C rank w ctxW keyW) {he : Handler R Ev Ctx PKS KS} (hl : Lightens C rank w he)
    (hh : HandlerSteps C NonPhys he) {n : Nat} {km km' : KM R Ev Ctx PKS KS} (hi : HaltInv km)
    (h : drain he n km = .ok km') (hr : km'.depth rank = km.depth rank) : km'.load w ≤ km.load w := by
  induction n generalizing km with
  | zero => simp [drain] at h
  | succ n ih =>
    unfold drain at h
    split at h
    · rename_i s hd
      simp only [Res.ok.injEq] at h
      subst h
      rcases Sched.dequeue_none hd with ⟨_, rfl⟩ | ⟨h1, _, _⟩
      · exact Nat.le_refl _
      · simp [KM.load, h1, queueWeight]
    · rename_i ev s hd
      simp only [Res.bind_eq_ok] at h
      obtain ⟨km1, h1, h2⟩ := h
      have hpd := Sched.dequeue_some hd
      have hi1 : HaltInv ({ km with sched := s }) := ⟨hi.pressed,
        ⟨fun e he => hi.q.pending e (by rw [hpd.1]; exact List.mem_cons_of_mem _ he),
          fun t ht => hi.q.scheduled t (by rw [← hpd.2.1]; exact ht), hi.q.queued⟩⟩
      have hev : NonPhys ev := hi.q.pending ev (by rw [hpd.1]; exact List.mem_cons_self)
      have s1 := hh _ ev km1 hi1.q hev h1
      have hi2 := (hi1.fire ev).steps hC s1
      have r1 := rank_steps hC s1
      have s2 := drain_steps hC.emits hh hi2.q h2
      have r2 := rank_steps hC s2
      rw [fire_rank] at r1
      have r0 : KM.depth rank { km with sched := s } = km.depth rank := rfl
      have e1 : km1.depth rank = KM.depth rank { km with sched := s } := by omega
      have l1 := hl _ ev km1 hi1 hev h1 e1
      have l2 := ih hi2 h2 (by omega)
      have l0 : km.load w = w ev + KM.load w { km with sched := s } := by simp [KM.load, hpd.1, queueWeight]
      omega

theorem resolve_rank (hC : Cascade C rank w ctxW keyW) {he : Handler R Ev Ctx PKS KS} (hh : HandlerSteps C NonPhys he) {n : Nat}
    {km km' : KM R Ev Ctx PKS KS} {p : Pending R Ev PKS} {ks : KS} (hi : HaltInv km) (hp : km.pend = some p)
    (hf : FromSys C p.idx p.ref ks) (h : resolve C he n km p ks = .ok km') : km'.depth rank = 0 := by
  simp only [resolve, Res.bind_eq_ok] at h
  obtain ⟨km1, h1, km2, h2, o, ho, h3⟩ := h
  have m1 : Micro C NonPhys km km1 := .resolve km p ks km1 hp hf h1
  have i1 := hi.micro hC m1
  have s2 := drain_steps hC.emits hh i1.q h2
  have r1 : km1.depth rank = 0 := by simp [KM.depth, resolveEnter_ok_pend h1]
  have r2 := rank_steps hC s2
  cases o with
  | none => simp only [Res.pure_eq, Res.ok.injEq] at h3; subst h3; omega
  | some ko =>
    have := rank_steps hC (hh _ _ _ (i1.steps hC s2).q (hC.emits.resolved _ _) h3)
    rw [fire_rank] at this
    omega

theorem pendLoop_rank (hC : Cascade C rank w ctxW keyW) {he : Handler R Ev Ctx PKS KS} (hh : HandlerSteps C NonPhys he) {n m : Nat}
    {km km' : KM R Ev Ctx PKS KS} {p : Pending R Ev PKS} {npk : NPK R} (hi : HaltInv km) (hp : km.pend = some p)
    (hb : ∀ r, npk = .key r → Becomes C p.idx p.ref r) (h : pendLoop C he n m km p npk = .ok km') :
    km'.depth rank < km.depth rank := by
  induction m generalizing km p npk with
  | zero => cases npk <;> simp [pendLoop] at h
  | succ m ih =>
    have hr0 : km.depth rank = rank p.ref + 1 := by simp [KM.depth, hp]
    cases npk with
    | noOp =>
      have := resolve_rank hC hh hi hp (Or.inl rfl) h
      omega
    | key r =>
      simp only [pendLoop, Res.bind_eq_ok] at h
      obtain ⟨⟨pkr, es⟩, h1, s, h2, h3⟩ := h
      have m1 : Micro C NonPhys km { km with sched := s, pend := some { p with ref := r } } :=
        .pendNpk km p r pkr es s hp h1 h2 (hb r rfl)
      have hi1 := hi.micro hC m1
      have hlt : rank r < rank p.ref := by
        rcases hb r rfl with ⟨_, _, _, _, _, h⟩ | ⟨_, _, h⟩
        · exact hC.pend _ _ _ _ _ _ _ _ h
        · exact hC.npk _ _ _ _ _ h
      cases pkr with
      | resolved ks =>
        simp only at h3
        have := resolve_rank (rank := rank) (p := { p with ref := r }) hC hh hi1 rfl (Or.inr ⟨_, _, h1⟩) (ks := ks) (n := n) (km' := km')
          (by rw [← h3]; rfl)
        omega
      | newPressedKey npk =>
        cases npk with
        | noOp =>
          simp only at h3
          have := resolve_rank (rank := rank) (p := { p with ref := r }) hC hh hi1 rfl (Or.inl rfl) (n := n) (km' := km')
            (by rw [← h3]; rfl)
          omega
        | key r' =>
          simp only at h3
          have := ih (p := { p with ref := r }) (npk := .key r') hi1 rfl
            (fun _ e => by cases e; exact Or.inr ⟨_, _, h1⟩) (by rw [← h3]; exact pendLoop_pend he n m { km with sched := s } _ _ _)
          simp only [KM.depth] at this hr0 ⊢
          rw [hp]
          simp only
          omega
      | pending pks =>
        simp only [Res.bind_eq_ok, Res.pure_eq, Res.ok.injEq] at h3
        obtain ⟨q, h4, q', h5, rfl⟩ := h3
        simp only [KM.depth, hp]
        omega

/-- Updating the pending key brings it closer to the end, or leaves the queue alone. -/
theorem updatePending_load (hC : Cascade C rank w ctxW keyW) {he : Handler R Ev Ctx PKS KS} (hh : HandlerSteps C NonPhys he)
    {n : Nat} {km km' : KM R Ev Ctx PKS KS} {ev : Event Ev} (hi : HaltInv km)
    (h : updatePending C he n km ev = .ok km') :
    km'.depth rank < km.depth rank ∨ (km'.depth rank = km.depth rank ∧ km'.load w = km.load w ∧ km'.pend.isSome = km.pend.isSome) := by
  unfold updatePending at h
  split at h
  · simp only [Res.pure_eq, Res.ok.injEq] at h; subst h; exact .inr ⟨rfl, rfl, rfl⟩
  · rename_i p hp
    simp only [Res.bind_eq_ok] at h
    obtain ⟨⟨pks, npk, es⟩, h1, s, h2, h3⟩ := h
    have m1 : Micro C NonPhys km { km with sched := s, pend := some { p with pks := pks } } :=
      .pendUpd km ev p pks npk es s hp h1 h2
    cases npk with
    | none =>
      simp only [Res.pure_eq, Res.ok.injEq] at h3
      subst h3
      refine .inr ⟨by simp [KM.depth, hp], ?_, by simp [hp]⟩
      have h4 := scheduleAll_weight w h2
      have h5 := hC.wait _ _ _ _ _ _ _ h1
      simp only [KM.load] at h4 ⊢; omega
    | some npk =>
      left
      have := pendLoop_rank hC hh (hi.micro hC m1) rfl (fun r e => by subst e; exact Or.inl ⟨_, _, _, _, _, h1⟩) h3
      simpa [KM.depth, hp] using this

theorem processInput_load (hC : Cascade C rank w ctxW keyW) {he : Handler R Ev Ctx PKS KS} (hl : Lightens C rank w he)
    (hh : HandlerSteps C NonPhys he) {n : Nat} {km km' : KM R Ev Ctx PKS KS} {ie : InputEvent} (hi : HaltInv km)
    (hQ : NonPhys (.input ie : Event Ev)) (h : processInput C he n km ie = .ok km') (hr : km'.depth rank = km.depth rank) :
    km'.load w ≤ km.load w + noise ctxW keyW (.input ie) := by
  unfold processInput at h
  simp only at h
  split at h
  · rename_i p hp
    simp only [Res.bind_eq_ok] at h
    obtain ⟨q, h3, km1, h4, h2⟩ := h
    have m1 : Micro C NonPhys km { km with pend := some { p with queued := q } } := .queue km p ie q hp hQ h3
    have hi1 := hi.micro hC m1
    have s1 := updatePending_steps hC.emits hh hi1.q h4
    have hi2 := hi1.steps hC s1
    have r2 := rank_steps hC (drain_steps hC.emits hh hi2.q h2)
    have r0 : KM.depth rank { km with pend := some { p with queued := q } } = km.depth rank := by simp [KM.depth, hp]
    rcases updatePending_load hC hh hi1 h4 with h5 | ⟨h5, h6, _⟩
    · omega
    · have := drain_load hC hl hh hi2 h2 (by omega)
      have l0 : KM.load w { km with pend := some { p with queued := q } } = km.load w := rfl
      omega
  · rename_i hp
    simp only [Res.bind_eq_ok] at h
    obtain ⟨km1, h1, h2⟩ := h
    have hi1 := hi.steps hC (processDirect_steps hC.emits hh hi.q hp hQ h1)
    have r1 := rank_steps hC (processDirect_steps hC.emits hh hi.q hp hQ h1)
    have r2 := rank_steps hC (drain_steps hC.emits hh hi1.q h2)
    have l2 := drain_load hC hl hh hi1 h2 (by omega)
    simp only [processDirect, Res.bind_eq_ok] at h1
    obtain ⟨km2, h3, h4⟩ := h1
    have l3 := notifyAll_load hC hi hQ h3
    have : km1.load w = km2.load w := by
      cases ie with
      | press i => simp [NonPhys, Spec.physical] at hQ
      | release i => simp [NonPhys, Spec.physical] at hQ
      | vpress ko =>
        simp only [Res.bind_eq_ok, Res.pure_eq, Res.ok.injEq] at h4
        obtain ⟨ps, h3, rfl⟩ := h4
        rfl
      | vrelease ko =>
        simp only [Res.pure_eq, Res.ok.injEq] at h4; subst h4; rfl
    omega

theorem handleEvent_lightens (hC : Cascade C rank w ctxW keyW) (n : Nat) : Lightens C rank w (handleEvent C n) := by
  induction n with
  | zero => intro km ev km' _ _ h; simp [handleEvent] at h
  | succ n ih =>
    intro km ev km' hi hQ h hr
    have hh := handleEvent_steps (C := C) hC.emits n
    simp only [handleEvent, handleBody, Res.bind_eq_ok] at h
    obtain ⟨km1, h1, km2, h2, h3⟩ := h
    have hi0 := hi.fire ev
    have s1 := updatePending_steps hC.emits hh hi0.q h1
    have hi1 := hi0.steps hC s1
    have s2 : Steps C NonPhys km1 km2 := notifyAll_steps h2
    have hi2 := hi1.steps hC s2
    have r2 := rank_steps hC s2
    have l2 := notifyAll_load hC hi1 hQ h2
    have hw := hC.weight ev hQ
    have hf := fire_rank (rank := rank) km ev
    have hf' := fire_load (w := w) km ev
    have r3 : km'.depth rank ≤ km2.depth rank := by
      cases ev with
      | input ie => exact rank_steps hC (processInput_steps hC.emits hh hi2.q hQ h3)
      | key i e => simp only [Res.pure_eq, Res.ok.injEq] at h3; subst h3; exact Nat.le_refl _
      | keymap e => simp only [Res.pure_eq, Res.ok.injEq] at h3; subst h3; exact Nat.le_refl _
    rcases updatePending_load hC hh hi0 h1 with h5 | ⟨h5, h6, _⟩
    · omega
    · have l3 : km'.load w ≤ km2.load w + noise ctxW keyW ev := by
        cases ev with
        | input ie => exact processInput_load hC ih hh hi2 hQ h3 (by omega)
        | key i e => simp only [Res.pure_eq, Res.ok.injEq] at h3; subst h3; omega
        | keymap e => simp only [Res.pure_eq, Res.ok.injEq] at h3; subst h3; omega
      simp only [noise] at *
      omega

/-! ## Every call ends -/

/-- Handling the event ends, with a result that does not depend on the depth. -/
def Ends (C : Cfg R Ev Ctx PKS KS) (km : KM R Ev Ctx PKS KS) (ev : Event Ev) : Prop :=
  Stable (fun a _ _ => handleEvent C a km ev)

/-- Handling the queued events ends. -/
def DrainEnds (C : Cfg R Ev Ctx PKS KS) (km : KM R Ev Ctx PKS KS) : Prop :=
  Stable (fun a b _ => drain (handleEvent C a) b km)

/-- (pending key, queue) is closer to the end. -/
def Closer (x y : Nat × Nat) : Prop := x.1 < y.1 ∨ (x.1 = y.1 ∧ x.2 < y.2)

theorem closer_wf : WellFounded Closer := by
  refine Subrelation.wf ?_ (Prod.lex (inferInstance : WellFoundedRelation Nat) (inferInstance : WellFoundedRelation Nat)).wf
  intro x y h
  obtain ⟨a, b⟩ := x
  obtain ⟨c, d⟩ := y
  rcases h with h | ⟨h1, h2⟩
  · exact Prod.Lex.left _ _ h
  · simp only at h1 h2
    subst h1
    exact Prod.Lex.right _ h2

section
variable (hC : Cascade C rank w ctxW keyW)
include hC

theorem resolve_ends {km : KM R Ev Ctx PKS KS} {p : Pending R Ev PKS} {ks : KS} (hi : HaltInv km) (hp : km.pend = some p)
    (hf : FromSys C p.idx p.ref ks)
    (hd : ∀ km', HaltInv km' → km'.depth rank = 0 → DrainEnds C km')
    (hh : ∀ km' ev, HaltInv km' → NonPhys ev → km'.depth rank = 0 → Ends C km' ev) :
    Stable (fun a b _ => resolve C (handleEvent C a) b km p ks) := by
  unfold resolve
  refine Stable.bind_const resolveEnter_ne_fuel (fun km1 h1 => ?_)
  have m1 : Micro C NonPhys km km1 := .resolve km p ks km1 hp hf h1
  have i1 := hi.micro hC m1
  have r1 : km1.depth rank = 0 := by simp [KM.depth, resolveEnter_ok_pend h1]
  refine Stable.bind (hd km1 i1 r1) (fun km2 ⟨a, b, _, h2⟩ => ?_)
  have s2 := drain_steps hC.emits (handleEvent_steps hC.emits a) i1.q h2
  have r2 := rank_steps hC s2
  refine Stable.bind_const (hC.output_ends _ _) (fun o _ => ?_)
  cases o with
  | none => exact Stable.const (by simp)
  | some ko => exact hh km2 _ (i1.steps hC s2) (hC.emits.resolved _ _) (by omega)

theorem pendLoop_ends {km : KM R Ev Ctx PKS KS} {p : Pending R Ev PKS} {npk : NPK R} (hi : HaltInv km) (hp : km.pend = some p)
    (hb : ∀ r, npk = .key r → Becomes C p.idx p.ref r)
    (hd : ∀ km', HaltInv km' → km'.depth rank = 0 → DrainEnds C km')
    (hh : ∀ km' ev, HaltInv km' → NonPhys ev → km'.depth rank = 0 → Ends C km' ev) :
    Stable (fun a b m => pendLoop C (handleEvent C a) b m km p npk) := by
  generalize hk : rank p.ref = k
  induction k using Nat.strongRecOn generalizing km p npk with
  | _ k ih =>
    refine Stable.succ3 ?_
    cases npk with
    | noOp => exact resolve_ends hC hi hp (Or.inl rfl) hd hh
    | key r =>
      simp only [pendLoop]
      refine Stable.bind_const (hC.npk_ends _ _ _) (fun x h1 => ?_)
      obtain ⟨pkr, es⟩ := x
      refine Stable.bind_const scheduleAll_ne_fuel (fun s h2 => ?_)
      have m1 : Micro C NonPhys km { km with sched := s, pend := some { p with ref := r } } :=
        .pendNpk km p r pkr es s hp h1 h2 (hb r rfl)
      have hi1 := hi.micro hC m1
      have hlt : rank r < rank p.ref := by
        rcases hb r rfl with ⟨_, _, _, _, _, h⟩ | ⟨_, _, h⟩
        · exact hC.pend _ _ _ _ _ _ _ _ h
        · exact hC.npk _ _ _ _ _ h
      cases pkr with
      | resolved ks =>
        have := resolve_ends hC (p := { p with ref := r }) (ks := ks) hi1 rfl (Or.inr ⟨_, _, h1⟩) hd hh
        exact this
      | newPressedKey npk =>
        cases npk with
        | noOp =>
          have := resolve_ends hC (p := { p with ref := r }) (ks := C.sys.noOp) hi1 rfl (Or.inl rfl) hd hh
          exact this
        | key r' =>
          have := ih (rank r) (by omega) (p := { p with ref := r }) (npk := .key r') hi1 rfl
            (fun _ e => by cases e; exact Or.inr ⟨_, _, h1⟩) rfl
          simpa only [← pendLoop_pend (km := { km with sched := s }) (x := some { p with ref := r })] using this
      | pending pks =>
        refine Stable.bind_const extendCap_ne_fuel (fun _ _ => Stable.bind_const extendCap_ne_fuel (fun _ _ => Stable.const (by simp)))

theorem updatePending_ends {km : KM R Ev Ctx PKS KS} {ev : Event Ev} (hi : HaltInv km)
    (hd : ∀ km', km.pend ≠ none → HaltInv km' → km'.depth rank = 0 → DrainEnds C km')
    (hh : ∀ km' ev, km.pend ≠ none → HaltInv km' → NonPhys ev → km'.depth rank = 0 → Ends C km' ev) :
    Stable (fun a b _ => updatePending C (handleEvent C a) b km ev) := by
  unfold updatePending
  split
  · exact Stable.const (by simp)
  · rename_i p hp
    have hne : km.pend ≠ none := by simp [hp]
    refine Stable.bind_const (hC.pend_ends _ _ _ _ _) (fun x h1 => ?_)
    obtain ⟨pks, npk, es⟩ := x
    refine Stable.bind_const scheduleAll_ne_fuel (fun s h2 => ?_)
    have m1 : Micro C NonPhys km { km with sched := s, pend := some { p with pks := pks } } :=
      .pendUpd km ev p pks npk es s hp h1 h2
    cases npk with
    | none => exact Stable.const (by simp)
    | some npk =>
      exact Stable.diag3 (pendLoop_ends hC (hi.micro hC m1) rfl (fun r e => by subst e; exact Or.inl ⟨_, _, _, _, _, h1⟩)
        (fun km' => hd km' hne) (fun km' ev => hh km' ev hne))

/-- The drain ends if handling each event does. -/
theorem drain_ends {m : Nat × Nat}
    (hh : ∀ km ev, HaltInv km → NonPhys ev → Closer (km.depth rank, km.load w + w ev) m → Ends C km ev)
    {km : KM R Ev Ctx PKS KS} (hi : HaltInv km) (hm : Closer (km.depth rank, km.load w) m) : DrainEnds C km := by
  generalize hx : (km.depth rank, km.load w) = x at hm
  induction x using closer_wf.induction generalizing km with
  | _ x ih =>
    refine Stable.succ2 ?_
    simp only [drain]
    split
    · exact Stable.const (by simp)
    · rename_i ev s hd
      have hpd := Sched.dequeue_some hd
      have hi1 : HaltInv ({ km with sched := s }) := ⟨hi.pressed,
        ⟨fun e he => hi.q.pending e (by rw [hpd.1]; exact List.mem_cons_of_mem _ he),
          fun t ht => hi.q.scheduled t (by rw [← hpd.2.1]; exact ht), hi.q.queued⟩⟩
      have hev : NonPhys ev := hi.q.pending ev (by rw [hpd.1]; exact List.mem_cons_self)
      have l0 : km.load w = KM.load w { km with sched := s } + w ev := by simp [KM.load, hpd.1, queueWeight]; omega
      have r0 : KM.depth rank { km with sched := s } = km.depth rank := rfl
      have e0 : (KM.depth rank { km with sched := s }, KM.load w { km with sched := s } + w ev) = x := by
        rw [← hx, l0, r0]
      refine Stable.bind (hh { km with sched := s } ev hi1 hev (by rw [e0]; exact hm)) (fun km1 ⟨a, _, _, h1⟩ => ?_)
      have s1 := handleEvent_steps hC.emits a _ ev km1 hi1.q hev h1
      have hi2 := (hi1.fire ev).steps hC s1
      have r1 := rank_steps hC s1
      rw [fire_rank] at r1
      have hc : Closer (km1.depth rank, km1.load w) x := by
        rw [← e0]
        by_cases hr : km1.depth rank = KM.depth rank { km with sched := s }
        · exact .inr ⟨hr, handleEvent_lightens hC a _ ev km1 hi1 hev h1 hr⟩
        · exact .inl (by simp only; omega)
      have hcm : Closer (km1.depth rank, km1.load w) m := by
        rcases hc with h | ⟨h, h'⟩ <;> rcases hm with g | ⟨g, g'⟩ <;> simp only [Closer] at * <;> omega
      exact ih _ hc hi2 rfl hcm

theorem depth_zero_pend {km : KM R Ev Ctx PKS KS} (h : km.depth rank = 0) : km.pend = none := by
  unfold KM.depth at h
  split at h
  · assumption
  · omega

/-- Handling a virtual or internal event ends. -/
theorem event_ends {km : KM R Ev Ctx PKS KS} {ev : Event Ev} (hi : HaltInv km) (hQ : NonPhys ev) : Ends C km ev := by
  generalize hx : (km.depth rank, km.load w + w ev) = x
  induction x using closer_wf.induction generalizing km ev with
  | _ x ih =>
    have hD : ∀ km', HaltInv km' → Closer (km'.depth rank, km'.load w) x → DrainEnds C km' :=
      fun km' h => drain_ends hC (fun km ev hi hQ hc => ih _ hc hi hQ rfl) h
    have hw := hC.weight ev hQ
    have low : km.pend ≠ none → ∀ l, Closer (0, l) x := by
      intro hne l
      rw [← hx]
      left
      cases hp : km.pend with
      | none => exact absurd hp hne
      | some p => simp [KM.depth, hp]
    refine Stable.succ1 ?_
    have hi0 := hi.fire ev
    refine Stable.diag (f := fun a b _ => handleBody C (handleEvent C a) b km ev) ?_
    simp only [handleBody]
    refine Stable.bind (updatePending_ends hC hi0 (fun km' hne hi' h0 => hD km' hi' ?_) (fun km' ev' hne hi' hQ' h0 => ih _ ?_ hi' hQ' rfl)) ?_
    · rw [h0]; exact low (by simpa using hne) _
    · rw [h0]; exact low (by simpa using hne) _
    rintro km1 ⟨a, b, _, h1⟩
    have hh := handleEvent_steps (C := C) hC.emits a
    have s1 := updatePending_steps hC.emits hh hi0.q h1
    have hi1 := hi0.steps hC s1
    refine Stable.bind_const (notifyAll_ne_fuel hC) (fun km2 h2 => ?_)
    have s2 : Steps C NonPhys km1 km2 := notifyAll_steps h2
    have hi2 := hi1.steps hC s2
    have r1 := rank_steps hC s1
    have r2 := rank_steps hC s2
    have l2 := notifyAll_load hC hi1 hQ h2
    have hf := fire_rank (rank := rank) km ev
    have hf' := fire_load (w := w) km ev
    have hload := updatePending_load hC hh hi0 h1
    cases ev with
    | key i e => exact Stable.const (by simp)
    | keymap e => exact Stable.const (by simp)
    | input ie =>
      -- the state before the last drain is closer to the end
      have hlast : ∀ km3 : KM R Ev Ctx PKS KS, km3.depth rank ≤ km2.depth rank →
          (km3.depth rank = km2.depth rank → km3.load w ≤ km2.load w + noise ctxW keyW (.input ie)) →
          Closer (km3.depth rank, km3.load w) x := by
        intro km3 hr hl
        rw [← hx]
        simp only [Closer, noise] at *
        omega
      have hle : km2.depth rank ≤ km.depth rank := by omega
      simp only [processInput]
      split
      · rename_i p hp
        have hne : km.pend ≠ none := by
          intro h0
          have : km.depth rank = 0 := by simp [KM.depth, h0]
          have := depth_zero_pend hC (km := km2) (by omega)
          simp [this] at hp
        refine Stable.bind_const pushCap_ne_fuel (fun q h3 => ?_)
        have m1 : Micro C NonPhys km2 { km2 with pend := some { p with queued := q } } := .queue km2 p ie q hp hQ h3
        have hi3 := hi2.micro hC m1
        refine Stable.bind (updatePending_ends hC hi3 (fun km' _ hi' h0 => hD km' hi' (by rw [h0]; exact low hne _))
          (fun km' ev' _ hi' hQ' h0 => ih _ (by rw [h0]; exact low hne _) hi' hQ' rfl)) ?_
        rintro km3 ⟨a', b', _, h4⟩
        have hh' := handleEvent_steps (C := C) hC.emits a'
        have s4 := updatePending_steps hC.emits hh' hi3.q h4
        have r0 : KM.depth rank { km2 with pend := some { p with queued := q } } = km2.depth rank := by simp [KM.depth, hp]
        have l0 : KM.load w { km2 with pend := some { p with queued := q } } = km2.load w := rfl
        refine hD km3 (hi3.steps hC s4) (hlast km3 ?_ ?_)
        · have := rank_steps hC s4; omega
        · intro he
          rcases updatePending_load hC hh' hi3 h4 with h5 | ⟨_, h6, _⟩
          · omega
          · omega
      · rename_i hp
        simp only [processDirect, bind_assoc]
        refine Stable.bind_const (notifyAll_ne_fuel hC) (fun km3 h3 => ?_)
        have s3 : Steps C NonPhys km2 km3 := notifyAll_steps h3
        have hi3 := hi2.steps hC s3
        have l3 := notifyAll_load hC hi2 hQ h3
        have hp3 : km3.pend = none := by rw [notifyAll_pend h3, hp]
        have d3 : km3.depth rank = 0 := by simp [KM.depth, hp3]
        have d2 : km2.depth rank = 0 := by simp [KM.depth, hp]
        cases ie with
        | press i => simp [NonPhys, Spec.physical] at hQ
        | release i => simp [NonPhys, Spec.physical] at hQ
        | vpress ko =>
          simp only [bind_assoc]
          refine Stable.bind_const pushCap_ne_fuel (fun ps h4 => ?_)
          have m4 : Micro C NonPhys km3 { km3 with pressed := ps } := .pushVirt km3 ko ps hp3 hQ h4
          refine hD { km3 with pressed := ps } (hi3.micro hC m4) (hlast _ ?_ (fun _ => l3))
          rw [show KM.depth rank { km3 with pressed := ps } = km3.depth rank from rfl]; omega
        | vrelease ko =>
          have m4 : Micro C NonPhys km3 { km3 with pressed := removeVirt ko km3.pressed } := .remVirt km3 ko hp3 hQ
          refine hD { km3 with pressed := removeVirt ko km3.pressed } (hi3.micro hC m4) (hlast _ ?_ (fun _ => l3))
          rw [show KM.depth rank { km3 with pressed := removeVirt ko km3.pressed } = km3.depth rank from rfl]; omega

/-- Handling the queued events ends. -/
theorem queue_ends {km : KM R Ev Ctx PKS KS} (hi : HaltInv km) : DrainEnds C km :=
  drain_ends hC (m := (km.depth rank, km.load w + 1)) (fun _ _ h hQ _ => event_ends hC h hQ) hi (.inr ⟨rfl, by simp⟩)

theorem pressLoop_ends {km : KM R Ev Ctx PKS KS} {idx : Nat} {r : R} (hi : HaltInv km) (hp : km.pend = none)
    (hn : hasPressed idx km.pressed = false) (hb : PressRef C idx r) :
    Stable (fun a _ m => pressLoop C (handleEvent C a) idx m km r) := by
  generalize hk : rank r = k
  induction k using Nat.strongRecOn generalizing km r with
  | _ k ih =>
    refine Stable.succ3 ?_
    simp only [pressLoop]
    refine Stable.bind_const (hC.npk_ends _ _ _) (fun x h1 => ?_)
    obtain ⟨pkr, es⟩ := x
    refine Stable.bind_const scheduleAll_ne_fuel (fun s h2 => ?_)
    have m1 : Micro C (fun _ => True) km { km with sched := s } := .npk km idx r pkr es s hp trivial hn h1 h2 hb
    have hi1 := hi.micro hC m1
    cases pkr with
    | resolved ks =>
      refine Stable.bind_const pushCap_ne_fuel (fun ps h4 => ?_)
      have m2 : Micro C (fun _ => True) { km with sched := s } { km with sched := s, pressed := ps } :=
        .pushKey { km with sched := s } idx r ks ps hp trivial hn (Or.inr ⟨_, _, h1⟩) h4 hb
      refine Stable.bind_const (hC.output_ends _ _) (fun o _ => ?_)
      cases o with
      | none => exact Stable.const (by simp)
      | some ko => exact event_ends hC (hi1.micro hC m2) (hC.emits.resolved _ _)
    | newPressedKey npk =>
      cases npk with
      | noOp => exact Stable.bind_const pushCap_ne_fuel (fun ps h4 => Stable.const (by simp))
      | key r' => exact ih _ (hk ▸ hC.npk _ _ _ _ _ h1) (km := { km with sched := s }) hi1 hp hn (hb.step h1) rfl
    | pending pks => exact Stable.const (by simp)

/-- Processing any input event ends. -/
theorem processInput_ends {km : KM R Ev Ctx PKS KS} (ie : InputEvent) (hi : HaltInv km) :
    Stable (fun a b _ => processInput C (handleEvent C a) b km ie) := by
  unfold processInput
  simp only
  split
  · rename_i p hp
    refine Stable.bind_const pushCap_ne_fuel (fun q h3 => ?_)
    have m1 : Micro C (fun _ => True) km { km with pend := some { p with queued := q } } := .queue km p ie q hp trivial h3
    have hi3 := hi.micro hC m1
    refine Stable.bind (updatePending_ends hC hi3 (fun _ _ h _ => queue_ends hC h) (fun _ _ _ h hQ _ => event_ends hC h hQ)) ?_
    rintro km3 ⟨a', b', _, h4⟩
    exact queue_ends hC (hi3.steps hC (updatePending_steps hC.emits (handleEvent_steps hC.emits a') hi3.q h4))
  · rename_i hp
    simp only [processDirect, bind_assoc]
    refine Stable.bind_const (notifyAll_ne_fuel hC) (fun km3 h3 => ?_)
    have s3 : Steps C NonPhys km km3 := notifyAll_steps h3
    have hi3 := hi.steps hC s3
    have hp3 : km3.pend = none := by rw [notifyAll_pend h3, hp]
    cases ie with
    | press i =>
      simp only
      split
      · exact queue_ends hC hi3
      · rename_i hn
        simp only [bind_assoc]
        refine Stable.bind_const index_ne_fuel (fun r hr => ?_)
        refine Stable.bind (Stable.diag3 (f := fun a b m => pressLoop C (handleEvent C a) i m km3 r)
          (pressLoop_ends hC hi3 hp3 (by simpa using hn) (.base hr))) ?_
        rintro km4 ⟨a, b, _, h4⟩
        have hT : HandlerSteps C (fun _ => True) (handleEvent C a) := handleEvent_steps (Emits.trivial C) a
        exact queue_ends hC (hi3.steps hC (pressLoop_steps (Emits.trivial C) hT (hi3.q.weaken (fun _ _ => True.intro)) hp3
          trivial (by simpa using hn) (.base hr) h4))
    | release i =>
      have m4 : Micro C (fun _ => True) km3 { km3 with pressed := removeKey i km3.pressed } := .remKey km3 i hp3 trivial
      exact queue_ends hC (hi3.micro hC m4)
    | vpress ko =>
      simp only [bind_assoc]
      refine Stable.bind_const pushCap_ne_fuel (fun ps h4 => ?_)
      have m4 : Micro C (fun _ => True) km3 { km3 with pressed := ps } := .pushVirt km3 ko ps hp3 trivial h4
      exact queue_ends hC (hi3.micro hC m4)
    | vrelease ko =>
      have m4 : Micro C (fun _ => True) km3 { km3 with pressed := removeVirt ko km3.pressed } := .remVirt km3 ko hp3 trivial
      exact queue_ends hC (hi3.micro hC m4)

/-! ## Public calls -/

omit hC in
theorem pressedOutputs_ne_fuel (ho : ∀ r ks, C.sys.keyOutput r ks ≠ .fuel) (ps : List (PressedInput R KS)) :
    pressedOutputs C.sys ps ≠ .fuel := by
  induction ps with
  | nil => simp [pressedOutputs]
  | cons p ps ih =>
    cases p with
    | key i r ks => exact bind_ne_fuel (ho _ _) (fun _ _ => bind_ne_fuel ih (fun _ _ => by simp))
    | virt ko => exact bind_ne_fuel ih (fun _ _ => by simp)

theorem halt_api : ApiInv C HaltInv where
  micro := fun _ _ h _ m => h.micro hC m
  frame := fun a h _ _ _ _ _ => ⟨h.pressed, (qinv_api NonPhys hC.emits).frame a h.q _ _ _ _ _⟩
  enq := fun a h _ hl => ⟨h.pressed, (qinv_api NonPhys hC.emits).enq a h.q _ hl⟩
  deq := fun a h _ _ hl => ⟨h.pressed, (qinv_api NonPhys hC.emits).deq a h.q _ _ hl⟩
  ctx := fun a h _ _ => ⟨h.pressed, (qinv_api NonPhys hC.emits).ctx a h.q _ _⟩
  tick := fun a h _ _ hl => ⟨h.pressed, (qinv_api NonPhys hC.emits).tick a h.q _ _ hl⟩
  init := fun a h => ⟨by simp [KM.init], (qinv_api NonPhys hC.emits).init a h.q⟩

theorem handleInput_ends {km : KM R Ev Ctx PKS KS} (ev : InputEvent) (hi : HaltInv km) :
    Stable (fun a _ _ => handleInput C a km ev) := by
  have hA := halt_api hC
  simp only [handleInput]
  split
  · exact Stable.const (by simp)
  · rename_i hl
    split
    · split
      · exact Stable.const (by simp)
      · rename_i ie q hq
        have h1 := hA.frame km hi 0 km.delay km.rep km.callbacks km.msPerTick
        have h2 := hA.enq _ h1 ev (by simpa using hl)
        have h3 := hA.deq _ h2 ie q hq
        exact Stable.bind (Stable.diag (processInput_ends hC ie h3)) (fun _ _ => Stable.const (by simp))
    · exact Stable.const (by simp)

theorem tick_ends {km : KM R Ev Ctx PKS KS} (hi : HaltInv km) : Stable (fun a _ _ => tick C a km) := by
  have hA := halt_api hC
  simp only [tick]
  have h1 := hA.ctx km hi km.sched.counter km.idle
  refine Stable.bind (f := fun a _ _ => tickInput C a { km with ctx := C.sys.setCtx km.ctx km.sched.counter km.idle }) ?_ ?_
  · simp only [tickInput]
    split
    · rename_i ie q hq
      split
      · have h3 := hA.deq _ h1 ie q hq
        exact Stable.bind (Stable.diag (processInput_ends hC ie h3)) (fun _ _ => Stable.const (by simp))
      · exact Stable.const (by simp)
    · exact Stable.const (by simp)
  · rintro km1 ⟨a, _, _, ht⟩
    have h2 := (hA.tickInput ⟨h1, h1.q.weaken (fun _ _ => True.intro)⟩ ht).1
    have h3 := hA.frame km1 h2 km1.idle (km1.delay - 1) km1.rep km1.callbacks km1.msPerTick
    refine Stable.bind_const schedTick_ne_fuel (fun s hs => ?_)
    have h4 := hA.tick _ h3 _ s hs
    refine Stable.bind (Stable.diag (queue_ends hC h4)) (fun km2 _ => ?_)
    split <;> exact Stable.const (by simp)

theorem ticks_ends (k : Nat) {km : KM R Ev Ctx PKS KS} (hi : HaltInv km) : Stable (fun a _ _ => ticks C a k km) := by
  induction k generalizing km with
  | zero => exact Stable.const (by simp)
  | succ k ih =>
    refine Stable.bind (tick_ends hC hi) ?_
    rintro km1 ⟨a, _, _, h⟩
    exact ih ((halt_api hC).tickCall ⟨hi, hi.q.weaken (fun _ _ => True.intro)⟩ h).1

theorem tickBy_ends (d : Nat) {km : KM R Ev Ctx PKS KS} (hi : HaltInv km) : Stable (fun a _ _ => tickBy C a km d) := by
  simp only [tickBy]
  split
  · exact tick_ends hC hi
  · split
    · exact Stable.const (by simp)
    · exact ticks_ends hC _ hi

theorem step_ends (op : Op) {km : KM R Ev Ctx PKS KS} (hi : HaltInv km) : Stable (fun a _ _ => step C a km op) := by
  have hB : Both HaltInv km := ⟨hi, hi.q.weaken (fun _ _ => True.intro)⟩
  cases op with
  | input ev => exact handleInput_ends hC ev hi
  | tick => exact tick_ends hC hi
  | report =>
    refine Stable.const ?_
    simp only [reportOutput, map_eq_pure_bind]
    exact bind_ne_fuel (bind_ne_fuel (pressedOutputs_ne_fuel hC.output_ends _) (fun _ _ => by simp)) (fun _ _ => by simp)
  | init => exact Stable.const (by simp)
  | setCallback c f =>
    refine Stable.const (x := km.setCallback c f) ?_
    simp only [KM.setCallback]
    split <;> simp
  | setMsPerTick ms => exact Stable.const (by simp)
  | inputAfter d ev =>
    simp only [step, handleInputAfterTime, map_eq_pure_bind, bind_assoc]
    refine Stable.bind (tickBy_ends hC d hi) ?_
    rintro km1 ⟨a, _, _, h1⟩
    have b1 := (halt_api hC).tickBy hB h1
    refine Stable.bind (handleInput_ends hC ev b1.1) (fun km2 _ => ?_)
    refine Stable.bind_const nextEventTime_ne_fuel (fun o _ => ?_)
    split <;> exact Stable.const (by simp)
  | tickToNext =>
    simp only [step, tickToNext, map_eq_pure_bind, bind_assoc]
    refine Stable.bind_const nextEventTime_ne_fuel (fun o _ => ?_)
    cases o with
    | none => exact Stable.const (by simp)
    | some d =>
      simp only [bind_assoc]
      refine Stable.bind (tickBy_ends hC d hi) (fun km1 _ => ?_)
      exact Stable.bind_const nextEventTime_ne_fuel (fun o _ => Stable.const (by simp))

theorem run_ends (ops : List Op) {km : KM R Ev Ctx PKS KS} (hi : HaltInv km) : Stable (fun a _ _ => run C a km ops) := by
  induction ops generalizing km with
  | nil => exact Stable.const (by simp)
  | cons op ops ih =>
    refine Stable.bind (step_ends hC op hi) ?_
    rintro km1 ⟨a, _, _, h⟩
    exact ih ((halt_api hC).step ⟨hi, hi.q.weaken (fun _ _ => True.intro)⟩ h).1

end

end Verif
