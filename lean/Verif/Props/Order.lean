import Verif.Lemmas.Refs
import Verif.Lemmas.PendRef
import Verif.Lemmas.Call
import Verif.Lemmas.Callback
import Verif.Props.Queue
import Verif.Example

/-!
# C18: events that arrive while a key is undecided
-/

namespace Verif

open Spec

section
variable {R Ev Ctx PKS KS : Type} {C : Cfg R Ev Ctx PKS KS}

/-- The presses and releases of physical keys among events. -/
def Spec.physicals (es : List (Event Ev)) : List InputEvent :=
  es.filterMap fun
    | .input (.press i) => some (.press i)
    | .input (.release i) => some (.release i)
    | _ => none

/-- The same for input events. -/
def Spec.physIn (es : List InputEvent) : List InputEvent :=
  es.filter fun
    | .press _ => true
    | .release _ => true
    | _ => false

theorem physIn_append (a b : List InputEvent) : Spec.physIn (a ++ b) = Spec.physIn a ++ Spec.physIn b := by
  simp [Spec.physIn]

theorem physicals_append (a b : List (Event Ev)) : Spec.physicals (a ++ b) = Spec.physicals a ++ Spec.physicals b := by
  simp [Spec.physicals]

theorem physIn_inputs (es : List (Event Ev)) : Spec.physIn (es.filterMap inputOf?) = Spec.physicals es := by
  induction es with
  | nil => rfl
  | cons e es ih =>
    have e1 : ∀ x, Spec.physicals (x :: es) = Spec.physicals [x] ++ Spec.physicals es := fun x => physicals_append [x] es
    have e2 : ∀ x, (x :: es).filterMap inputOf? = [x].filterMap inputOf? ++ es.filterMap inputOf? :=
      fun x => List.filterMap_append (l := [x])
    rw [e1, e2, physIn_append, ih]
    congr 1
    rcases e with (_ | _ | _ | _) | _ | _ <;> rfl

/-- Re-queuing keeps the order when the key's own event, if there is one, came last. -/
theorem requeueList_order {idx : Nat} {q : List (Event Ev)} (h : ∀ e ∈ q, isOwn idx e = false) (e : Event Ev) :
    requeueList idx (q ++ [e]) = q ++ [e] ∧ requeueList idx q = q := by
  have h1 : q.filter (fun e => !isOwn idx e) = q := List.filter_eq_self.2 (fun e he => by simp [h e he])
  have h2 : q.filter (isOwn idx) = [] := List.filter_eq_nil_iff.2 (fun e he => by simp [h e he])
  unfold requeueList
  rw [List.filter_append, List.filter_append, h1, h2]
  cases he : isOwn idx e <;> simp [he]

/-- Without an undecided key, the consequences of events leave the queue alone. -/
theorem inq_nonphys {a b : KM R Ev Ctx PKS KS} (hp : a.pend = none) (m : Steps C NonPhys a b) :
    b.pend = none ∧ b.inq = a.inq := by
  refine m.inv (I := fun km => km.pend = none ∧ km.inq = a.inq) ?_ ⟨hp, rfl⟩
  intro x y hx m
  refine ⟨(nonphys_micro m hx.1).1, ?_⟩
  have hp := hx.1
  cases m with
  | take ev s hd => simpa using hx.2
  | pendUpd ev p pks npk es s h hu hs => simp [hp] at h
  | pendNpk p r pkr es s h hu hs => simp [hp] at h
  | pendSwap p pks q q' h h1 h2 => simp [hp] at h
  | resolve p ks km' h hf he => simp [hp] at h
  | queue p ie q h hq hc => simp [hp] at h
  | _ => exact hx.2

theorem resolve_inq (hE : Emits C NonPhys) {he : Handler R Ev Ctx PKS KS} (hh : HandlerSteps C NonPhys he) {n : Nat}
    {a b : KM R Ev Ctx PKS KS} {p : Pending R Ev PKS} {ks : KS} (hq : QInv NonPhys a) (hp : a.pend = some p)
    (hf : FromSys C p.idx p.ref ks) (h : resolve C he n a p ks = .ok b) :
    b.pend = none ∧ b.inq = (requeueList p.idx p.queued).filterMap inputOf? ++ a.inq := by
  unfold resolve at h
  simp only [Res.bind_eq_ok] at h
  obtain ⟨km1, h1, km2, h2, o, ho, h3⟩ := h
  have q1 := hq.micro hE (.resolve (Q := NonPhys) a p ks km1 hp hf h1)
  obtain ⟨_, _, rfl⟩ := resolveEnter_spec (hq.queued p hp) h1
  have s1 := drain_steps hE hh q1 h2
  have st : Steps C NonPhys { a with pend := none, pressed := a.pressed ++ [.key p.idx p.ref ks],
                                     sched := a.sched.cancel p.idx,
                                     inq := (requeueList p.idx p.queued).filterMap inputOf? ++ a.inq } b := by
    refine s1.trans ?_
    cases o with
    | none => simp only [Res.pure_eq, Res.ok.injEq] at h3; subst h3; exact .refl _
    | some ko => exact hh _ _ _ (q1.steps hE s1) (hE.resolved _ _) h3
  exact inq_nonphys rfl st

end

namespace Comp

variable {K : Keys} {refs : List Ref} {S : Search} {ctx : Ctx}

/-- Neither the key nor any key it may stand for has to wait for a decision. -/
def Decided (K : Keys) (r : Ref) : Prop := ∀ r', Leads K r r' → immediateRef r' = true

theorem Decided.child {r r' : Ref} (h : Decided K r) (hc : Child K r r') : Decided K r' := fun r2 hl => h r2 (.step hc hl)

theorem pendLoop_inq {he : Handler Ref Ev Ctx PKS KS} (hh : HandlerSteps (cfg K refs S) NonPhys he) {n m : Nat}
    {a b : KM Ref Ev Ctx PKS KS} {p : Pending Ref Ev PKS} {npk : NPK Ref} (hq : QInv NonPhys a) (hp : a.pend = some p)
    (hd : ∀ r, npk = .key r → Decided K r ∧ Becomes (cfg K refs S) p.idx p.ref r)
    (h : pendLoop (cfg K refs S) he n m a p npk = .ok b) :
    b.pend = none ∧ b.inq = (requeueList p.idx p.queued).filterMap inputOf? ++ a.inq := by
  have hE := emits_nonPhys K refs S
  induction m generalizing a p npk with
  | zero => simp [pendLoop] at h
  | succ m ih =>
    cases npk with
    | noOp => exact resolve_inq hE hh hq hp (Or.inl rfl) h
    | key r =>
      simp only [pendLoop, Res.bind_eq_ok] at h
      obtain ⟨⟨pkr, es⟩, h1, s, h2, h3⟩ := h
      have hdec := (hd r rfl).1
      have q1 : QInv NonPhys { a with sched := s, pend := some { p with ref := r } } :=
        hq.micro hE (.pendNpk (Q := NonPhys) a p r pkr es s hp h1 h2 (hd r rfl).2)
      cases pkr with
      | resolved ks =>
        refine resolve_inq (a := { a with sched := s, pend := some { p with ref := r } }) (p := { p with ref := r }) (n := n) (b := b) (ks := ks) hE hh q1 rfl (Or.inr ⟨_, _, h1⟩) ?_
        rw [← h3]; rfl
      | newPressedKey npk =>
        cases npk with
        | noOp =>
          refine resolve_inq (a := { a with sched := s, pend := some { p with ref := r } }) (p := { p with ref := r }) (n := n) (b := b) hE hh q1 rfl (Or.inl rfl) ?_
          rw [← h3]; rfl
        | key r' =>
          refine ih (a := { a with sched := s, pend := some { p with ref := r } }) (p := { p with ref := r }) (npk := .key r') q1 rfl ?_ ?_
          · intro r2 e
            cases e
            exact ⟨hdec.child (npk_child (idx := p.idx) (c := a.ctx) (es := es) h1), Or.inr ⟨_, _, h1⟩⟩
          · rw [← h3]
            exact pendLoop_pend he n m { a with sched := s } _ _ _
      | pending pks =>
        exfalso
        have := hdec r (.refl r)
        rcases npk_pending (idx := p.idx) (c := a.ctx) (es := es) h1 with ⟨_, _, rfl, _⟩ | ⟨_, _, rfl, _⟩ | ⟨_, _, rfl, _⟩ <;>
          simp [immediateRef] at this

/-- A tap-hold key waits: an event leaves it waiting, or decides it; then the buffered events go in
front of the queue. -/
theorem updatePending_tapHold {he : Handler Ref Ev Ctx PKS KS} (hh : HandlerSteps (cfg K refs S) NonPhys he) {n i : Nat}
    {a b : KM Ref Ev Ctx PKS KS} {p : Pending Ref Ev PKS} {ev : Event Ev} (hq : QInv NonPhys a) (hp : a.pend = some p)
    (hr : p.ref = .tapHold i) (hd : ∀ r, Child K (.tapHold i) r → Decided K r)
    (h : Verif.updatePending (cfg K refs S) he n a ev = .ok b) :
    (∃ pks, b.pend = some { p with pks := pks } ∧ b.inq = a.inq ∧ ev ≠ .input (.release p.idx)) ∨
    (b.pend = none ∧ b.inq = (requeueList p.idx p.queued).filterMap inputOf? ++ a.inq) := by
  have hE := emits_nonPhys K refs S
  unfold Verif.updatePending at h
  simp only [hp, Res.bind_eq_ok] at h
  obtain ⟨⟨pks, npk, es⟩, h1, s, h2, h3⟩ := h
  have q1 := hq.micro hE (.pendUpd (Q := NonPhys) a ev p pks npk es s hp h1 h2)
  cases npk with
  | none =>
    simp only [Res.pure_eq, Res.ok.injEq] at h3
    subst h3
    refine Or.inl ⟨pks, rfl, rfl, ?_⟩
    rintro rfl
    have h1' : updatePending K p.pks p.idx a.ctx p.ref (.input (.release p.idx)) = .ok (pks, none, es) := h1
    rw [hr] at h1'
    cases hk : p.pks with
    | tapHold q =>
      rw [hk] at h1'
      simp only [updatePending, Event.tryInto, Res.bind_eq_ok, Res.pure_eq, Res.ok.injEq, Prod.mk.injEq] at h1'
      obtain ⟨⟨q', n', es'⟩, h4, _, h5, _⟩ := h1'
      simp only at h5
      subst h5
      unfold TapHold.updatePending at h4
      simp only [TapHold.PKS.handleEvent, TapHold.PKS.holdResolution] at h4
      cases hi : a.ctx.tapHold.config.interruptResponse <;>
        simp [hi, Res.bind_eq_ok] at h4
    | _ => rw [hk] at h1'; simp [updatePending] at h1'
  | some npk =>
    right
    refine pendLoop_inq (a := { a with sched := s, pend := some { p with pks := pks } }) (p := { p with pks := pks }) hh q1 rfl ?_ h3
    intro r e
    subst e
    refine ⟨hd r ?_, Or.inl ⟨_, _, _, _, _, h1⟩⟩
    rw [← hr]
    exact pend_child (p := p.pks) (idx := p.idx) (c := a.ctx) (ev := ev) (es := es) h1

/-- The state of affairs while the tap-hold key `i` at index `idx` waits, with the physical events
`B` buffered in front of the queue `q`; or after it was decided. -/
def Buffered (idx i : Nat) (B : List InputEvent) (q : List InputEvent) (km : KM Ref Ev Ctx PKS KS) : Prop :=
  (∃ p, km.pend = some p ∧ p.idx = idx ∧ p.ref = .tapHold i ∧ (∀ e ∈ p.queued, isOwn idx e = false) ∧
    Spec.physicals p.queued = B ∧ km.inq = q) ∨
  (km.pend = none ∧ Spec.physIn km.inq = B ++ Spec.physIn q)

section
variable {idx i : Nat} {B q : List InputEvent} (hd : ∀ r, Child K (.tapHold i) r → Decided K r)

theorem Buffered.same {a b : KM Ref Ev Ctx PKS KS} (h : Buffered idx i B q a) (hp : b.pend = a.pend) (hi : b.inq = a.inq) :
    Buffered idx i B q b := by
  unfold Buffered
  rw [hp, hi]
  exact h

/-- Handlers that keep it. -/
def KeepsBuffer (K : Keys) (refs : List Ref) (S : Search) (idx i : Nat) (B q : List InputEvent)
    (he : Handler Ref Ev Ctx PKS KS) : Prop :=
  ∀ km ev km', QInv NonPhys km → NonPhys ev → Buffered idx i B q km → he km ev = .ok km' → Buffered idx i B q km'

theorem drain_buffered {he : Handler Ref Ev Ctx PKS KS} (hh : HandlerSteps (cfg K refs S) NonPhys he)
    (hk : KeepsBuffer K refs S idx i B q he) {n : Nat} {a b : KM Ref Ev Ctx PKS KS} (hq : QInv NonPhys a)
    (ha : Buffered idx i B q a) (h : drain he n a = .ok b) : Buffered idx i B q b := by
  have hE := emits_nonPhys K refs S
  induction n generalizing a with
  | zero => simp [drain] at h
  | succ n ih =>
    simp only [drain] at h
    split at h
    · simp only [Res.ok.injEq] at h; subst h; exact ha.same rfl rfl
    · rename_i ev s hd
      simp only [Res.bind_eq_ok] at h
      obtain ⟨km1, h1, h2⟩ := h
      have hq1 : QInv NonPhys { a with sched := s } := by
        refine ⟨?_, ?_, hq.queued⟩
        · intro e he'
          exact hq.pending e (by rw [(Sched.dequeue_some hd).1]; exact List.mem_cons_of_mem _ he')
        · intro t ht
          exact hq.scheduled t (by simpa [(Sched.dequeue_some hd).2.1] using ht)
      have hev : NonPhys ev := hq.pending ev (by rw [(Sched.dequeue_some hd).1]; simp)
      exact ih ((hq1.fire ev).steps hE (hh _ _ _ hq1 hev h1)) (hk _ _ _ hq1 hev (ha.same rfl rfl) h1) h2

include hd in
theorem update_buffered {he : Handler Ref Ev Ctx PKS KS} (hh : HandlerSteps (cfg K refs S) NonPhys he)
    {n : Nat} {a b : KM Ref Ev Ctx PKS KS} {ev : Event Ev} (hq : QInv NonPhys a)
    (ha : Buffered idx i B q a) (h : Verif.updatePending (cfg K refs S) he n a ev = .ok b) : Buffered idx i B q b := by
  rcases ha with ⟨p, hp, hi, hr, hown, hB, hin⟩ | ⟨hp, hin⟩
  · subst hi
    rcases updatePending_tapHold hh hq hp hr hd h with ⟨pks, h1, h2, _⟩ | ⟨h1, h2⟩
    · exact Or.inl ⟨_, h1, rfl, hr, hown, hB, h2.trans hin⟩
    · refine Or.inr ⟨h1, ?_⟩
      rw [h2, physIn_append, (requeueList_order hown (.input (.press 0))).2, physIn_inputs, hB, hin]
  · unfold Verif.updatePending at h
    simp only [hp, Res.pure_eq, Res.ok.injEq] at h
    subst h
    exact Or.inr ⟨hp, hin⟩

theorem notifyAll_buffered {a b : KM Ref Ev Ctx PKS KS} {ev : Event Ev}
    (ha : Buffered idx i B q a) (h : notifyAll (cfg K refs S) a ev = .ok b) : Buffered idx i B q b := by
  unfold notifyAll at h
  simp only [Res.bind_eq_ok, Res.pure_eq, Res.ok.injEq] at h
  obtain ⟨⟨ps, s⟩, h1, ⟨ctx, es⟩, h2, s', h3, rfl⟩ := h
  exact ha.same rfl rfl

/-- A waiting tap-hold key and an event that is not a press of the key itself. -/
theorem processInput_waiting {he : Handler Ref Ev Ctx PKS KS} (hh : HandlerSteps (cfg K refs S) NonPhys he)
    (hd : ∀ r, Child K (.tapHold i) r → Decided K r)
    (hk : ∀ B, KeepsBuffer K refs S idx i B q he) {n : Nat} {a b : KM Ref Ev Ctx PKS KS} {ie : InputEvent}
    {p : Pending Ref Ev PKS} (hq : QInv NonPhys a) (hp : a.pend = some p) (hi : p.idx = idx) (hr : p.ref = .tapHold i)
    (hown : ∀ e ∈ p.queued, isOwn idx e = false) (hin : a.inq = q) (hie : ie ≠ .press idx)
    (h : processInput (cfg K refs S) he n a ie = .ok b) :
    Buffered idx i (Spec.physicals p.queued ++ Spec.physIn [ie]) q b := by
  have hE := emits_nonPhys K refs S
  subst hi
  unfold processInput at h
  simp only [hp, Res.bind_eq_ok] at h
  obtain ⟨q', h3, km1, h4, h2⟩ := h
  obtain ⟨hc, hq'⟩ := pushCap_eq_ok.1 h3
  have q1 : QInv NonPhys { a with pend := some { p with queued := q' } } :=
    hq.micro (Q' := fun _ => True) hE (.queue a p ie q' hp trivial h3)
  have q2 := q1.steps hE (updatePending_steps hE hh q1 h4)
  refine drain_buffered hh (hk _) q2 ?_ h2
  have e1 : Spec.physicals q' = Spec.physicals p.queued ++ Spec.physIn [ie] := by
    rw [hq', physicals_append]
    cases ie <;> rfl
  rcases updatePending_tapHold (p := { p with queued := q' }) hh q1 rfl hr hd h4 with ⟨pks, h5, h6, h7⟩ | ⟨h5, h6⟩
  · refine Or.inl ⟨_, h5, rfl, hr, ?_, e1, h6.trans hin⟩
    intro e he'
    simp only [hq', List.mem_append, List.mem_singleton] at he'
    rcases he' with he' | rfl
    · exact hown e he'
    · cases ie with
      | press j => simp only [isOwn, decide_eq_false_iff_not]; intro e; subst e; exact hie rfl
      | release j => simp only [isOwn, decide_eq_false_iff_not]; intro e; subst e; exact h7 rfl
      | vpress ko => rfl
      | vrelease ko => rfl
  · refine Or.inr ⟨h5, ?_⟩
    rw [h6, physIn_append, hq', (requeueList_order hown _).1, physIn_inputs, ← hq', e1]
    exact congrArg (fun x => _ ++ Spec.physIn x) hin

end

theorem handleEvent_buffered {idx i : Nat} (hd : ∀ r, Child K (.tapHold i) r → Decided K r) (n : Nat) :
    ∀ B q, KeepsBuffer K refs S idx i B q (handleEvent (cfg K refs S) n) := by
  have hE := emits_nonPhys K refs S
  induction n with
  | zero => intro B q km ev km' _ _ _ h; simp [handleEvent] at h
  | succ n ih =>
    intro B q km ev km' hq hev ha h
    have hh := handleEvent_steps hE n
    simp only [handleEvent, handleBody, Res.bind_eq_ok] at h
    obtain ⟨km1, h1, km2, h2, h3⟩ := h
    have hqf := hq.fire ev
    have a1 := update_buffered hd hh hqf (ha.same (by simp) (by simp)) h1
    have q1 := hqf.steps hE (updatePending_steps hE hh hqf h1)
    have a2 := notifyAll_buffered a1 h2
    have q2 := q1.steps hE (notifyAll_steps (Q := NonPhys) h2)
    cases ev with
    | key i e => simp only [Res.pure_eq, Res.ok.injEq] at h3; subst h3; exact a2
    | keymap e => simp only [Res.pure_eq, Res.ok.injEq] at h3; subst h3; exact a2
    | input ie =>
      rcases a2 with ⟨p, hp, hi, hr, hown, hB, hin⟩ | ⟨hp, hin⟩
      · have := processInput_waiting hh hd (fun B => ih B q) q2 hp hi hr hown hin
          (by rintro rfl; simp [NonPhys, Spec.physical] at hev) h3
        rw [hB] at this
        have e : Spec.physIn [ie] = [] := by
          cases ie <;> simp [NonPhys, Spec.physical] at hev <;> rfl
        rw [e, List.append_nil] at this
        exact this
      · have := inq_nonphys hp (processInput_steps hE hh q2 hev h3)
        exact Or.inr ⟨this.1, by rw [this.2]; exact hin⟩

/-- The only keys that wait for a decision are tap-hold keys, and what they stand for does not wait. -/
def TapHoldOnly (K : Keys) (refs : List Ref) : Prop :=
  ∀ r ∈ refs, ∀ r', Leads K r r' →
    immediateRef r' = true ∨ ∃ i, r' = .tapHold i ∧ ∀ c, Child K (.tapHold i) c → Decided K c

/-- No key waits, and an event is processed. -/
theorem processInputN_free (hT : TapHoldOnly K refs) {n : Nat} {a b : KM Ref Ev Ctx PKS KS} {ie : InputEvent}
    (hq : QInv NonPhys a) (hp : a.pend = none) (h : processInputN (cfg K refs S) n a ie = .ok b) :
    (b.pend = none ∧ b.inq = a.inq) ∨
    ∃ idx i, ie = .press idx ∧ (∀ c, Child K (.tapHold i) c → Decided K c) ∧ Buffered idx i [] a.inq b := by
  have hE := emits_nonPhys K refs S
  have hh := handleEvent_steps hE n
  by_cases hphys : NonPhys (.input ie : Event Ev)
  · exact Or.inl (inq_nonphys hp (processInputN_steps hE hq hphys h))
  obtain ⟨c, h1, h2⟩ := processInputN_direct hp h
  have qc : QInv NonPhys c := hq.steps (Q' := fun _ => True) hE
    (processDirect_steps (Emits.trivial _) (handleEvent_steps (Emits.trivial _) n) ⟨fun _ _ => trivial, fun _ _ => trivial, hq.queued⟩ hp trivial h1)
  have fin : ∀ {x : KM Ref Ev Ctx PKS KS}, QInv NonPhys x → x.pend = none → x.inq = a.inq → drainN (cfg K refs S) n x = .ok b →
      b.pend = none ∧ b.inq = a.inq := by
    intro x hx hxp hxi hxd
    have := inq_nonphys hxp (drain_steps hE hh hx hxd)
    exact ⟨this.1, this.2.trans hxi⟩
  simp only [processDirect, Res.bind_eq_ok] at h1
  obtain ⟨d, h3, h4⟩ := h1
  have qd := hq.steps hE (notifyAll_steps (Q := NonPhys) h3)
  have dp : d.pend = none := (notifyAll_pend h3).trans hp
  have di : d.inq = a.inq := by
    unfold notifyAll at h3
    simp only [Res.bind_eq_ok, Res.pure_eq, Res.ok.injEq] at h3
    obtain ⟨⟨ps, s⟩, _, ⟨ctx, es⟩, _, s', _, rfl⟩ := h3
    rfl
  cases ie with
  | vpress ko => simp [NonPhys, Spec.physical] at hphys
  | vrelease ko => simp [NonPhys, Spec.physical] at hphys
  | release idx =>
    simp only [Res.pure_eq, Res.ok.injEq] at h4
    subst h4
    refine Or.inl (fin qc ?_ ?_ h2)
    · exact dp
    · exact di
  | press idx =>
    simp only at h4
    split at h4
    · simp only [Res.pure_eq, Res.ok.injEq] at h4
      subst h4
      exact Or.inl (fin qc dp di h2)
    · simp only [Res.bind_eq_ok] at h4
      obtain ⟨r, hr, h5⟩ := h4
      have hG := hT r (List.mem_of_getElem? (Res.index_eq_ok.1 hr))
      have key : ∀ m (d : KM Ref Ev Ctx PKS KS) r, QInv NonPhys d → d.pend = none →
          (∀ r', Leads K r r' → immediateRef r' = true ∨ ∃ i, r' = .tapHold i ∧ ∀ c, Child K (.tapHold i) c → Decided K c) →
          pressLoop (cfg K refs S) (handleEvent (cfg K refs S) n) idx m d r = .ok c →
          (c.pend = none ∧ c.inq = d.inq) ∨
          ∃ i, (∀ c, Child K (.tapHold i) c → Decided K c) ∧ Buffered idx i [] d.inq c := by
        intro m
        induction m with
        | zero => intro d r _ _ _ h; simp [pressLoop] at h
        | succ m ih =>
          intro d r qd dp hG h
          simp only [pressLoop, Res.bind_eq_ok] at h
          obtain ⟨⟨pkr, es⟩, h1, s, h2, h3⟩ := h
          have hs := qd.sched_all (hE.npk _ _ _ _ _ h1) h2
          have q1 : QInv NonPhys { d with sched := s } := ⟨hs.1, hs.2, qd.queued⟩
          cases pkr with
          | resolved ks =>
            simp only [Res.bind_eq_ok] at h3
            obtain ⟨ps, h4, o, ho, h5⟩ := h3
            cases o with
            | none => simp only [Res.pure_eq, Res.ok.injEq] at h5; subst h5; exact Or.inl ⟨dp, rfl⟩
            | some ko =>
              have := inq_nonphys ?_ (hh _ _ _ ?_ (hE.resolved _ _) h5)
              · exact Or.inl ⟨this.1, this.2.trans (by simp)⟩
              · simpa using dp
              · exact ⟨q1.pending, q1.scheduled, q1.queued⟩
          | newPressedKey npk =>
            cases npk with
            | noOp =>
              simp only [Res.bind_eq_ok, Res.pure_eq, Res.ok.injEq] at h3
              obtain ⟨ps, h4, rfl⟩ := h3
              exact Or.inl ⟨dp, rfl⟩
            | key r' =>
              exact ih { d with sched := s } r' q1 dp
                (fun r2 hl => hG r2 (.step (npk_child (idx := idx) (c := d.ctx) (es := es) h1) hl)) h3
          | pending pks =>
            simp only [Res.pure_eq, Res.ok.injEq] at h3
            subst h3
            right
            rcases hG r (.refl r) with hG | ⟨i, rfl, hG1⟩
            · rcases npk_pending (idx := idx) (c := d.ctx) (es := es) h1 with ⟨_, _, rfl, _⟩ | ⟨_, _, rfl, _⟩ | ⟨_, _, rfl, _⟩ <;>
                simp [immediateRef] at hG
            · exact ⟨i, hG1, Or.inl ⟨_, rfl, rfl, rfl, by simp, rfl, rfl⟩⟩
      rcases key n d r qd dp hG h5 with ⟨h6, h7⟩ | ⟨i, h6, h7⟩
      · exact Or.inl (fin qc h6 (h7.trans di) h2)
      · refine Or.inr ⟨idx, i, rfl, h6, ?_⟩
        rw [di] at h7
        exact drain_buffered hh (handleEvent_buffered h6 n _ _) qc h7 h2

/-! ## Runs -/

/-- The physical events that wait: those buffered for the undecided key, then those in the queue. -/
def waiting (km : KM Ref Ev Ctx PKS KS) : List InputEvent :=
  (match km.pend with | some p => Spec.physicals p.queued | none => []) ++ Spec.physIn km.inq

/-- The physical events a call acts upon: those it takes from the queue while no key is undecided.
(Events taken from the queue while a key is undecided are buffered, and come back to the queue.) -/
def actedOn (a b : KM Ref Ev Ctx PKS KS) : List InputEvent :=
  match a.pend with
  | none => Spec.physIn (b.log.drop a.log.length)
  | some _ => []

/-- Is key `idx` down after these events? -/
def Spec.down (idx : Nat) (es : List InputEvent) : Bool :=
  es.foldl (fun d e => match e with
    | .press j => if j = idx then true else d
    | .release j => if j = idx then false else d
    | _ => d) false

/-- No key is pressed again while it is down. -/
def Spec.NoRepeat (es : List InputEvent) : Prop := ∀ pre idx post, es = pre ++ .press idx :: post → Spec.down idx pre = false

/-- What holds between calls, `done` being the events acted upon so far. -/
structure Ordered (K : Keys) (done : List InputEvent) (km : KM Ref Ev Ctx PKS KS) : Prop where
  q : QInv NonPhys km
  pend : ∀ p, km.pend = some p → ∃ i, p.ref = .tapHold i ∧ (∀ c, Child K (.tapHold i) c → Decided K c) ∧
    (∀ e ∈ p.queued, isOwn p.idx e = false) ∧ Spec.down p.idx done = true

theorem Buffered.waiting {idx i : Nat} {B q : List InputEvent} {a : KM Ref Ev Ctx PKS KS} (h : Buffered idx i B q a) :
    waiting a = B ++ Spec.physIn q := by
  unfold Comp.waiting
  rcases h with ⟨p, hp, _, _, _, hB, hin⟩ | ⟨hp, hin⟩
  · rw [hp, hin]; simp only; rw [hB]
  · rw [hp, hin]; rfl

theorem Buffered.ordered {idx i : Nat} {B q done : List InputEvent} {a : KM Ref Ev Ctx PKS KS} (h : Buffered idx i B q a)
    (hq : QInv NonPhys a) (hd : ∀ c, Child K (.tapHold i) c → Decided K c) (hdown : Spec.down idx done = true) :
    Ordered K done a := by
  refine ⟨hq, fun p' hp' => ?_⟩
  rcases h with ⟨p, hp, hi, hr, hown, _, _⟩ | ⟨hp, _⟩
  · rw [hp, Option.some.injEq] at hp'
    subst hp' hi
    exact ⟨i, hr, hd, hown, hdown⟩
  · rw [hp] at hp'; cases hp'

theorem down_append (idx : Nat) (es q : List InputEvent) (h : ∀ e ∈ q, e ≠ .press idx ∧ e ≠ .release idx) :
    Spec.down idx (es ++ q) = Spec.down idx es := by
  unfold Spec.down
  rw [List.foldl_append]
  generalize List.foldl _ false es = d
  induction q generalizing d with
  | nil => rfl
  | cons e q ih =>
    rw [List.foldl_cons, ih (fun e he => h e (List.mem_cons_of_mem _ he))]
    have := h e List.mem_cons_self
    cases e with
    | press j => simp only; rw [if_neg]; rintro rfl; exact this.1 rfl
    | release j => simp only; rw [if_neg]; rintro rfl; exact this.2 rfl
    | _ => rfl

theorem down_press (idx : Nat) (es : List InputEvent) : Spec.down idx (es ++ [.press idx]) = true := by
  simp [Spec.down, List.foldl_append]

theorem physicals_own {idx : Nat} {q : List (Event Ev)} (h : ∀ e ∈ q, isOwn idx e = false) :
    ∀ e ∈ Spec.physicals q, e ≠ .press idx ∧ e ≠ .release idx := by
  intro e he
  simp only [Spec.physicals, List.mem_filterMap] at he
  obtain ⟨x, hx, hxe⟩ := he
  have := h x hx
  rcases x with (j | j | _ | _) | _ | _ <;> simp only [Option.some.injEq, reduceCtorEq] at hxe <;> subst hxe <;>
    simp only [isOwn, decide_eq_false_iff_not] at this
  · refine ⟨fun e => this ?_, by simp⟩
    cases e; rfl
  · refine ⟨by simp, fun e => this ?_⟩
    cases e; rfl

/-- Processing an event taken from the queue. -/
theorem ordered_process (hT : TapHoldOnly K refs) {n : Nat} {a b : KM Ref Ev Ctx PKS KS} {ie : InputEvent}
    {done rest : List InputEvent} (ho : Ordered K done a)
    (hn : Spec.NoRepeat (done ++ (match a.pend with | some p => Spec.physicals p.queued | none => []) ++ Spec.physIn [ie] ++ rest))
    (h : processInputN (cfg K refs S) n a ie = .ok b) :
    (a.pend = none → Ordered K (done ++ Spec.physIn [ie]) b ∧ waiting b = Spec.physIn a.inq) ∧
    (∀ p, a.pend = some p → Ordered K done b ∧
      waiting b = Spec.physicals p.queued ++ Spec.physIn [ie] ++ Spec.physIn a.inq) := by
  have hE := emits_nonPhys K refs S
  have qb : QInv NonPhys b := ho.q.steps (Q' := fun _ => True) hE
    (processInputN_steps (Emits.trivial _) ⟨fun _ _ => trivial, fun _ _ => trivial, ho.q.queued⟩ trivial h)
  refine ⟨fun hp => ?_, fun p hp => ?_⟩
  · rcases processInputN_free hT ho.q hp h with ⟨h1, h2⟩ | ⟨idx, i, rfl, h1, h2⟩
    · refine ⟨⟨qb, fun p hp => ?_⟩, ?_⟩
      · rw [h1] at hp; cases hp
      · unfold waiting; rw [h1, h2]; rfl
    · refine ⟨h2.ordered qb h1 (down_press idx done), ?_⟩
      rw [h2.waiting]; rfl
  · obtain ⟨i, hr, hd, hown, hdown⟩ := ho.pend p hp
    have hie : ie ≠ .press p.idx := by
      rintro rfl
      rw [hp] at hn
      have := hn (done ++ Spec.physicals p.queued) p.idx rest (by simp [Spec.physIn])
      rw [down_append _ _ _ (physicals_own hown), hdown] at this
      cases this
    have := processInput_waiting (handleEvent_steps hE n) hd (fun B => handleEvent_buffered hd n B a.inq) ho.q hp rfl hr hown
      rfl hie h
    exact ⟨this.ordered qb hd hdown, this.waiting⟩

/-- Draining the immediate events. -/
theorem ordered_drain {n : Nat} {a b : KM Ref Ev Ctx PKS KS} {done : List InputEvent} (ho : Ordered K done a)
    (h : drainN (cfg K refs S) n a = .ok b) : Ordered K done b ∧ waiting b = waiting a := by
  have hE := emits_nonPhys K refs S
  have st := drain_steps hE (handleEvent_steps hE n) ho.q h
  have qb : QInv NonPhys b := ho.q.steps hE st
  cases hp : a.pend with
  | none =>
    have := inq_nonphys hp st
    refine ⟨⟨qb, fun p hp => ?_⟩, ?_⟩
    · rw [this.1] at hp; cases hp
    · unfold waiting; rw [this.1, this.2, hp]
  | some p =>
    obtain ⟨i, hr, hd, hown, hdown⟩ := ho.pend p hp
    have hB : Buffered p.idx i (Spec.physicals p.queued) a.inq a := Or.inl ⟨p, hp, rfl, hr, hown, rfl, rfl⟩
    have := drain_buffered (handleEvent_steps hE n) (handleEvent_buffered hd n _ _) ho.q hB h
    refine ⟨this.ordered qb hd hdown, ?_⟩
    rw [this.waiting]
    unfold waiting; rw [hp]

theorem Ordered.same {done : List InputEvent} {a b : KM Ref Ev Ctx PKS KS} (h : Ordered K done a) (hs : b.sched = a.sched)
    (hp : b.pend = a.pend) : Ordered K done b := by
  refine ⟨⟨?_, ?_, ?_⟩, ?_⟩
  · rw [hs]; exact h.q.pending
  · rw [hs]; exact h.q.scheduled
  · rw [hp]; exact h.q.queued
  · rw [hp]; exact h.pend

/-- Calls that pass at most one event on or let one tick go by. -/
def Single : Op → Prop
  | .input _ | .tick | .report | .setCallback _ _ | .setMsPerTick _ => True
  | _ => False

theorem actedOn_log {a b : KM Ref Ev Ctx PKS KS} (h : b.log = a.log) : actedOn a b = [] := by
  unfold actedOn
  split
  · rw [h]; simp [Spec.physIn]
  · rfl

/-- A call that acts upon nothing and appends `x` to the queue. -/
theorem ordered_idle {done x : List InputEvent} {a b : KM Ref Ev Ctx PKS KS} (h : Ordered K done a) (hs : b.sched = a.sched)
    (hp : b.pend = a.pend) (hl : b.log = a.log) (hi : b.inq = a.inq ++ x) :
    Ordered K (done ++ actedOn a b) b ∧ actedOn a b ++ waiting b = waiting a ++ Spec.physIn x := by
  rw [actedOn_log hl, List.append_nil, List.nil_append]
  refine ⟨h.same hs hp, ?_⟩
  unfold waiting
  rw [hp, hi, physIn_append, List.append_assoc]

theorem physIn_cons (e : InputEvent) (es : List InputEvent) : Spec.physIn (e :: es) = Spec.physIn [e] ++ Spec.physIn es :=
  physIn_append [e] es

/-- One event taken from the queue `ie :: q`. -/
theorem ordered_take (hT : TapHoldOnly K refs) {n : Nat} {a b : KM Ref Ev Ctx PKS KS} {ie : InputEvent} {q : List InputEvent}
    {done rest : List InputEvent} {x : Nat} {c : Ctx} (ho : Ordered K done a)
    (hn : Spec.NoRepeat (done ++ waiting { a with inq := ie :: q } ++ rest))
    (h : processInputN (cfg K refs S) n { a with ctx := c, idle := x, inq := q, log := a.log ++ [ie] } ie = .ok b) :
    Ordered K (done ++ actedOn a b) b ∧ actedOn a b ++ waiting b = waiting { a with inq := ie :: q } := by
  have fr := Steps.sameFrame (processInputN_steps (km := { a with ctx := c, idle := x, inq := q, log := a.log ++ [ie] })
    (Emits.trivial _) (Q := fun _ => True) ⟨fun _ _ => trivial, fun _ _ => trivial, ho.q.queued⟩ trivial h)
  have hl : b.log = a.log ++ [ie] := fr.log
  have key := ordered_process (rest := Spec.physIn q ++ rest) hT
    (ho.same (b := { a with ctx := c, idle := x, inq := q, log := a.log ++ [ie] }) rfl rfl) (by
      unfold waiting at hn
      rw [physIn_cons] at hn
      simpa [List.append_assoc] using hn) h
  unfold actedOn waiting
  rw [hl, List.drop_left]
  rw [physIn_cons ie q]
  cases hp : a.pend with
  | none =>
    have := key.1 hp
    refine ⟨this.1, ?_⟩
    have h2 := this.2
    unfold waiting at h2
    simp only at h2 ⊢
    rw [h2]
    simp
  | some p =>
    have := key.2 p hp
    refine ⟨by simpa using this.1, ?_⟩
    have h2 := this.2
    unfold waiting at h2
    simp only at h2 ⊢
    rw [List.nil_append, h2, List.append_assoc]

/-- One call. -/
theorem ordered_step (hT : TapHoldOnly K refs) {n : Nat} {a b : KM Ref Ev Ctx PKS KS} {op : Op}
    {done rest : List InputEvent} (ho : Ordered K done a) (hs : Single op)
    (hroom : ∀ ev, op = .input ev → a.inq.length < 31)
    (hn : Spec.NoRepeat (done ++ waiting a ++ Spec.physIn (Spec.inputs [op]) ++ rest))
    (h : step (cfg K refs S) n a op = .ok b) :
    Ordered K (done ++ actedOn a b) b ∧ actedOn a b ++ waiting b = waiting a ++ Spec.physIn (Spec.inputs [op]) := by
  have w : ∀ ev, waiting { a with inq := a.inq ++ [ev] } = waiting a ++ Spec.physIn [ev] := by
    intro ev; unfold waiting; simp only; rw [physIn_append, List.append_assoc]
  cases op with
  | input ev =>
    have hl := hroom ev rfl
    simp only [step] at h
    unfold handleInput at h
    simp only [inputCap] at h
    rw [if_neg (by omega)] at h
    change Ordered K _ b ∧ _ = waiting a ++ Spec.physIn [ev]
    by_cases hd : a.delay = 0
    · rw [if_pos hd] at h
      split at h
      · rename_i he; simp at he
      · rename_i ie q hq
        simp only [Res.bind_eq_ok, Res.pure_eq, Res.ok.injEq] at h
        obtain ⟨km1, h2, rfl⟩ := h
        have := ordered_take (ie := ie) (q := q) (rest := rest) (c := a.ctx) (x := 0) hT ho (by
          rw [← hq, w]; simpa [List.append_assoc, Spec.inputs] using hn) h2
        rw [← hq, w] at this
        exact ⟨this.1.same rfl rfl, this.2⟩
    · rw [if_neg hd] at h
      simp only [Res.ok.injEq] at h
      subst h
      exact ordered_idle ho rfl rfl rfl rfl
  | tick =>
    obtain ⟨km1, s, km2, h1, h2, h3, _, rfl⟩ := tick_eq_ok h
    change Ordered K _ _ ∧ _ = waiting a ++ []
    rw [List.append_nil]
    have hn' : Spec.NoRepeat (done ++ waiting a ++ rest) := by simpa [Spec.inputs, Spec.physIn] using hn
    have k1 : Ordered K (done ++ actedOn a km1) km1 ∧ actedOn a km1 ++ waiting km1 = waiting a := by
      unfold tickInput at h1
      split at h1
      · rename_i ie q hq
        simp only at hq
        split at h1
        · simp only [Res.bind_eq_ok, Res.pure_eq, Res.ok.injEq] at h1
          obtain ⟨km3, h4, rfl⟩ := h1
          have e : waiting { a with inq := ie :: q } = waiting a := by unfold waiting; rw [hq]
          have := ordered_take (ie := ie) (q := q) (rest := rest) hT ho (by rw [e]; exact hn') h4
          rw [e] at this
          exact ⟨this.1.same rfl rfl, this.2⟩
        · simp only [Res.ok.injEq] at h1
          subst h1
          have := ordered_idle (x := []) (b := { a with ctx := (cfg K refs S).sys.setCtx a.ctx a.sched.counter a.idle })
            ho rfl rfl rfl (by simp)
          rw [show Spec.physIn [] = [] from rfl, List.append_nil] at this
          exact this
      · simp only [Res.ok.injEq] at h1
        subst h1
        have := ordered_idle (x := []) (b := { a with ctx := (cfg K refs S).sys.setCtx a.ctx a.sched.counter a.idle })
          ho rfl rfl rfl (by simp)
        rw [show Spec.physIn [] = [] from rfl, List.append_nil] at this
        exact this
    have o2 : Ordered K (done ++ actedOn a km1) { km1 with delay := km1.delay - 1, sched := s } :=
      ⟨(qinv_api NonPhys (emits_nonPhys K refs S)).tick { km1 with delay := km1.delay - 1 }
        (k1.1.same (b := { km1 with delay := km1.delay - 1 }) rfl rfl).q _ _ h2, k1.1.pend⟩
    have k2 := ordered_drain o2 h3
    have e : actedOn a { km2 with idle := km2.idle + km2.msPerTick } = actedOn a km1 := by
      have fr := Steps.sameFrame (drain_steps (emits_nonPhys K refs S) (handleEvent_steps (emits_nonPhys K refs S) n) o2.q h3)
      unfold actedOn
      have : km2.log = km1.log := fr.log
      simp only [this]
    rw [e]
    refine ⟨k2.1.same rfl rfl, ?_⟩
    rw [← k1.2]
    congr 1
    exact k2.2
  | report =>
    simp only [step, reportOutput, Res.map_eq_ok, Res.bind_eq_ok, Res.pure_eq, Res.ok.injEq] at h
    obtain ⟨x, ⟨os, _, rfl⟩, rfl⟩ := h
    exact ordered_idle (x := []) ho rfl rfl rfl (by simp)
  | setCallback c f =>
    simp only [step, KM.setCallback] at h
    split at h
    · simp only [Res.ok.injEq] at h
      subst h
      exact ordered_idle (x := []) ho rfl rfl rfl (by simp)
    · simp at h
  | setMsPerTick ms =>
    simp only [step, Res.ok.injEq] at h
    subst h
    exact ordered_idle (x := []) ho rfl rfl rfl (by simp [KM.setMsPerTick])
  | _ => exact absurd hs (by simp [Single])

/-- Runs a call sequence and lists the physical events acted upon. -/
def play (C : Cfg Ref Ev Ctx PKS KS) (n : Nat) (km : KM Ref Ev Ctx PKS KS) :
    List Op → Res (List InputEvent × KM Ref Ev Ctx PKS KS)
  | [] => .ok ([], km)
  | op :: ops => do
    let km1 ← step C n km op
    let (es, km2) ← play C n km1 ops
    pure (actedOn km km1 ++ es, km2)

/-- No input event is dropped: whenever one comes, fewer than 31 are waiting. -/
def room (C : Cfg Ref Ev Ctx PKS KS) (n : Nat) (km : KM Ref Ev Ctx PKS KS) : List Op → Bool
  | [] => true
  | op :: ops =>
    (match op with
      | .input _ => decide (km.inq.length < 31)
      | _ => true) &&
    (match step C n km op with
      | .ok km1 => room C n km1 ops
      | _ => true)

theorem inputs_cons (op : Op) (ops : List Op) : Spec.inputs (op :: ops) = Spec.inputs [op] ++ Spec.inputs ops := by
  cases op <;> rfl

theorem ordered_play (hT : TapHoldOnly K refs) {n : Nat} {a b : KM Ref Ev Ctx PKS KS} {ops : List Op}
    {done acted : List InputEvent} (ho : Ordered K done a) (hs : ∀ op ∈ ops, Single op) (hroom : room (cfg K refs S) n a ops = true)
    (hn : Spec.NoRepeat (done ++ waiting a ++ Spec.physIn (Spec.inputs ops)))
    (h : play (cfg K refs S) n a ops = .ok (acted, b)) :
    acted ++ waiting b = waiting a ++ Spec.physIn (Spec.inputs ops) := by
  induction ops generalizing a done acted with
  | nil => simp only [play, Res.ok.injEq, Prod.mk.injEq] at h; obtain ⟨rfl, rfl⟩ := h; simp [Spec.inputs, Spec.physIn]
  | cons op ops ih =>
    simp only [play, Res.bind_eq_ok, Res.pure_eq, Res.ok.injEq, Prod.mk.injEq] at h
    obtain ⟨c, h1, ⟨es, d⟩, h2, rfl, rfl⟩ := h
    rw [inputs_cons, physIn_append] at hn ⊢
    have k := ordered_step (rest := Spec.physIn (Spec.inputs ops)) hT ho (hs op List.mem_cons_self)
      (by rintro ev rfl; simp only [room, Bool.and_eq_true, decide_eq_true_eq] at hroom; exact hroom.1) (by simpa [List.append_assoc] using hn) h1
    have := ih k.1 (fun op hop => hs op (List.mem_cons_of_mem _ hop))
      (by simp only [room, Bool.and_eq_true, h1] at hroom; exact hroom.2)
      (by rw [List.append_assoc done, k.2]; simpa [List.append_assoc] using hn) h2
    simp only
    rw [List.append_assoc, this, ← List.append_assoc, k.2, List.append_assoc]

/-- C18, full claim: whatever keys the keymap has, the keymap acts upon the events of a keyboard (which
presses no key twice without releasing it) in the order in which they came, without losing any. -/
def C18_full : Prop :=
  ∀ (K : Keys) (refs : List Ref) (S : Search) (ctx : Ctx) (n : Nat) (ops : List Op) (acted : List InputEvent)
    (b : KM Ref Ev Ctx PKS KS), (∀ op ∈ ops, Single op) → room (cfg K refs S) n (KM.new ctx) ops = true →
    Spec.NoRepeat (Spec.physIn (Spec.inputs ops)) → play (cfg K refs S) n (KM.new ctx) ops = .ok (acted, b) →
    acted ++ waiting b = Spec.physIn (Spec.inputs ops)

/-- C18 for keymaps in which only tap-hold keys wait for a decision. Missing: tap-dance keys and chords,
for which the claim is false, and keys that wait inside tap-hold keys. -/
theorem C18_tap_hold_partial (hT : TapHoldOnly K refs) {n : Nat} {b : KM Ref Ev Ctx PKS KS} {ops : List Op}
    {acted : List InputEvent} (hs : ∀ op ∈ ops, Single op) (hroom : room (cfg K refs S) n (KM.new ctx) ops = true)
    (hn : Spec.NoRepeat (Spec.physIn (Spec.inputs ops)))
    (h : play (cfg K refs S) n (KM.new ctx) ops = .ok (acted, b)) :
    acted ++ waiting b = Spec.physIn (Spec.inputs ops) := by
  have := ordered_play (a := KM.new ctx) (done := []) hT ⟨QInv.new _ _, fun p hp => by simp [KM.new] at hp⟩ hs hroom
    (by simpa [waiting, KM.new, Spec.physIn] using hn) h
  simpa [waiting, KM.new, Spec.physIn] using this

/-- The keys of the example keymap without tap-dance and chords. -/
def exHoldRefs : List Ref := Ex.refs.filter fun
  | .tapDance _ | .chorded _ => false
  | _ => true

/-- It meets the hypothesis of `C18_tap_hold_partial`. -/
theorem exHold : TapHoldOnly Ex.K exHoldRefs := by
  have plain : ∀ u, Decided Ex.K (.keyboard u) := by
    intro u r h
    cases h with
    | refl => rfl
    | step c _ => cases c
  have lay : ∀ r, Child Ex.K (.layered (.layered 0)) r → ∃ u, r = .keyboard u := by
    intro r h
    cases h with
    | base h => simp only [Ex.K, List.getElem?_cons_zero, Option.some.injEq] at h; subst h; exact ⟨_, rfl⟩
    | layer h hm =>
      simp only [Ex.K, List.getElem?_cons_zero, Option.some.injEq] at h
      subst h
      simp at hm
      exact ⟨_, hm⟩
  have th : ∀ r, Child Ex.K (.tapHold 0) r → ∃ u, r = .keyboard u := by
    intro r h
    cases h with
    | tap h => simp only [Ex.K, List.getElem?_cons_zero, Option.some.injEq] at h; subst h; exact ⟨_, rfl⟩
    | hold h => simp only [Ex.K, List.getElem?_cons_zero, Option.some.injEq] at h; subst h; exact ⟨_, rfl⟩
  intro r hr r' hl
  have hr' : r = .tapHold 0 ∨ r = .layered (.layered 0) ∨ (immediateRef r = true ∧ ∀ r', ¬ Child Ex.K r r') := by
    simp [exHoldRefs, Ex.refs] at hr
    rcases hr with rfl | rfl | rfl | rfl | rfl | rfl | rfl | rfl | rfl | rfl | rfl | rfl | rfl <;>
      first
        | exact Or.inl rfl
        | exact Or.inr (Or.inl rfl)
        | exact Or.inr (Or.inr ⟨rfl, fun r' h => by cases h⟩)
  cases hl with
  | refl =>
    rcases hr' with rfl | rfl | h
    · exact Or.inr ⟨0, rfl, fun c hc => by obtain ⟨u, rfl⟩ := th c hc; exact plain u⟩
    · exact Or.inl rfl
    · exact Or.inl h.1
  | step c hl =>
    rcases hr' with rfl | rfl | h
    · obtain ⟨u, rfl⟩ := th _ c; exact Or.inl (plain u _ hl)
    · obtain ⟨u, rfl⟩ := lay _ c; exact Or.inl (plain u _ hl)
    · exact absurd c (h.2 _)

/-- Tap-hold key down, then A pressed and released, then the tap-hold key released: all four events come
back to the queue and are acted upon in that order, the first one as soon as it came. -/
example : ((fun x => (x.1, waiting x.2)) <$> play ⟨system Ex.K, exHoldRefs, Search.std⟩ 9 Ex.km0
    [.input (.press 2), .tick, .input (.press 0), .tick, .input (.release 0), .tick, .input (.release 2), .tick, .tick]) =
      .ok ([.press 2, .press 0], [.release 0, .release 2]) := by decide +kernel

/-- The calls of the counterexample: the tap-dance key is tapped, A is pressed, the tap-dance times out. -/
def c18Ops : List Op :=
  [.input (.press 7), .tick, .input (.release 7), .tick, .input (.press 0), .tick] ++ List.replicate 203 .tick

/-- C18, full claim, is false: the release of the tap-dance key is acted upon after the press of A, which
came later. -/
theorem C18_refuted : ¬ C18_full := by
  intro h
  have h0 : ((·.1) <$> play (cfg Ex.K Ex.refs Search.std) 9 (KM.new Ex.ctx) c18Ops) =
      .ok [.press 7, .press 0, .release 7] := by decide +kernel
  obtain ⟨⟨acted, b⟩, h1, rfl⟩ := Res.map_eq_ok.1 h0
  have e : Spec.physIn (Spec.inputs c18Ops) = [.press 7, .release 7, .press 0] := by decide +kernel
  have hn : Spec.NoRepeat (Spec.physIn (Spec.inputs c18Ops)) := by
    rw [e]
    intro pre idx post h
    match pre, h with
    | [], h => simp at h; obtain ⟨rfl, _⟩ := h; rfl
    | [_], h => simp at h
    | [_, _], h => simp at h; obtain ⟨rfl, rfl, rfl, _⟩ := h; rfl
    | _ :: _ :: _ :: _, h => simp at h
  have hs : ∀ op ∈ c18Ops, Single op := by
    intro op hop
    simp only [c18Ops, List.mem_append, List.mem_cons, List.not_mem_nil, or_false, List.mem_replicate] at hop
    rcases hop with (rfl | rfl | rfl | rfl | rfl | rfl) | ⟨_, rfl⟩ <;> trivial
  have := h Ex.K Ex.refs Search.std Ex.ctx 9 c18Ops _ b hs (by decide +kernel) hn h1
  rw [e] at this
  simp at this

end Comp
end Verif
