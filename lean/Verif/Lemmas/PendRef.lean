import Verif.Lemmas.Keymap

/-! # The key that waits for a decision is one the key system said has to wait -/

namespace Verif

variable {R Ev Ctx PKS KS : Type} {C : Cfg R Ev Ctx PKS KS}

/-- The key system answered "pending" for this key. -/
def Waits (C : Cfg R Ev Ctx PKS KS) (idx : Nat) (r : R) : Prop := ∃ pks, IsPending C idx r pks

/-- The undecided key, if any, is such a key. -/
def PendOk (C : Cfg R Ev Ctx PKS KS) (km : KM R Ev Ctx PKS KS) : Prop := ∀ p, km.pend = some p → Waits C p.idx p.ref

theorem PendOk.of_pend {a b : KM R Ev Ctx PKS KS} (h : PendOk C a) (e : b.pend = a.pend) : PendOk C b := by
  intro p hp; exact h p (e ▸ hp)

theorem PendOk.of_none {a : KM R Ev Ctx PKS KS} (e : a.pend = none) : PendOk C a := by
  intro p hp; rw [e] at hp; cases hp

/-- A handler that keeps this. -/
def HandlerPend (C : Cfg R Ev Ctx PKS KS) (he : Handler R Ev Ctx PKS KS) : Prop :=
  ∀ km ev km', PendOk C km → he km ev = .ok km' → PendOk C km'

theorem drain_pendOk {he : Handler R Ev Ctx PKS KS} (hh : HandlerPend C he) {n : Nat} {a b : KM R Ev Ctx PKS KS}
    (ha : PendOk C a) (h : drain he n a = .ok b) : PendOk C b := by
  induction n generalizing a with
  | zero => simp [drain] at h
  | succ n ih =>
    simp only [drain] at h
    split at h
    · simp only [Res.ok.injEq] at h; subst h; exact ha
    · simp only [Res.bind_eq_ok] at h
      obtain ⟨km1, h1, h2⟩ := h
      refine ih (hh _ _ _ ?_ h1) h2
      exact ha

theorem resolve_pendOk {he : Handler R Ev Ctx PKS KS} (hh : HandlerPend C he) {n : Nat} {a b : KM R Ev Ctx PKS KS}
    {p : Pending R Ev PKS} {ks : KS} (h : resolve C he n a p ks = .ok b) : PendOk C b := by
  unfold resolve at h
  simp only [Res.bind_eq_ok] at h
  obtain ⟨km1, h1, km2, h2, o, _, h3⟩ := h
  have e1 : km1.pend = none := by
    unfold resolveEnter at h1
    simp only [Res.bind_eq_ok, Res.pure_eq, Res.ok.injEq] at h1
    obtain ⟨ps, _, ⟨q1, s1⟩, _, q2, _, rfl⟩ := h1
    rfl
  have p2 := drain_pendOk hh (PendOk.of_none (C := C) e1) h2
  cases o with
  | none => simp only [Res.pure_eq, Res.ok.injEq] at h3; subst h3; exact p2
  | some ko => exact hh _ _ _ p2 h3

theorem pendLoop_pendOk {he : Handler R Ev Ctx PKS KS} (hh : HandlerPend C he) {n m : Nat} {a b : KM R Ev Ctx PKS KS}
    {p : Pending R Ev PKS} {npk : NPK R} (h : pendLoop C he n m a p npk = .ok b) : PendOk C b := by
  induction m generalizing a p npk with
  | zero => simp [pendLoop] at h
  | succ m ih =>
    cases npk with
    | noOp => exact resolve_pendOk hh h
    | key r =>
      simp only [pendLoop, Res.bind_eq_ok] at h
      obtain ⟨⟨pkr, es⟩, h1, s, h2, h3⟩ := h
      cases pkr with
      | resolved ks => exact resolve_pendOk hh h3
      | newPressedKey npk =>
        cases npk with
        | noOp => exact resolve_pendOk hh h3
        | key r' => exact ih h3
      | pending pks =>
        simp only [Res.bind_eq_ok, Res.pure_eq, Res.ok.injEq] at h3
        obtain ⟨q, _, q', _, rfl⟩ := h3
        intro p' hp'
        simp only [Option.some.injEq] at hp'
        subst hp'
        exact ⟨pks, _, _, h1⟩

theorem updatePending_pendOk {he : Handler R Ev Ctx PKS KS} (hh : HandlerPend C he) {n : Nat} {a b : KM R Ev Ctx PKS KS}
    {ev : Event Ev} (ha : PendOk C a) (h : updatePending C he n a ev = .ok b) : PendOk C b := by
  unfold updatePending at h
  split at h
  · simp only [Res.pure_eq, Res.ok.injEq] at h; subst h; exact ha
  · rename_i p hp
    simp only [Res.bind_eq_ok] at h
    obtain ⟨⟨pks, npk, es⟩, h1, s, h2, h3⟩ := h
    cases npk with
    | none =>
      simp only [Res.pure_eq, Res.ok.injEq] at h3; subst h3
      intro p' hp'
      simp only [Option.some.injEq] at hp'
      subst hp'
      exact ha p hp
    | some npk => exact pendLoop_pendOk hh h3

theorem pressLoop_pendOk {he : Handler R Ev Ctx PKS KS} (hh : HandlerPend C he) {m idx : Nat} {a b : KM R Ev Ctx PKS KS}
    {r : R} (ha : PendOk C a) (h : pressLoop C he idx m a r = .ok b) : PendOk C b := by
  induction m generalizing a r with
  | zero => simp [pressLoop] at h
  | succ m ih =>
    simp only [pressLoop, Res.bind_eq_ok] at h
    obtain ⟨⟨pkr, es⟩, h1, s, h2, h3⟩ := h
    cases pkr with
    | resolved ks =>
      simp only [Res.bind_eq_ok] at h3
      obtain ⟨ps, h4, o, ho, h5⟩ := h3
      cases o with
      | none => simp only [Res.pure_eq, Res.ok.injEq] at h5; subst h5; exact ha
      | some ko =>
        refine hh _ _ _ ?_ h5
        exact ha
    | newPressedKey npk =>
      cases npk with
      | noOp =>
        simp only [Res.bind_eq_ok, Res.pure_eq, Res.ok.injEq] at h3
        obtain ⟨ps, h4, rfl⟩ := h3
        exact ha
      | key r' =>
        refine ih ?_ h3
        exact ha
    | pending pks =>
      simp only [Res.pure_eq, Res.ok.injEq] at h3
      subst h3
      intro p' hp'
      simp only [Option.some.injEq] at hp'
      subst hp'
      exact ⟨pks, _, _, h1⟩

theorem processInput_pendOk {he : Handler R Ev Ctx PKS KS} (hh : HandlerPend C he) {n : Nat} {a b : KM R Ev Ctx PKS KS}
    {ie : InputEvent} (ha : PendOk C a) (h : processInput C he n a ie = .ok b) : PendOk C b := by
  unfold processInput at h
  simp only at h
  split at h
  · rename_i p hp
    simp only [Res.bind_eq_ok] at h
    obtain ⟨q, h3, km1, h4, h2⟩ := h
    refine drain_pendOk hh (updatePending_pendOk hh ?_ h4) h2
    intro p' hp'
    simp only [Option.some.injEq] at hp'
    subst hp'
    exact ha p hp
  · rename_i hp
    simp only [Res.bind_eq_ok] at h
    obtain ⟨km1, h1, h2⟩ := h
    refine drain_pendOk hh ?_ h2
    simp only [processDirect, Res.bind_eq_ok] at h1
    obtain ⟨km0, h0, h1⟩ := h1
    have a0 : PendOk C km0 := ha.of_pend (notifyAll_pend h0)
    cases ie with
    | press idx =>
      simp only at h1
      split at h1
      · simp only [Res.pure_eq, Res.ok.injEq] at h1; subst h1; exact a0
      · simp only [Res.bind_eq_ok] at h1
        obtain ⟨r, hr, h3⟩ := h1
        exact pressLoop_pendOk hh a0 h3
    | release idx => simp only [Res.pure_eq, Res.ok.injEq] at h1; subst h1; exact a0
    | vpress ko =>
      simp only [Res.bind_eq_ok, Res.pure_eq, Res.ok.injEq] at h1
      obtain ⟨ps, h3, rfl⟩ := h1
      exact a0
    | vrelease ko => simp only [Res.pure_eq, Res.ok.injEq] at h1; subst h1; exact a0

theorem handleEvent_pendOk (n : Nat) : HandlerPend C (handleEvent C n) := by
  induction n with
  | zero => intro km ev km' _ h; simp [handleEvent] at h
  | succ n ih =>
    intro km ev km' ha h
    simp only [handleEvent, handleBody, Res.bind_eq_ok] at h
    obtain ⟨km1, h1, km2, h2, h3⟩ := h
    have p1 := updatePending_pendOk ih (ha.of_pend (by simp)) h1
    have p2 : PendOk C km2 := p1.of_pend (notifyAll_pend h2)
    cases ev with
    | input ie => exact processInput_pendOk ih p2 h3
    | key i e => simp only [Res.pure_eq, Res.ok.injEq] at h3; subst h3; exact p2
    | keymap e => simp only [Res.pure_eq, Res.ok.injEq] at h3; subst h3; exact p2

theorem processInputN_pendOk {n : Nat} {a b : KM R Ev Ctx PKS KS} {ie : InputEvent} (ha : PendOk C a)
    (h : processInputN C n a ie = .ok b) : PendOk C b := processInput_pendOk (handleEvent_pendOk n) ha h

theorem drainN_pendOk {n : Nat} {a b : KM R Ev Ctx PKS KS} (ha : PendOk C a) (h : drainN C n a = .ok b) : PendOk C b :=
  drain_pendOk (handleEvent_pendOk n) ha h

theorem pendOk_handleInput {n : Nat} {a b : KM R Ev Ctx PKS KS} {ie : InputEvent} (ha : PendOk C a)
    (h : handleInput C n a ie = .ok b) : PendOk C b := by
  unfold handleInput at h
  simp only at h
  split at h
  · simp only [Res.ok.injEq] at h; subst h; exact ha
  · split at h
    · split at h
      · simp at h
      · simp only [Res.bind_eq_ok, Res.pure_eq, Res.ok.injEq] at h
        obtain ⟨km1, h2, rfl⟩ := h
        refine PendOk.of_pend (a := km1) (processInputN_pendOk ?_ h2) rfl
        exact ha
    · simp only [Res.ok.injEq] at h; subst h; exact ha

theorem pendOk_tickInput {n : Nat} {a b : KM R Ev Ctx PKS KS} (ha : PendOk C a) (h : tickInput C n a = .ok b) :
    PendOk C b := by
  unfold tickInput at h
  split at h
  · split at h
    · simp only [Res.bind_eq_ok, Res.pure_eq, Res.ok.injEq] at h
      obtain ⟨km1, h2, rfl⟩ := h
      refine PendOk.of_pend (a := km1) (processInputN_pendOk ?_ h2) rfl
      exact ha
    · simp only [Res.ok.injEq] at h; subst h; exact ha
  · simp only [Res.ok.injEq] at h; subst h; exact ha

theorem pendOk_tick {n : Nat} {a b : KM R Ev Ctx PKS KS} (ha : PendOk C a) (h : tick C n a = .ok b) : PendOk C b := by
  obtain ⟨km1, s, km2, h1, h2, h3, _, rfl⟩ := tick_eq_ok h
  have p1 := pendOk_tickInput (ha.of_pend (b := { a with ctx := C.sys.setCtx a.ctx a.sched.counter a.idle }) rfl) h1
  exact (drainN_pendOk (p1.of_pend (b := { km1 with delay := km1.delay - 1, sched := s }) rfl) h3).of_pend rfl

theorem pendOk_ticks {n k : Nat} {a b : KM R Ev Ctx PKS KS} (ha : PendOk C a) (h : ticks C n k a = .ok b) :
    PendOk C b := by
  induction k generalizing a with
  | zero => simp only [ticks, Res.ok.injEq] at h; subst h; exact ha
  | succ k ih =>
    simp only [ticks, Res.bind_eq_ok] at h
    obtain ⟨km1, h1, h2⟩ := h
    exact ih (pendOk_tick ha h1) h2

theorem pendOk_tickBy {n d : Nat} {a b : KM R Ev Ctx PKS KS} (ha : PendOk C a) (h : tickBy C n a d = .ok b) :
    PendOk C b := by
  unfold tickBy at h
  split at h
  · exact pendOk_tick ha h
  · split at h
    · simp at h
    · exact pendOk_ticks ha h

theorem pendOk_step {n : Nat} {a b : KM R Ev Ctx PKS KS} {op : Op} (ha : PendOk C a) (h : step C n a op = .ok b) :
    PendOk C b := by
  cases op with
  | input ev => exact pendOk_handleInput ha h
  | tick => exact pendOk_tick ha h
  | report =>
    simp only [step, reportOutput, Res.map_eq_ok, Res.bind_eq_ok, Res.pure_eq, Res.ok.injEq] at h
    obtain ⟨⟨x, y⟩, ⟨os, _, h1⟩, h2⟩ := h
    simp only [Prod.mk.injEq] at h1
    rw [← h2, ← h1.1]
    exact ha.of_pend rfl
  | init => simp only [step, Res.ok.injEq] at h; subst h; exact PendOk.of_none rfl
  | setCallback c f =>
    simp only [step, KM.setCallback] at h
    split at h
    · simp only [Res.ok.injEq] at h; subst h; exact ha
    · simp at h
  | setMsPerTick ms => simp only [step, Res.ok.injEq] at h; subst h; exact ha
  | inputAfter d ev =>
    simp only [step, handleInputAfterTime, Res.map_eq_ok, Res.bind_eq_ok] at h
    obtain ⟨⟨x, y⟩, ⟨km1, h1, km2, h2, o, _, h3⟩, rfl⟩ := h
    split at h3
    · simp at h3
    · simp only [Res.pure_eq, Res.ok.injEq, Prod.mk.injEq] at h3
      simp only
      rw [← h3.1]
      exact pendOk_handleInput (pendOk_tickBy ha h1) h2
  | tickToNext =>
    simp only [step, tickToNext, Res.map_eq_ok, Res.bind_eq_ok] at h
    obtain ⟨⟨x, y⟩, ⟨o, _, h1⟩, rfl⟩ := h
    cases o with
    | none => simp only [Res.pure_eq, Res.ok.injEq, Prod.mk.injEq] at h1; simp only; rw [← h1.1]; exact ha
    | some d =>
      simp only [Res.bind_eq_ok, Res.pure_eq, Res.ok.injEq, Prod.mk.injEq] at h1
      obtain ⟨km1, h1, o, _, rfl, _⟩ := h1
      exact pendOk_tickBy ha h1

theorem pendOk_run {n : Nat} {a b : KM R Ev Ctx PKS KS} {ops : List Op} (ha : PendOk C a) (h : run C n a ops = .ok b) :
    PendOk C b := by
  induction ops generalizing a with
  | nil => simp only [run, Res.ok.injEq] at h; subst h; exact ha
  | cons op ops ih =>
    simp only [run, Res.bind_eq_ok] at h
    obtain ⟨km1, h1, h2⟩ := h
    exact ih (pendOk_step ha h1) h2

theorem Reachable.pendOk {ctx : Ctx} {km : KM R Ev Ctx PKS KS} (h : Reachable C ctx km) : PendOk C km := by
  obtain ⟨n, ops, h⟩ := h
  exact pendOk_run (PendOk.of_none rfl) h

end Verif
