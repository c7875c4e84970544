import Verif.Lemmas.Callback
import Verif.Lemmas.Immediate
import Verif.Lemmas.PendRef
import Verif.Example

/-!
# C19: callbacks

`km.fired` records, in order, the registered functions the keymap has called.
-/

namespace Verif

open Spec

section
variable {R Ev Ctx PKS KS : Type}

theorem invoke_insert (cs : List (Callback × Nat)) (c c' : Callback) (f : Nat) :
    Spec.invoke (insertCallback c f cs) c' = if c' = c then [(c, f)] else Spec.invoke cs c' := by
  induction cs with
  | nil =>
    simp only [insertCallback, Spec.invoke, List.find?_cons, List.find?_nil]
    by_cases h : c = c'
    · subst h; simp
    · have h' : ¬c' = c := fun e => h e.symm
      simp [h, h']
  | cons x cs ih =>
    obtain ⟨c1, f1⟩ := x
    have e : ∀ (g : Nat) (l : List (Callback × Nat)), Spec.invoke ((c1, g) :: l) c' =
        if c1 = c' then [(c1, g)] else Spec.invoke l c' := by
      intro g l
      by_cases h : c1 = c' <;> simp [Spec.invoke, h]
    simp only [insertCallback]
    split
    · rename_i h; subst h
      rw [e, e]
      by_cases h2 : c1 = c'
      · subst h2; simp
      · have h' : ¬c' = c1 := fun e => h2 e.symm
        simp [h2, h']
    · rename_i h
      rw [e, e, ih]
      by_cases h2 : c1 = c'
      · subst h2; simp [h]
      · simp [h2]

/-- C19, registration: the function registered last is the one that is called; other callbacks keep
theirs. -/
theorem C19_registered_last {km km' : KM R Ev Ctx PKS KS} {c : Callback} {f : Nat} (h : km.setCallback c f = .ok km')
    (c' : Callback) :
    Spec.invoke km'.callbacks c' = if c' = c then [(c, f)] else Spec.invoke km.callbacks c' := by
  unfold KM.setCallback at h
  simp only at h
  split at h
  · simp only [Res.ok.injEq] at h
    rw [← h]
    exact invoke_insert _ _ _ _
  · simp at h

theorem insert_length_mem {cs : List (Callback × Nat)} {c : Callback} (f : Nat) (h : ∃ g, (c, g) ∈ cs) :
    (insertCallback c f cs).length = cs.length := by
  induction cs with
  | nil => simp at h
  | cons x cs ih =>
    obtain ⟨c1, f1⟩ := x
    simp only [insertCallback]
    split
    · simp
    · rename_i hc
      rw [List.length_cons, List.length_cons, ih]
      obtain ⟨g, hg⟩ := h
      simp only [List.mem_cons, Prod.mk.injEq] at hg
      rcases hg with ⟨rfl, _⟩ | hg
      · exact absurd rfl hc
      · exact ⟨g, hg⟩

theorem insert_length_new {cs : List (Callback × Nat)} {c : Callback} (f : Nat) (h : ¬ ∃ g, (c, g) ∈ cs) :
    (insertCallback c f cs).length = cs.length + 1 := by
  induction cs with
  | nil => rfl
  | cons x cs ih =>
    obtain ⟨c1, f1⟩ := x
    simp only [insertCallback]
    split
    · rename_i hc; subst hc; exact absurd ⟨f1, by simp⟩ h
    · rw [List.length_cons, List.length_cons, ih]
      rintro ⟨g, hg⟩
      exact h ⟨g, by simp [hg]⟩

/-- Registering panics exactly when it is a third different callback. -/
theorem C19_third_callback {km : KM R Ev Ctx PKS KS} {c : Callback} {f : Nat} (hl : km.callbacks.length ≤ 2) :
    (km.setCallback c f = .panic .capacity ↔ km.callbacks.length = 2 ∧ ¬ ∃ g, (c, g) ∈ km.callbacks) ∧
      ∀ km', km.setCallback c f = .ok km' → km'.callbacks.length ≤ 2 := by
  unfold KM.setCallback
  simp only
  by_cases h : ∃ g, (c, g) ∈ km.callbacks
  · rw [insert_length_mem f h, if_pos (by exact hl)]
    constructor
    · simp only [reduceCtorEq, false_iff]; exact fun x => x.2 h
    · intro km' h2
      simp only [Res.ok.injEq] at h2
      subst h2
      show (insertCallback c f km.callbacks).length ≤ 2
      rw [insert_length_mem f h]; exact hl
  · rw [insert_length_new f h]
    split
    · rename_i h3
      simp only [callbackCap] at h3
      refine ⟨?_, ?_⟩
      · simp only [reduceCtorEq, false_iff]; omega
      · intro km' h2
        simp only [Res.ok.injEq] at h2
        subst h2
        show (insertCallback c f km.callbacks).length ≤ 2
        rw [insert_length_new f h]; exact h3
    · rename_i h3
      simp only [callbackCap] at h3
      refine ⟨?_, by simp⟩
      simp only [true_iff]
      exact ⟨by omega, h⟩

end

namespace Comp

variable {K : Keys} {refs : List Ref} {S : Search} {ctx : Ctx}

/-- What the press of a key that turned out to be `r` calls. -/
def calls (K : Keys) (regs : List (Callback × Nat)) : Ref → List (Callback × Nat)
  | .callback j => match K.callback[j]? with
    | some cb => Spec.invoke regs cb
    | none => []
  | _ => []

theorem calls_callback {regs : List (Callback × Nat)} {j : Nat} {cb : Callback} (h : K.callback[j]? = some cb) :
    calls K regs (.callback j) = Spec.invoke regs cb := by simp [calls, h]

theorem calls_other {regs : List (Callback × Nat)} {r : Ref} (h : ∀ j, r ≠ .callback j) : calls K regs r = [] := by
  unfold calls
  split
  · exact absurd rfl (h _)
  · rfl

theorem child_not_callback {j : Nat} {r : Ref} : ¬ Child K (.callback j) r := by intro h; cases h

/-- A direct press: the key stands for `r` in the end, or has to wait. -/
theorem pressLoop_calls {n m idx : Nat} {a b : KM Ref Ev Ctx PKS KS} {r : Ref} (hq : QInv NonPhys a) (hp : a.pend = none)
    (hn : hasPressed idx a.pressed = false) (hb : PressRef (cfg K refs S) idx r)
    (h : pressLoop (cfg K refs S) (handleEvent (cfg K refs S) n) idx m a r = .ok b) :
    (∃ p, b.pend = some p ∧ p.idx = idx ∧ owed b = owed a ∧ keys b.pressed = keys a.pressed) ∨
    (b.pend = none ∧ ∃ r', keys b.pressed = keys a.pressed ++ [(idx, r')] ∧ owed b = owed a ++ calls K a.callbacks r') := by
  have hE := emits_nonPhys K refs S
  induction m generalizing a r with
  | zero => simp [pressLoop] at h
  | succ m ih =>
    simp only [pressLoop, Res.bind_eq_ok] at h
    obtain ⟨⟨pkr, es⟩, h1, s, h2, h3⟩ := h
    have m1 : Micro (cfg K refs S) (fun _ => True) a { a with sched := s } :=
      .npk a idx r pkr es s hp trivial hn h1 h2 hb
    have q1 : QInv NonPhys { a with sched := s } := hq.micro hE m1
    rcases npk_cb_cases h1 with hes | ⟨j, cb, rfl, hj, rfl⟩
    · have ho : owed { a with sched := s } = owed a := owed_sched a s (scheduleAll_noCb h2 hes)
      have hr : ∀ j, r ≠ .callback j := by
        rintro j rfl
        obtain ⟨cb, _, _, he⟩ := npk_callback (idx := idx) (c := a.ctx) h1
        have := (hes (SchEv.imm (.keymap (.callback cb))) (by rw [he]; simp)).cbOf
        simp [SchEv.imm, cbOf] at this
      cases pkr with
      | resolved ks =>
        simp only [Res.bind_eq_ok] at h3
        obtain ⟨ps, h4, o, ho', h5⟩ := h3
        obtain ⟨_, rfl⟩ := pushCap_eq_ok.1 h4
        right
        have hq2 : QInv NonPhys { a with sched := s, pressed := a.pressed ++ [.key idx r ks] } :=
          ⟨q1.pending, q1.scheduled, q1.queued⟩
        have st : Steps (cfg K refs S) NonPhys { a with sched := s, pressed := a.pressed ++ [.key idx r ks] } b := by
          cases o with
          | none => simp only [Res.pure_eq, Res.ok.injEq] at h5; subst h5; exact .refl _
          | some ko => exact handleEvent_steps hE n _ _ _ hq2 (hE.resolved _ _) h5
        have k := nonphys_steps st hp
        refine ⟨k.1, r, by rw [k.2]; simp, ?_⟩
        rw [owed_nonphys hq2.true_of hp st, calls_other hr, List.append_nil]
        exact ho
      | newPressedKey npk =>
        cases npk with
        | noOp =>
          simp only [Res.bind_eq_ok, Res.pure_eq, Res.ok.injEq] at h3
          obtain ⟨ps, h4, rfl⟩ := h3
          obtain ⟨_, rfl⟩ := pushCap_eq_ok.1 h4
          right
          refine ⟨hp, r, by simp, ?_⟩
          rw [calls_other hr, List.append_nil]
          exact ho
        | key r' =>
          have := ih (a := { a with sched := s }) q1 hp hn (hb.step h1) h3
          rw [ho] at this
          exact this
      | pending pks =>
        simp only [Res.pure_eq, Res.ok.injEq] at h3
        subst h3
        exact Or.inl ⟨_, rfl, rfl, ho, rfl⟩
    · obtain ⟨_, _, rfl, _⟩ := npk_callback (idx := idx) (c := a.ctx) h1
      simp only [Res.bind_eq_ok, Res.pure_eq, Res.ok.injEq] at h3
      obtain ⟨ps, h4, rfl⟩ := h3
      obtain ⟨_, rfl⟩ := pushCap_eq_ok.1 h4
      right
      refine ⟨hp, .callback j, by simp, ?_⟩
      rw [calls_callback hj]
      unfold owed
      simp only
      rw [scheduleAll_owed h2]
      simp [SchEv.imm, cbOf]

theorem waits_not_callback {idx j : Nat} : ¬ Waits (cfg K refs S) idx (.callback j) := by
  rintro ⟨pks, c, es, h⟩
  rcases npk_pending (K := K) (idx := idx) (c := c) (r := .callback j) (p := pks) (es := es) h with
    ⟨_, _, h, _⟩ | ⟨_, _, h, _⟩ | ⟨_, _, h, _⟩ <;> cases h

theorem calls_waits {regs : List (Callback × Nat)} {idx : Nat} {r : Ref} (h : Waits (cfg K refs S) idx r) :
    calls K regs r = [] := by
  apply calls_other
  rintro j rfl
  exact waits_not_callback h

theorem becomes_child {idx : Nat} {r r' : Ref} (h : Becomes (cfg K refs S) idx r r') : Child K r r' := by
  rcases h with ⟨p, c, ev, p', es, h⟩ | ⟨c, es, h⟩
  · exact pend_child (p := p) (c := c) (ev := ev) (es := es) (idx := idx) (p' := p') h
  · exact npk_child (c := c) (es := es) (idx := idx) h

/-- The state while key `idx` is undecided, or after it was decided. -/
def Deciding (K : Keys) (idx : Nat) (a b : KM Ref Ev Ctx PKS KS) : Prop :=
  (∃ p, b.pend = some p ∧ p.idx = idx ∧ keys b.pressed = keys a.pressed ∧ owed b = owed a ++ calls K a.callbacks p.ref) ∨
    (b.pend = none ∧ ∃ r, keys b.pressed = keys a.pressed ++ [(idx, r)] ∧ owed b = owed a ++ calls K a.callbacks r)

theorem deciding_micro {idx : Nat} {a b c : KM Ref Ev Ctx PKS KS} (hq : QInv NonPhys b) (hc : b.callbacks = a.callbacks)
    (h : Deciding K idx a b) (m : Micro (cfg K refs S) NonPhys b c) : Deciding K idx a c := by
  rcases h with ⟨p, hp, hi, hk, ho⟩ | ⟨hp, r, hk, ho⟩
  · cases m with
    | updKey ev pre i r ks post ks' es s h hu hs =>
      refine Or.inl ⟨p, hp, hi, by rw [← hk, h]; simp, ?_⟩
      rw [← ho]; exact owed_sched b s (scheduleAll_noCb hs (state_noCb (c := b.ctx) hu))
    | ctxEv ev ctx es s hu hs =>
      refine Or.inl ⟨p, hp, hi, hk, ?_⟩
      rw [← ho]; exact owed_sched b s (scheduleAll_noCb hs (ctx_noCb hu))
    | take ev s hd =>
      refine Or.inl ⟨p, by simpa using hp, hi, by simpa using hk, ?_⟩
      rw [← ho]
      unfold owed
      rw [fire_fired, fire_sched, fire_callbacks, (Sched.dequeue_some hd).1]
      simp [owedCbs]
    | takeNone s hd =>
      refine Or.inl ⟨p, hp, hi, hk, ?_⟩
      rw [← ho]
      rcases Sched.dequeue_none hd with ⟨_, rfl⟩ | ⟨h1, h2, _⟩
      · rfl
      · exact owed_sched b s (by rw [h1]; rfl)
    | pendUpd ev p' pks npk es s hp' hu hs =>
      rw [hp] at hp'
      obtain rfl := Option.some.inj hp'
      refine Or.inl ⟨_, rfl, hi, hk, ?_⟩
      simp only
      rw [← ho]; exact owed_sched b s (scheduleAll_noCb hs (pend_noCb hu))
    | pendNpk p' r pkr es s hp' hu hs hb =>
      rw [hp] at hp'
      obtain rfl := Option.some.inj hp'
      refine Or.inl ⟨_, rfl, hi, hk, ?_⟩
      simp only
      have hnc : calls K a.callbacks p.ref = [] := by
        apply calls_other
        intro j hj
        have := becomes_child hb
        rw [hj] at this
        exact child_not_callback this
      rw [hnc, List.append_nil] at ho
      rcases npk_cb_cases (idx := p.idx) (c := b.ctx) hu with hes | ⟨j, cb, rfl, hj, rfl⟩
      · have hr : ∀ j, r ≠ .callback j := by
          rintro j rfl
          obtain ⟨cb, _, _, he⟩ := npk_callback (idx := p.idx) (c := b.ctx) hu
          have := (hes (SchEv.imm (.keymap (.callback cb))) (by rw [he]; simp)).cbOf
          simp [SchEv.imm, cbOf] at this
        rw [calls_other hr, List.append_nil, ← ho]
        exact owed_sched b s (scheduleAll_noCb hs hes)
      · rw [calls_callback hj, ← ho, ← hc]
        unfold owed
        simp only
        rw [scheduleAll_owed hs]
        simp [SchEv.imm, cbOf]
    | pendSwap p' pks q q' hp' h1 h2 hb =>
      rw [hp] at hp'
      obtain rfl := Option.some.inj hp'
      exact Or.inl ⟨_, rfl, hi, hk, ho⟩
    | resolve p' ks km' hp' hf he =>
      rw [hp] at hp'
      obtain rfl := Option.some.inj hp'
      obtain ⟨_, _, rfl⟩ := resolveEnter_spec (hq.queued p hp) he
      exact Or.inr ⟨rfl, p.ref, by simp [hk, hi], ho⟩
    | queue p' ie q hp' hQ hc =>
      rw [hp] at hp'
      obtain rfl := Option.some.inj hp'
      exact Or.inl ⟨_, rfl, hi, hk, ho⟩
    | npk idx r pkr es s h => rw [hp] at h; cases h
    | pushKey idx r ks ps h => rw [hp] at h; cases h
    | startPend idx r pks h => rw [hp] at h; cases h
    | remKey idx h => rw [hp] at h; cases h
    | pushVirt ko ps h => rw [hp] at h; cases h
    | remVirt ko h => rw [hp] at h; cases h
  · right
    have k := nonphys_micro m hp
    refine ⟨k.1, r, k.2.trans hk, ?_⟩
    rw [← ho]
    exact owed_nonphys hq.true_of hp (.one m)

theorem deciding_steps {idx : Nat} {a b c : KM Ref Ev Ctx PKS KS} (hq : QInv NonPhys b) (hc : b.callbacks = a.callbacks)
    (h : Deciding K idx a b) (m : Steps (cfg K refs S) NonPhys b c) : Deciding K idx a c := by
  refine (m.inv (I := fun km => QInv NonPhys km ∧ km.callbacks = a.callbacks ∧ Deciding K idx a km) ?_ ⟨hq, hc, h⟩).2.2
  intro x y hx m
  exact ⟨hx.1.micro (emits_nonPhys K refs S) m, (Steps.one m).sameFrame.callbacks.trans hx.2.1,
    deciding_micro hx.1 hx.2.1 hx.2.2 m⟩

/-- The outcome for the key at index `idx`, of going from `km` to `km'`: it is undecided and no
function has been called; or it is down as some key `r`, and exactly the function registered for `r`
has been called, once, if `r` is a callback key and a function is registered for it. -/
def Outcome (K : Keys) (idx : Nat) (km km' : KM Ref Ev Ctx PKS KS) : Prop :=
  (∃ p, km'.pend = some p ∧ p.idx = idx ∧ keys km'.pressed = keys km.pressed ∧ km'.fired = km.fired) ∨
  (km'.pend = none ∧ ∃ r, keys km'.pressed = keys km.pressed ++ [(idx, r)] ∧
    km'.fired = km.fired ++ calls K km.callbacks r)

theorem Deciding.outcome {idx : Nat} {a b : KM Ref Ev Ctx PKS KS} (ha : a.sched.pending = []) (hb : b.sched.pending = [])
    (hw : PendOk (cfg K refs S) b) (h : Deciding K idx a b) : Outcome K idx a b := by
  rcases h with ⟨p, hp, hi, hk, ho⟩ | ⟨hp, r, hk, ho⟩
  · rw [calls_waits (hw p hp), owed_quiet ha, owed_quiet hb, List.append_nil] at ho
    exact Or.inl ⟨p, hp, hi, hk, ho⟩
  · rw [owed_quiet ha, owed_quiet hb] at ho
    exact Or.inr ⟨hp, r, hk, ho⟩

/-- What is needed of the state before a call. -/
structure Ready (K : Keys) (refs : List Ref) (S : Search) (km : KM Ref Ev Ctx PKS KS) : Prop where
  quiet : Quiet km
  phys : QInv NonPhys km
  pend : PendOk (cfg K refs S) km

theorem ready_of_reachable {km : KM Ref Ev Ctx PKS KS} (hr : Reachable (cfg K refs S) ctx km) : Ready K refs S km :=
  ⟨hr.quiet, (qinv_api NonPhys (emits_nonPhys K refs S)).of_reachable (QInv.new _ ctx) hr, hr.pendOk⟩

theorem press_outcome {km km' : KM Ref Ev Ctx PKS KS} {n idx : Nat} (hr : Ready K refs S km)
    (hp : km.pend = none) (hi : idx ∉ indices km.pressed)
    (h : processInputN (cfg K refs S) n km (.press idx) = .ok km') : Outcome K idx km km' := by
  have hE := emits_nonPhys K refs S
  have hb := processInputN_empties hr.quiet.noDead hr.quiet.2 h
  have hw := processInputN_pendOk hr.pend h
  obtain ⟨c, h1, h2⟩ := processInputN_direct hp h
  refine Deciding.outcome hr.quiet.1 hb hw ?_
  simp only [processDirect, Res.bind_eq_ok] at h1
  obtain ⟨d, h3, h4⟩ := h1
  have st := notifyAll_steps (Q := NonPhys) h3
  have sh := notifyAll_shape h3
  have od : owed d = owed km := owed_nonphys hr.quiet.2 hp st
  have cd : d.callbacks = km.callbacks := st.sameFrame.callbacks
  have qd := hr.phys.steps hE st
  have pd : d.pend = none := sh.1.trans hp
  have nd : hasPressed idx d.pressed = false := by rw [hasPressed_false_iff, sh.2.2.2.1]; exact hi
  rw [if_neg (by simp [nd])] at h4
  simp only [Res.bind_eq_ok] at h4
  obtain ⟨r, hr', h5⟩ := h4
  have st2 := pressLoop_steps (Q := fun _ => True) (Emits.trivial _) (handleEvent_steps (Emits.trivial _) n) qd.true_of pd
    trivial nd (.base hr') h5
  have qc : QInv NonPhys c := qd.steps hE st2
  have cc : c.callbacks = km.callbacks := st2.sameFrame.callbacks.trans cd
  refine deciding_steps qc cc ?_ (drainN_steps hE qc h2)
  have pc := pressLoop_pendOk (handleEvent_pendOk n) (PendOk.of_none (C := cfg K refs S) pd) h5
  rcases pressLoop_calls qd pd nd (.base hr') h5 with ⟨p, h6, hpi, h7, h8⟩ | ⟨h6, r', h7, h8⟩
  · exact Or.inl ⟨p, h6, hpi, by rw [h8, sh.2.1], by rw [h7, od, calls_waits (pc p h6), List.append_nil]⟩
  · exact Or.inr ⟨h6, r', by rw [h7, sh.2.1], by rw [h8, od, cd]⟩

/-- C19, direct press: when no key is undecided and key `idx` is up, its press leads to an outcome:
the function of a callback key is called exactly once, during the call, and nothing else is. -/
theorem C19_press {km km' : KM Ref Ev Ctx PKS KS} {n idx : Nat} (hr : Reachable (cfg K refs S) ctx km)
    (hp : km.pend = none) (hi : idx ∉ indices km.pressed)
    (h : processInputN (cfg K refs S) n km (.press idx) = .ok km') : Outcome K idx km km' :=
  press_outcome (ready_of_reachable hr) hp hi h

theorem press_callback {km km' : KM Ref Ev Ctx PKS KS} {n idx j : Nat} {cb : Callback} (hr : Ready K refs S km)
    (hp : km.pend = none) (hi : idx ∉ indices km.pressed) (hk : refs[idx]? = some (.callback j))
    (hj : K.callback[j]? = some cb) (h : processInputN (cfg K refs S) n km (.press idx) = .ok km') :
    km'.fired = km.fired ++ Spec.invoke km.callbacks cb ∧
      keys km'.pressed = keys km.pressed ++ [(idx, .callback j)] := by
  have hE := emits_nonPhys K refs S
  have hb := processInputN_empties hr.quiet.noDead hr.quiet.2 h
  obtain ⟨c, h1, h2⟩ := processInputN_direct hp h
  simp only [processDirect, Res.bind_eq_ok] at h1
  obtain ⟨d, h3, h4⟩ := h1
  have st := notifyAll_steps (Q := NonPhys) h3
  have sh := notifyAll_shape h3
  have od : owed d = owed km := owed_nonphys hr.quiet.2 hp st
  have cd : d.callbacks = km.callbacks := st.sameFrame.callbacks
  have qd := hr.phys.steps hE st
  have pd : d.pend = none := sh.1.trans hp
  have nd : hasPressed idx d.pressed = false := by rw [hasPressed_false_iff, sh.2.2.2.1]; exact hi
  rw [if_neg (by simp [nd])] at h4
  simp only [Res.bind_eq_ok] at h4
  obtain ⟨r, hr', h5⟩ := h4
  have hr2 : r = .callback j := by
    have := Res.index_eq_ok.1 hr'
    simp only [cfg] at this
    rw [hk] at this
    exact (Option.some.inj this).symm
  subst hr2
  have st2 := pressLoop_steps (Q := fun _ => True) (Emits.trivial _) (handleEvent_steps (Emits.trivial _) n) qd.true_of pd
    trivial nd (.base hr') h5
  have qc : QInv NonPhys c := qd.steps hE st2
  have key : c.pend = none ∧ keys c.pressed = keys d.pressed ++ [(idx, .callback j)] ∧
      owed c = owed d ++ Spec.invoke d.callbacks cb := by
    cases n with
    | zero => simp [pressLoop] at h5
    | succ n =>
      simp only [pressLoop, Res.bind_eq_ok] at h5
      obtain ⟨⟨pkr, es⟩, h6, s, h7, h8⟩ := h5
      obtain ⟨cb', hcb, rfl, rfl⟩ := npk_callback (idx := idx) (c := d.ctx) h6
      rw [hj] at hcb
      obtain rfl := Option.some.inj hcb
      simp only [Res.bind_eq_ok, Res.pure_eq, Res.ok.injEq] at h8
      obtain ⟨ps, h9, rfl⟩ := h8
      obtain ⟨_, rfl⟩ := pushCap_eq_ok.1 h9
      refine ⟨pd, by simp, ?_⟩
      unfold owed
      simp only
      rw [scheduleAll_owed h7]
      simp [SchEv.imm, cbOf]
  have st3 := drainN_steps hE qc h2
  have o := owed_nonphys qc.true_of key.1 st3
  rw [owed_quiet hb, key.2.2, od, cd, owed_quiet hr.quiet.1] at o
  refine ⟨o, ?_⟩
  rw [(nonphys_steps st3 key.1).2, key.2.1, sh.2.1]

/-- C19 at the level of `handle_input`: a callback key pressed when nothing is waiting. -/
theorem C19_handle_input {km km' : KM Ref Ev Ctx PKS KS} {n idx j : Nat} {cb : Callback}
    (hr : Reachable (cfg K refs S) ctx km) (hp : km.pend = none) (hq : km.inq = []) (hd : km.delay = 0)
    (hi : idx ∉ indices km.pressed) (hk : refs[idx]? = some (.callback j)) (hj : K.callback[j]? = some cb)
    (h : handleInput (cfg K refs S) n km (.press idx) = .ok km') :
    km'.fired = km.fired ++ Spec.invoke km.callbacks cb ∧
      keys km'.pressed = keys km.pressed ++ [(idx, .callback j)] := by
  have rd := ready_of_reachable hr
  unfold handleInput at h
  rw [if_neg (by simp [hq, inputCap]), if_pos hd] at h
  simp only [hq, List.nil_append, Res.bind_eq_ok, Res.pure_eq, Res.ok.injEq] at h
  obtain ⟨km1, h1, rfl⟩ := h
  exact press_callback (km' := km1) (km := { km with idle := 0, inq := [], log := km.log ++ [.press idx] })
    ⟨⟨rd.quiet.1, ⟨rd.phys.true_of.pending, rd.phys.true_of.scheduled, rd.phys.queued⟩⟩,
      ⟨rd.phys.pending, rd.phys.scheduled, rd.phys.queued⟩, rd.pend⟩ hp hi hk hj h1

/-- C19, undecided key: each input event, processed while a key is undecided, leads to an outcome for
that key. -/
theorem C19_decided {km km' : KM Ref Ev Ctx PKS KS} {n : Nat} {ie : InputEvent} {p : Pending Ref Ev PKS}
    (hr : Reachable (cfg K refs S) ctx km) (hp : km.pend = some p)
    (h : processInputN (cfg K refs S) n km ie = .ok km') : Outcome K p.idx km km' := by
  have hE := emits_nonPhys K refs S
  have rd := ready_of_reachable hr
  refine Deciding.outcome rd.quiet.1 (processInputN_empties rd.quiet.noDead rd.quiet.2 h)
    (processInputN_pendOk rd.pend h) ?_
  unfold processInputN processInput at h
  simp only [hp, Res.bind_eq_ok] at h
  obtain ⟨q, h3, km1, h4, h2⟩ := h
  have q1 : QInv NonPhys { km with pend := some { p with queued := q } } := by
    refine ⟨rd.phys.pending, rd.phys.scheduled, ?_⟩
    exact (rd.quiet.2.micro (Emits.trivial (cfg K refs S)) (.queue (Q := fun _ => True) km p ie q hp trivial h3)).queued
  have st := updatePending_steps hE (handleEvent_steps hE n) q1 h4
  have q2 := q1.steps hE st
  refine deciding_steps q2 st.sameFrame.callbacks (deciding_steps q1 rfl (Or.inl ⟨_, rfl, rfl, rfl, ?_⟩) st)
    (drainN_steps hE q2 h2)
  simp only
  rw [calls_waits (rd.pend p hp), List.append_nil]
  rfl

/-- C19, time: a tick without waiting input leads to an outcome for the undecided key. -/
theorem C19_tick_pending {km km' : KM Ref Ev Ctx PKS KS} {n : Nat} {p : Pending Ref Ev PKS}
    (hr : Reachable (cfg K refs S) ctx km) (hp : km.pend = some p) (hq : km.inq = [])
    (h : tick (cfg K refs S) n km = .ok km') : Outcome K p.idx km km' := by
  have hE := emits_nonPhys K refs S
  have rd := ready_of_reachable hr
  have nt : NoTimedCb km := (noTimedCb_api K refs S).of_reachable (by intro t ht; simp [KM.new, Sched.new] at ht) hr
  refine Deciding.outcome rd.quiet.1 (quiet_tick rd.quiet h).1 (pendOk_tick rd.pend h) ?_
  obtain ⟨s, km2, h2, h3, _, rfl⟩ := tick_noInput hq h
  have t := noTimedCb_tick h2 nt
  have q1 : QInv NonPhys { km with ctx := (cfg K refs S).sys.setCtx km.ctx km.sched.counter km.idle,
                                   delay := km.delay - 1, sched := s } :=
    (qinv_api NonPhys hE).tick { km with ctx := (cfg K refs S).sys.setCtx km.ctx km.sched.counter km.idle,
                                         delay := km.delay - 1 }
      ⟨rd.phys.pending, rd.phys.scheduled, rd.phys.queued⟩ _ s h2
  have := deciding_steps (a := km) q1 rfl (Or.inl ⟨p, hp, rfl, rfl, ?_⟩) (drainN_steps hE q1 h3)
  · exact this
  · rw [calls_waits (rd.pend p hp), List.append_nil]
    exact owed_sched km s t.2

/-- C19, nothing else calls a function: without an undecided key, releases, repeated presses and
virtual key events call nothing. -/
theorem C19_no_call {km km' : KM Ref Ev Ctx PKS KS} {n : Nat} {ie : InputEvent}
    (hr : Reachable (cfg K refs S) ctx km) (hp : km.pend = none)
    (hi : ∀ idx, ie = .press idx → idx ∈ indices km.pressed)
    (h : processInputN (cfg K refs S) n km ie = .ok km') : km'.fired = km.fired := by
  have hE := emits_nonPhys K refs S
  have rd := ready_of_reachable hr
  have e := processInputN_empties rd.quiet.noDead rd.quiet.2 h
  obtain ⟨c, h1, h2⟩ := processInputN_direct hp h
  simp only [processDirect, Res.bind_eq_ok] at h1
  obtain ⟨d, h3, h4⟩ := h1
  have st := notifyAll_steps (Q := NonPhys) h3
  have sh := notifyAll_shape h3
  have od : owed d = owed km := owed_nonphys rd.quiet.2 hp st
  have qd := rd.phys.steps hE st
  have pd : d.pend = none := sh.1.trans hp
  have key : c.pend = none ∧ QInv NonPhys c ∧ owed c = owed d := by
    cases ie with
    | press idx =>
      have : hasPressed idx d.pressed = true := by rw [hasPressed_iff, sh.2.2.2.1]; exact hi idx rfl
      simp only [this, if_true, Res.pure_eq, Res.ok.injEq] at h4
      subst h4
      exact ⟨pd, qd, rfl⟩
    | release idx =>
      simp only [Res.pure_eq, Res.ok.injEq] at h4; subst h4
      exact ⟨pd, ⟨qd.pending, qd.scheduled, qd.queued⟩, rfl⟩
    | vpress ko =>
      simp only [Res.bind_eq_ok, Res.pure_eq, Res.ok.injEq] at h4
      obtain ⟨ps, _, rfl⟩ := h4
      exact ⟨pd, ⟨qd.pending, qd.scheduled, qd.queued⟩, rfl⟩
    | vrelease ko =>
      simp only [Res.pure_eq, Res.ok.injEq] at h4; subst h4
      exact ⟨pd, ⟨qd.pending, qd.scheduled, qd.queued⟩, rfl⟩
  have o := owed_nonphys key.2.1.true_of key.1 (drainN_steps hE key.2.1 h2)
  rw [owed_quiet e, key.2.2, od, owed_quiet rd.quiet.1] at o
  exact o

/-- C19, nothing else calls a function: a tick without an undecided key and waiting input. -/
theorem C19_tick_no_call {km km' : KM Ref Ev Ctx PKS KS} {n : Nat}
    (hr : Reachable (cfg K refs S) ctx km) (hp : km.pend = none) (hq : km.inq = [])
    (h : tick (cfg K refs S) n km = .ok km') : km'.fired = km.fired := by
  have hE := emits_nonPhys K refs S
  have rd := ready_of_reachable hr
  have nt : NoTimedCb km := (noTimedCb_api K refs S).of_reachable (by intro t ht; simp [KM.new, Sched.new] at ht) hr
  have e := (quiet_tick rd.quiet h).1
  obtain ⟨s, km2, h2, h3, _, rfl⟩ := tick_noInput hq h
  replace e : km2.sched.pending = [] := e
  have t := noTimedCb_tick h2 nt
  have q1 : QInv NonPhys { km with ctx := (cfg K refs S).sys.setCtx km.ctx km.sched.counter km.idle,
                                   delay := km.delay - 1, sched := s } :=
    (qinv_api NonPhys hE).tick { km with ctx := (cfg K refs S).sys.setCtx km.ctx km.sched.counter km.idle,
                                         delay := km.delay - 1 }
      ⟨rd.phys.pending, rd.phys.scheduled, rd.phys.queued⟩ _ s h2
  have o := owed_nonphys q1.true_of hp (drainN_steps hE q1 h3)
  have o2 := owed_sched km s t.2
  rw [owed_quiet e] at o
  rw [owed_quiet rd.quiet.1] at o2
  exact o.trans o2

theorem pressRef_leads {idx : Nat} {r : Ref} (h : PressRef (cfg K refs S) idx r) :
    ∀ r', Leads K r r' → ∃ r0, refs[idx]? = some r0 ∧ Leads K r0 r' := by
  induction h with
  | base hr => exact fun r' hl => ⟨_, Res.index_eq_ok.1 hr, hl⟩
  | step h1 h2 ih =>
    rename_i r0 r1 c es
    intro r' hl
    exact ih r' (.step (npk_child (idx := idx) (c := c) (es := es) h2) hl)

/-- The press of a key that leads to a callback is not among the events. -/
def NoCallbackPress (K : Keys) (refs : List Ref) (e : Event Ev) : Prop :=
  ∀ idx r j, e = .input (.press idx) → refs[idx]? = some r → ¬ Leads K r (.callback j)

/-- No callback is due, now or later. -/
structure Silent (K : Keys) (F : List (Callback × Nat)) (km : KM Ref Ev Ctx PKS KS) : Prop where
  fired : km.fired = F
  owed : owedCbs km.sched.pending = []
  timed : NoTimedCb km
  pend : ∀ p, km.pend = some p → ∀ j, ¬ Leads K p.ref (.callback j)

theorem silent_call (F : List (Callback × Nat)) : CallInv (cfg K refs S) (NoCallbackPress K refs) (Silent K F) where
  micro := by
    intro a b h hq m
    have nt := noTimedCb_micro h.timed hq.q.true_of m
    have npk : ∀ {idx c r x es s}, newPressedKey K idx c r = .ok (x, es) → a.sched.scheduleAll S es = .ok s →
        (∀ j, ¬ Leads K r (.callback j)) → owedCbs s.pending = [] := by
      intro idx c r x es s h1 hs hl
      rcases npk_cb_cases h1 with h1 | ⟨j, cb, rfl, hj, rfl⟩
      · rw [scheduleAll_noCb hs h1, h.owed]
      · exact absurd (.refl _) (hl j)
    have press : ∀ {idx r}, NoCallbackPress K refs (.input (.press idx)) → PressRef (cfg K refs S) idx r →
        ∀ j, ¬ Leads K r (.callback j) := by
      intro idx r hQ hb j hl
      obtain ⟨r0, h0, h1⟩ := pressRef_leads hb _ hl
      exact hQ idx r0 j rfl h0 h1
    cases m with
    | updKey ev pre i r ks post ks' es s hp hu hs =>
      exact ⟨h.fired, (scheduleAll_noCb hs (state_noCb (c := a.ctx) hu)).trans h.owed, nt, h.pend⟩
    | ctxEv ev ctx es s hu hs => exact ⟨h.fired, (scheduleAll_noCb hs (ctx_noCb hu)).trans h.owed, nt, h.pend⟩
    | take ev s hd =>
      have e := (Sched.dequeue_some hd).1
      have ho := h.owed
      rw [e] at ho
      simp only [owedCbs, List.append_eq_nil_iff] at ho
      refine ⟨?_, by simpa using ho.2, nt, by simpa using h.pend⟩
      rw [fire_fired]
      simp [ho.1, h.fired]
    | takeNone s hd =>
      refine ⟨h.fired, ?_, nt, h.pend⟩
      rcases Sched.dequeue_none hd with ⟨_, rfl⟩ | ⟨h1, h2, _⟩
      · exact h.owed
      · have ho := h.owed
        rw [h1] at ho
        exact ho
    | pendUpd ev p pks npk es s hp hu hs =>
      refine ⟨h.fired, (scheduleAll_noCb hs (pend_noCb hu)).trans h.owed, nt, ?_⟩
      intro p' hp'
      simp only [Option.some.injEq] at hp'
      subst hp'
      exact h.pend p hp
    | pendNpk p r pkr es s hp hu hs hb =>
      have hl : ∀ j, ¬ Leads K r (.callback j) := fun j hl => h.pend p hp j (.step (becomes_child hb) hl)
      refine ⟨h.fired, npk (idx := p.idx) (c := a.ctx) hu hs hl, nt, ?_⟩
      intro p' hp'
      simp only [Option.some.injEq] at hp'
      subst hp'
      exact hl
    | pendSwap p pks q q' hp h1 h2 hb =>
      refine ⟨h.fired, h.owed, nt, ?_⟩
      intro p' hp'
      simp only [Option.some.injEq] at hp'
      subst hp'
      exact h.pend p hp
    | resolve p ks km' hp hf he =>
      obtain ⟨_, _, rfl⟩ := resolveEnter_spec (hq.q.queued p hp) he
      exact ⟨h.fired, h.owed, nt, by simp⟩
    | queue p ie q hp hQ hc =>
      refine ⟨h.fired, h.owed, nt, ?_⟩
      intro p' hp'
      simp only [Option.some.injEq] at hp'
      subst hp'
      exact h.pend p hp
    | npk idx r pkr es s hp hQ hn hu hs hb =>
      exact ⟨h.fired, npk (idx := idx) (c := a.ctx) hu hs (press hQ hb), nt, h.pend⟩
    | startPend idx r pks hp hQ hn hb hi =>
      refine ⟨h.fired, h.owed, nt, ?_⟩
      intro p' hp'
      simp only [Option.some.injEq] at hp'
      subst hp'
      exact press hQ hb
    | _ => exact ⟨h.fired, h.owed, nt, h.pend⟩
  frame := fun a h _ _ _ _ _ => ⟨h.fired, h.owed, h.timed, h.pend⟩
  enq := fun a h _ _ _ => ⟨h.fired, h.owed, h.timed, h.pend⟩
  deq := fun a h _ _ _ => ⟨h.fired, h.owed, h.timed, h.pend⟩
  ctx := fun a h _ _ => ⟨h.fired, h.owed, h.timed, h.pend⟩
  tick := fun a h d s hs =>
    have t := noTimedCb_tick hs h.timed
    ⟨h.fired, t.2.trans h.owed, t.1, h.pend⟩

theorem inputs_mem {ops : List Op} {op : Op} (h : op ∈ ops) {ev : InputEvent}
    (he : op = .input ev ∨ ∃ d, op = .inputAfter d ev) : ev ∈ Spec.inputs ops := by
  induction ops with
  | nil => simp at h
  | cons o ops ih =>
    rcases List.mem_cons.1 h with rfl | hm
    · rcases he with rfl | ⟨d, rfl⟩ <;> simp [Spec.inputs]
    · cases o <;> simp [Spec.inputs, ih hm]

/-- C19, other keys: a history in which no callback key is pressed, nor a key that may turn out to
be one, calls no function. -/
theorem C19_other_keys_silent {km : KM Ref Ev Ctx PKS KS} {n : Nat} {ops : List Op}
    (h : run (cfg K refs S) n (KM.new ctx) ops = .ok km) (hi : Op.init ∉ ops)
    (ho : ∀ idx r j, .press idx ∈ Spec.inputs ops → refs[idx]? = some r → ¬ Leads K r (.callback j)) : km.fired = [] := by
  have hE : Emits (cfg K refs S) (NoCallbackPress K refs) := by
    refine (emits_nonPhys K refs S).weaken ?_
    intro e he idx r j hp
    subst hp
    simp [NonPhys, Spec.physical] at he
  refine ((silent_call []).run hE ?_ ⟨⟨rfl, rfl, by intro t ht; simp [KM.new, Sched.new] at ht, by simp [KM.new]⟩,
    ⟨QInv.new _ _, by simp [KM.new], by simp [KM.new]⟩⟩ h).1.fired
  intro op hop
  cases op with
  | input ev =>
    intro idx r j he hr
    simp only [Event.input.injEq] at he
    subst he
    exact ho idx r j (inputs_mem hop (Or.inl rfl)) hr
  | inputAfter d ev =>
    intro idx r j he hr
    simp only [Event.input.injEq] at he
    subst he
    exact ho idx r j (inputs_mem hop (Or.inr ⟨d, rfl⟩)) hr
  | init => exact hi hop
  | _ => trivial

/-- The callback key of the example keymap (index 6), pressed twice, with functions 1 and 2
registered one after the other for `reset`. -/
example : ((fun km => (km.fired, km.pend.isNone, km.inq, km.delay)) <$> run Ex.C 9 Ex.km0
    [.setCallback .reset 1, .setCallback .reset 2, .input (.press 6), .tick, .input (.release 6), .tick,
     .input (.press 6), .tick]) = .ok ([(.reset, 2), (.reset, 2)], true, [], 0) := by decide +kernel

/-- Without a registration nothing is called. -/
example : ((fun km => (km.fired, indices km.pressed)) <$> run Ex.C 9 Ex.km0
    [.setCallback .resetToBootloader 1, .input (.press 6), .tick]) = .ok ([], [6]) := by decide +kernel

/-- Another key that does not lead to a callback: the tap-hold key. -/
example (j : Nat) : ¬ Leads Ex.K (.tapHold 0) (.callback j) := by
  intro h
  cases h with
  | step hc hl =>
    cases hc with
    | tap hk =>
      simp only [Ex.K, List.getElem?_cons_zero, Option.some.injEq] at hk
      subst hk
      cases hl with | step hc _ => cases hc
    | hold hk =>
      simp only [Ex.K, List.getElem?_cons_zero, Option.some.injEq] at hk
      subst hk
      cases hl with | step hc _ => cases hc

end Comp
end Verif
