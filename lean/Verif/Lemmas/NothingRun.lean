import Verif.Lemmas.Nothing
import Verif.Spec.Nothing

/-! # The balance of virtual keys is kept by every call -/

namespace Verif.Nothing

open Comp
open _root_.Verif.Spec (virtuals)

abbrev CKM := KM Ref Ev Comp.Ctx PKS KS

/-! ## Counting -/

/-- How often the virtual key counts as pressed after the event. -/
def upd (ko : KeyOutput) (c : Nat) : Event Ev → Nat
  | .input (.vpress k) => if k = ko then c + 1 else c
  | .input (.vrelease k) => if k = ko then c - 1 else c
  | _ => c

def after (ko : KeyOutput) (c : Nat) (l : List (Event Ev)) : Nat := l.foldl (upd ko) c

theorem after_append (ko : KeyOutput) (c : Nat) (l m : List (Event Ev)) : after ko c (l ++ m) = after ko (after ko c l) m := List.foldl_append

theorem upd_tame {ko : KeyOutput} {c : Nat} {e : Event Ev} (h : ∀ ie, e ≠ .input ie) : upd ko c e = c := by
  rcases e with (_ | _ | _ | _) | _ | _ <;> simp_all [upd]

theorem tame_input {e : Event Ev} (h : tame e = true) : ∀ ie, e ≠ .input ie := by
  rintro ie rfl; simp [tame] at h

theorem after_tame {ko : KeyOutput} {c : Nat} {l : List (Event Ev)} (h : ∀ e ∈ l, tame e = true) : after ko c l = c := by
  induction l generalizing c with
  | nil => rfl
  | cons e l ih =>
    show after ko (upd ko c e) l = c
    rw [upd_tame (tame_input (h e (by simp)))]
    exact ih (fun x hx => h x (by simp [hx]))

/-- "Enable caps-word". -/
def isEnable : Event Ev → Bool
  | .key _ (.capsWord .enable) => true
  | _ => false

def enables (l : List (Event Ev)) : Nat := l.countP isEnable

theorem enables_tame {l : List (Event Ev)} (h : ∀ e ∈ l, tame e = true) : enables l = 0 := by
  unfold enables
  rw [List.countP_eq_zero]
  intro e he
  have := h e he
  rcases e with _ | ⟨_, _ | _ | _ | _ | _ | _ | _⟩ | _ <;> simp_all [tame, plain, isEnable]

/-- The events that wait to be handled. -/
def waiting (s : Sched Ev) : List (Event Ev) := s.pending.filterMap id

/-- The scheduled releases of the virtual key. -/
def due (ko : KeyOutput) (l : List (Timed Ev)) : Nat := l.countP fun t => t.live && decide (t.event = .input (.vrelease ko))

/-- Caps-word owes the release of its shift while it is active. -/
def owed (ko : KeyOutput) (active : Bool) : Nat := if active = true ∧ ko = CapsWord.shift then 1 else 0

def virts (ko : KeyOutput) (ps : List (PressedInput Ref KS)) : Nat := (virtuals ps).count ko

/-! ## Scheduling -/

def imms (es : KeyEvents Ev) : List (Event Ev) := es.filterMap fun e => match e.schedule with | .immediate => some e.event | .after _ => none

def dues (ko : KeyOutput) (es : KeyEvents Ev) : Nat :=
  es.countP fun e => match e.schedule with | .immediate => false | .after _ => decide (e.event = .input (.vrelease ko))

theorem scheduleAll_spec {S : Search} {es : KeyEvents Ev} {s s' : Sched Ev} (h : s.scheduleAll S es = .ok s') :
    s'.pending = s.pending ++ (imms es).map some ∧ (∀ ko, due ko s'.scheduled = due ko s.scheduled + dues ko es) ∧
    ∀ t ∈ s'.scheduled, t ∈ s.scheduled ∨ ∃ e ∈ es, e.schedule ≠ .immediate ∧ e.event = t.event := by
  induction es generalizing s with
  | nil =>
    simp only [Sched.scheduleAll, Res.ok.injEq] at h; subst h
    exact ⟨by simp [imms], fun ko => by simp [dues], fun t ht => .inl ht⟩
  | cons e es ih =>
    simp only [Sched.scheduleAll, Res.bind_eq_ok] at h
    obtain ⟨s1, h1, h2⟩ := h
    obtain ⟨e1, e2, e3⟩ := ih h2
    rcases Sched.scheduleEvent_cases h1 with ⟨hi, _, rfl⟩ | ⟨d, hd, h3⟩
    · refine ⟨?_, fun ko => ?_, fun t ht => ?_⟩
      · rw [e1]; simp [imms, hi]
      · rw [e2]; simp [dues, hi]
      · rcases e3 t ht with h | ⟨x, hx, h⟩
        · exact .inl h
        · exact .inr ⟨x, by simp [hx], h⟩
    · obtain ⟨p1, _, p3, _⟩ := Sched.scheduleAfter_spec h3
      refine ⟨?_, fun ko => ?_, fun t ht => ?_⟩
      · rw [e1, p1]; simp [imms, hd]
      · rw [e2]
        have : due ko s1.scheduled = due ko s.scheduled + (if e.event = .input (.vrelease ko) then 1 else 0) := by
          unfold due
          rw [p3.countP_eq, List.countP_cons]
          simp
        rw [this]
        simp only [dues, List.countP_cons, hd]
        simp only [decide_eq_true_eq]
        omega
      · rcases e3 t ht with h | ⟨x, hx, h⟩
        · rcases List.mem_cons.1 (p3.mem_iff.1 h) with rfl | h
          · exact .inr ⟨e, by simp, by simp [hd], rfl⟩
          · exact .inl h
        · exact .inr ⟨x, by simp [hx], h⟩

theorem scheduleAll_append {S : Search} {es fs : KeyEvents Ev} {s s1 s2 : Sched Ev} (h1 : s.scheduleAll S es = .ok s1)
    (h2 : s1.scheduleAll S fs = .ok s2) : s.scheduleAll S (es ++ fs) = .ok s2 := by
  induction es generalizing s with
  | nil => simp only [Sched.scheduleAll, Res.ok.injEq] at h1; subst h1; exact h2
  | cons e es ih =>
    simp only [Sched.scheduleAll, Res.bind_eq_ok] at h1
    obtain ⟨s0, h0, h1⟩ := h1
    simp only [List.cons_append, Sched.scheduleAll, Res.bind_eq_ok]
    exact ⟨s0, h0, ih h1⟩

theorem imms_tame {es : KeyEvents Ev} (h : AllTame es) : ∀ e ∈ imms es, tame e = true := by
  intro e he
  simp only [imms, List.mem_filterMap] at he
  obtain ⟨x, hx, hh⟩ := he
  split at hh
  · simp only [Option.some.injEq] at hh; subst hh; exact h x hx
  · simp at hh

theorem dues_tame {ko : KeyOutput} {es : KeyEvents Ev} (h : AllTame es) : dues ko es = 0 := by
  unfold dues
  rw [List.countP_eq_zero]
  intro e he
  have := tame_input (h e he)
  split
  · simp
  · simpa using this _

theorem waiting_sched {S : Search} {es : KeyEvents Ev} {s s' : Sched Ev} (h : s.scheduleAll S es = .ok s') :
    waiting s' = waiting s ++ imms es := by
  unfold waiting
  rw [(scheduleAll_spec h).1]
  simp [List.filterMap_append, List.filterMap_map]

theorem notifyPressed_tame {K : Keys} (hk : K.sticky = []) {refs : List Ref} {S : Search} {ctx : Ctx} {ev : Event Ev} {ps ps' : List (PressedInput Ref KS)}
    {s s' : Sched Ev} (h : notifyPressed (cfg K refs S) ctx ev ps s = .ok (ps', s')) :
    virtuals ps' = virtuals ps ∧ ∃ es, AllTame es ∧ s.scheduleAll S es = .ok s' := by
  induction ps generalizing ps' s with
  | nil =>
    simp only [notifyPressed, Res.ok.injEq, Prod.mk.injEq] at h
    obtain ⟨rfl, rfl⟩ := h
    exact ⟨rfl, [], .nil, rfl⟩
  | cons x ps ih =>
    cases x with
    | virt ko =>
      simp only [notifyPressed, Res.bind_eq_ok, Res.pure_eq, Res.ok.injEq, Prod.mk.injEq] at h
      obtain ⟨⟨qs, s1⟩, h1, rfl, rfl⟩ := h
      obtain ⟨e1, e2⟩ := ih h1
      exact ⟨by simp [virtuals] at e1 ⊢; exact e1, e2⟩
    | key i r ks =>
      simp only [notifyPressed, Res.bind_eq_ok, Res.pure_eq, Res.ok.injEq, Prod.mk.injEq] at h
      obtain ⟨⟨ks', es⟩, h0, s1, hs, ⟨qs, s2⟩, h1, rfl, rfl⟩ := h
      obtain ⟨e1, es2, t2, e2⟩ := ih h1
      refine ⟨by simp [virtuals] at e1 ⊢; exact e1, es ++ es2, ?_, scheduleAll_append hs e2⟩
      have t1 := state_calm (c := ctx) hk h0
      intro e he
      rcases List.mem_append.1 he with he | he
      · exact t1 e he
      · exact t2 e he

/-! ## The balance -/

/-- `H` are events in hand, that come before those that wait. -/
structure J (loud : Prop) (H : List (Event Ev)) (km : CKM) : Prop where
  bound : ∀ ko, after ko (virts ko km.pressed) (H ++ waiting km.sched) ≤ due ko km.sched.scheduled + owed ko km.ctx.capsWord.active
  caps : enables (H ++ waiting km.sched) + km.ctx.capsWord.active.toNat ≤ 1
  events : ∀ e ∈ H ++ waiting km.sched, calm e = true
  whole : none ∉ km.sched.pending
  sched : ∀ t ∈ km.sched.scheduled, tame t.event = true ∨ (loud ∧ ∃ ko, t.event = .input (.vrelease ko))
  free : km.pend ≠ none → ¬loud ∧ ∀ e ∈ H ++ waiting km.sched, tame e = true
  queued : ∀ p, km.pend = some p → ∀ e ∈ p.queued, ∃ ie, e = .input ie ∧ calm (.input ie) = false
  inq : ∀ ie ∈ km.inq, calm (.input ie) = false
  macros : Macros loud km.ctx.automation.config.instructions
  sticky : km.ctx.sticky.active = []

variable {K : Keys} {refs : List Ref} {S : Search} {loud : Prop}

/-- Tame events are scheduled. -/
theorem J.schedule {H : List (Event Ev)} {a : CKM} (hj : J loud H a) {es : KeyEvents Ev} (ht : AllTame es) {s : Sched Ev}
    (h : a.sched.scheduleAll S es = .ok s) {ps : List (PressedInput Ref KS)} (hp : virtuals ps = virtuals a.pressed) :
    J loud H { a with sched := s, pressed := ps } := by
  obtain ⟨e1, e2, e3⟩ := scheduleAll_spec h
  have e4 := waiting_sched h
  have t := imms_tame ht
  refine ⟨fun ko => ?_, ?_, ?_, ?_, ?_, ?_, hj.queued, hj.inq, hj.macros, hj.sticky⟩
  · show after ko (virts ko ps) (H ++ waiting s) ≤ due ko s.scheduled + _
    rw [e4, e2, dues_tame ht, ← List.append_assoc, after_append _ _ (H ++ _), after_tame t]
    simpa [virts, hp] using hj.bound ko
  · show enables (H ++ waiting s) + _ ≤ 1
    have := hj.caps
    rw [e4, ← List.append_assoc]
    unfold enables at *
    rw [List.countP_append, show List.countP isEnable (imms es) = 0 from enables_tame t]
    exact this
  · show ∀ e ∈ H ++ waiting s, _
    rw [e4, ← List.append_assoc]
    intro e he
    rcases List.mem_append.1 he with he | he
    · exact hj.events e he
    · exact tame_calm (t e he)
  · show none ∉ s.pending
    rw [e1]
    simpa using hj.whole
  · intro x hx
    rcases e3 x hx with hx | ⟨e, he, _, h⟩
    · exact hj.sched x hx
    · rw [← h]; exact .inl (ht e he)
  · intro hp'
    refine ⟨(hj.free hp').1, ?_⟩
    show ∀ e ∈ H ++ waiting s, _
    rw [e4, ← List.append_assoc]
    intro e he
    rcases List.mem_append.1 he with he | he
    · exact (hj.free hp').2 e he
    · exact t e he

/-- Nothing that matters has changed. -/
theorem J.of_eq {H : List (Event Ev)} {a b : CKM} (hj : J loud H a) (hp : virtuals b.pressed = virtuals a.pressed) (h1 : b.sched.pending = a.sched.pending)
    (h2 : ∀ ko, due ko b.sched.scheduled = due ko a.sched.scheduled) (h3 : ∀ t ∈ b.sched.scheduled, ∃ u ∈ a.sched.scheduled, u.event = t.event)
    (hc : b.ctx = a.ctx) (hpend : b.pend = a.pend) (hi : ∀ ie ∈ b.inq, calm (.input ie) = false) : J loud H b := by
  have w : waiting b.sched = waiting a.sched := by unfold waiting; rw [h1]
  refine ⟨fun ko => ?_, ?_, ?_, ?_, ?_, ?_, ?_, hi, ?_, ?_⟩
  · rw [w, h2, hc]; simpa [virts, hp] using hj.bound ko
  · rw [w, hc]; exact hj.caps
  · rw [w]; exact hj.events
  · rw [h1]; exact hj.whole
  · intro t ht
    obtain ⟨u, hu, e⟩ := h3 t ht
    rw [← e]; exact hj.sched u hu
  · rw [hpend, w]; exact hj.free
  · rw [hpend]; exact hj.queued
  · rw [hc]; exact hj.macros
  · rw [hc]; exact hj.sticky

theorem due_cancel (ko : KeyOutput) (i : Nat) (l : List (Timed Ev)) : due ko (l.map (Sched.cancelOne i)) = due ko l := by
  unfold due
  rw [List.countP_map]
  apply List.countP_congr
  intro t _
  obtain ⟨tm, e, lv⟩ := t
  rcases e with ie | ⟨j, x⟩ | ke
  · simp [Sched.cancelOne]
  · simp only [Function.comp, Sched.cancelOne_event]
    simp
  · simp [Sched.cancelOne]

/-- An event that is in hand or not is told to the keys and to the context: an input event, or a tame one. -/
theorem notify_same (hk : K.sticky = []) {H : List (Event Ev)} {a b : CKM} {ev : Event Ev} (hj : J loud H a)
    (hev : (∃ ie, ev = .input ie) ∨ tame ev = true) (h : notifyAll (cfg K refs S) a ev = .ok b) :
    J loud H b ∧ b.pend = a.pend ∧ b.inq = a.inq ∧ ((∃ ie, ev = .input ie) → (∀ e ∈ waiting a.sched, tame e = true) → ∀ e ∈ waiting b.sched, tame e = true) := by
  simp only [notifyAll, Res.bind_eq_ok, Res.pure_eq, Res.ok.injEq] at h
  obtain ⟨⟨ps, s⟩, h1, ⟨ctx, es⟩, h2, s', h3, rfl⟩ := h
  obtain ⟨hp, es0, t0, h0⟩ := notifyPressed_tame hk h1
  have j1 := hj.schedule t0 h0 hp
  have w0 := waiting_sched h0
  obtain ⟨em, hs, hcfg⟩ := ctx_emits (loud := loud) hj.sticky hj.macros (by
    rintro i e rfl
    rcases hev with ⟨_, h⟩ | h
    · cases h
    · simp [tame, plain] at h) h2
  have w3 : waiting s' = waiting s ++ imms es := waiting_sched h3
  suffices hh : J loud H { a with pressed := ps, sched := s', ctx := ctx } ∧ ((∃ ie, ev = .input ie) → AllTame es) by
    refine ⟨hh.1, rfl, rfl, fun hi hw e he => ?_⟩
    rw [show waiting ({ a with pressed := ps, sched := s', ctx := ctx } : CKM).sched = waiting s' from rfl, w3, w0] at he
    simp only [List.mem_append] at he
    rcases he with (he | he) | he
    · exact hw e he
    · exact imms_tame t0 e he
    · exact imms_tame (hh.2 hi) e he
  have ctxOf : ∀ {c : CKM}, J loud H c → c.ctx = a.ctx → ctx.capsWord.active = a.ctx.capsWord.active → J loud H { c with ctx := ctx } := by
    intro c hc e1 e2
    refine ⟨?_, ?_, hc.events, hc.whole, hc.sched, hc.free, hc.queued, hc.inq, ?_, hs⟩
    · show ∀ ko, _ ≤ _ + owed ko ctx.capsWord.active
      rw [e2, ← e1]; exact hc.bound
    · show _ + ctx.capsWord.active.toNat ≤ 1
      rw [e2, ← e1]; exact hc.caps
    · show Macros loud ctx.automation.config.instructions
      rw [hcfg, ← e1]; exact hc.macros
  generalize hact : ctx.capsWord.active = act at em
  generalize hact0 : a.ctx.capsWord.active = act0 at em
  cases em with
  | tame t =>
    have := j1.schedule t h3 (ps := ps) rfl
    exact ⟨ctxOf this rfl (hact.trans hact0.symm), fun _ => t⟩
  | on i => rcases hev with ⟨_, h⟩ | h <;> simp [tame, plain] at h
  | off hf hi _ =>
    rcases hev with ⟨ie, h⟩ | h
    · exact absurd h (hi ie)
    · rw [hf] at h; cases h
  | @tap _ rest ko d hl ht hr =>
    refine ⟨ctxOf (c := { a with pressed := ps, sched := s' }) ?_ rfl (hact.trans hact0.symm), ?_⟩
    · have pn : a.pend = none := by
        cases hpd : a.pend with
        | none => rfl
        | some p => exact absurd hl (hj.free (by rw [hpd]; simp)).1
      obtain ⟨e1, e2, e3⟩ := scheduleAll_spec h3
      have wi : imms (SchEv.imm (.input (.vpress ko)) :: SchEv.after d (.input (.vrelease ko)) :: rest) = .input (.vpress ko) :: imms rest := by
        simp [imms, SchEv.imm, SchEv.after]
      rw [wi] at w3 e1
      have du : ∀ k, dues k (SchEv.imm (.input (.vpress ko)) :: SchEv.after d (.input (.vrelease ko)) :: rest) = if ko = k then 1 else 0 := by
        intro k
        have := dues_tame (ko := k) hr
        unfold dues at this ⊢
        simp only [List.countP_cons, SchEv.imm, SchEv.after, this]
        simp
      have tr := imms_tame hr
      refine ⟨fun k => ?_, ?_, ?_, ?_, ?_, fun h => absurd pn h, j1.queued, j1.inq, j1.macros, j1.sticky⟩
      · have b1 := j1.bound k
        show after k (virts k ps) (H ++ waiting s') ≤ due k s'.scheduled + owed k a.ctx.capsWord.active
        rw [w3, e2, du, ← List.append_assoc, after_append]
        show after k (upd k _ _) (imms rest) ≤ _
        rw [after_tame tr]
        simp only [upd]
        simp only at b1
        split <;> omega
      · have := j1.caps
        show enables (H ++ waiting s') + _ ≤ 1
        rw [w3, ← List.append_assoc]
        unfold enables at *
        rw [List.countP_append, List.countP_cons, show List.countP isEnable (imms rest) = 0 from enables_tame tr]
        simpa [isEnable] using this
      · show ∀ e ∈ H ++ waiting s', _
        rw [w3, ← List.append_assoc]
        intro e he
        rcases List.mem_append.1 he with he | he
        · exact j1.events e he
        · rcases List.mem_cons.1 he with rfl | he
          · rfl
          · exact tame_calm (tr e he)
      · show none ∉ s'.pending
        rw [e1]
        simpa using j1.whole
      · intro t ht'
        rcases e3 t ht' with h | ⟨e, he, hn, h⟩
        · exact j1.sched t h
        · rw [← h]
          rcases List.mem_cons.1 he with rfl | he
          · simp [SchEv.imm] at hn
          · rcases List.mem_cons.1 he with rfl | he
            · exact .inr ⟨hl, ko, rfl⟩
            · exact .inl (hr e he)
    · rintro ⟨ie, rfl⟩
      simp [Nothing.tame] at ht

/-- An event that is not an input event, and is not tame, is told to the keys and to the context. -/
theorem notify_wild (hk : K.sticky = []) {a b : CKM} {ev : Event Ev} (hj : J loud [ev] a) (hp0 : a.pend = none)
    (hi : ∀ ie, ev ≠ .input ie) (h : notifyAll (cfg K refs S) a ev = .ok b) : J loud [] b ∧ b.pend = none := by
  have hcalm := hj.events ev (by simp)
  simp only [notifyAll, Res.bind_eq_ok, Res.pure_eq, Res.ok.injEq] at h
  obtain ⟨⟨ps, s⟩, h1, ⟨ctx, es⟩, h2, s', h3, rfl⟩ := h
  obtain ⟨hp, es0, t0, h0⟩ := notifyPressed_tame hk h1
  have j1 := hj.schedule t0 h0 hp
  obtain ⟨em, hs, hcfg⟩ := ctx_emits (loud := loud) hj.sticky hj.macros (by
    rintro i e rfl
    simp [calm] at hcalm) h2
  refine ⟨?_, hp0⟩
  have w3 : waiting s' = waiting s ++ imms es := waiting_sched h3
  obtain ⟨e1, e2, e3⟩ := scheduleAll_spec h3
  have b1 : ∀ ko, after ko (virts ko ps) (waiting s) ≤ due ko s.scheduled + owed ko a.ctx.capsWord.active := by
    intro ko
    have := j1.bound ko
    rwa [show ([ev] ++ waiting ({ a with sched := s, pressed := ps } : CKM).sched) = ev :: waiting s from rfl,
      show after ko (virts ko ({ a with sched := s, pressed := ps } : CKM).pressed) (ev :: waiting s) = after ko (upd ko (virts ko ps) ev) (waiting s) from rfl, upd_tame hi] at this
  have c1 : enables (waiting s) + (if isEnable ev then 1 else 0) + a.ctx.capsWord.active.toNat ≤ 1 := by
    have := j1.caps
    unfold enables at *
    rw [show ([ev] ++ waiting ({ a with sched := s, pressed := ps } : CKM).sched) = ev :: waiting s from rfl, List.countP_cons] at this
    exact this
  have v1 : ∀ e ∈ waiting s, calm e = true := fun e he => j1.events e (by simp [he])
  have main : (∀ ko, after ko (virts ko ps) (waiting s') ≤ due ko s'.scheduled + owed ko ctx.capsWord.active) →
      enables (waiting s') + ctx.capsWord.active.toNat ≤ 1 → (∀ e ∈ imms es, calm e = true) →
      (∀ e ∈ es, e.schedule ≠ .immediate → tame e.event = true ∨ (loud ∧ ∃ ko, e.event = .input (.vrelease ko))) →
      J loud [] { a with pressed := ps, sched := s', ctx := ctx } := by
    intro m1 m2 m3 m4
    refine ⟨m1, m2, ?_, ?_, ?_, fun h => absurd hp0 h, j1.queued, j1.inq, ?_, hs⟩
    · show ∀ e ∈ waiting s', _
      rw [w3]
      intro e he
      rcases List.mem_append.1 he with he | he
      · exact v1 e he
      · exact m3 e he
    · show none ∉ s'.pending
      rw [e1]; simpa using j1.whole
    · intro t ht
      rcases e3 t ht with h | ⟨e, he, hn, h⟩
      · exact j1.sched t h
      · rw [← h]; exact m4 e he hn
    · show Macros loud ctx.automation.config.instructions
      rw [hcfg]; exact hj.macros
  generalize hact : ctx.capsWord.active = act at em main
  generalize hact0 : a.ctx.capsWord.active = act0 at em b1 c1
  have enab : enables (waiting s') = enables (waiting s) + enables (imms es) := by unfold enables; rw [w3, List.countP_append]
  cases em with
  | tame t =>
    have ti := imms_tame t
    refine main (fun ko => ?_) ?_ (fun e he => tame_calm (ti e he)) (fun e he _ => .inl (t e he))
    · rw [w3, after_append, after_tame ti, e2, dues_tame t]; exact b1 ko
    · rw [enab, enables_tame ti]; omega
  | on i =>
    have c2 : enables (waiting s) = 0 ∧ act0 = false := by
      cases act0 <;> simp [isEnable] at c1 ⊢
      omega
    refine main (fun ko => ?_) ?_ ?_ ?_
    · have := b1 ko
      rw [w3, after_append, e2]
      simp only [c2.2, owed, imms, dues, SchEv.imm, List.filterMap_cons, List.filterMap_nil, List.countP_cons, List.countP_nil, after, List.foldl_cons, List.foldl_nil, upd] at this ⊢
      by_cases e : ko = CapsWord.shift
      · simp [e] at this ⊢; omega
      · simp [e, Ne.symm e] at this ⊢; omega
    · rw [enab, c2.1]; simp [imms, SchEv.imm, enables, isEnable]
    · simp [imms, SchEv.imm, calm]
    · simp [SchEv.imm]
  | off hf hi' he' =>
    have ne : isEnable ev = false := by
      rcases ev with _ | ⟨_, x⟩ | _
      · rfl
      · cases x <;> try rfl
        rename_i i e
        cases e
        · exact absurd rfl (he' i)
        · rfl
      · rfl
    refine main (fun ko => ?_) ?_ ?_ ?_
    · have := b1 ko
      rw [w3, after_append, e2]
      simp only [owed, imms, dues, SchEv.imm, List.filterMap_cons, List.filterMap_nil, List.countP_cons, List.countP_nil, after, List.foldl_cons, List.foldl_nil, upd] at this ⊢
      by_cases e : ko = CapsWord.shift
      · simp [e] at this ⊢; split at this <;> omega
      · simp [e, Ne.symm e] at this ⊢; omega
    · rw [enab]; simp [imms, SchEv.imm, enables, isEnable] at c1 ⊢; omega
    · simp [imms, SchEv.imm, calm]
    · simp [SchEv.imm]
  | @tap _ rest ko d hl ht hr =>
    have wi : imms (SchEv.imm (.input (.vpress ko)) :: SchEv.after d (.input (.vrelease ko)) :: rest) = .input (.vpress ko) :: imms rest := by
      simp [imms, SchEv.imm, SchEv.after]
    have du : ∀ k, dues k (SchEv.imm (.input (.vpress ko)) :: SchEv.after d (.input (.vrelease ko)) :: rest) = if ko = k then 1 else 0 := by
      intro k
      have := dues_tame (ko := k) hr
      unfold dues at this ⊢
      simp only [List.countP_cons, SchEv.imm, SchEv.after, this]
      simp
    have tr := imms_tame hr
    refine main (fun k => ?_) ?_ ?_ ?_
    · have := b1 k
      rw [w3, wi, after_append, e2, du]
      show after k (upd k _ _) (imms rest) ≤ _
      rw [after_tame tr]
      simp only [upd]
      split <;> omega
    · have : enables (.input (.vpress ko) :: imms rest) = 0 := by
        have := enables_tame tr
        unfold enables at *
        rw [List.countP_cons, this]; simp [isEnable]
      rw [enab, wi, this]; omega
    · rw [wi]
      intro e he
      rcases List.mem_cons.1 he with rfl | he
      · rfl
      · exact tame_calm (tr e he)
    · intro e he hn
      rcases List.mem_cons.1 he with rfl | he
      · simp [SchEv.imm] at hn
      · rcases List.mem_cons.1 he with rfl | he
        · exact .inr ⟨hl, ko, rfl⟩
        · exact .inl (hr e he)

/-! ## The steps of a call -/

/-- What the induction on the recursion depth provides for `handle_event`. -/
def HandlerJ (loud : Prop) (he : Handler Ref Ev Comp.Ctx PKS KS) : Prop :=
  ∀ a ev b, J loud [ev] a → he a ev = .ok b → J loud [] b ∧ (a.pend = none → b.pend = none)

theorem drain_J {he : Handler Ref Ev Comp.Ctx PKS KS} (hH : HandlerJ loud he) {m : Nat} {a b : CKM} (hj : J loud [] a)
    (h : drain he m a = .ok b) : J loud [] b ∧ (a.pend = none → b.pend = none) ∧ b.sched.pending = [] := by
  induction m generalizing a with
  | zero => simp [drain] at h
  | succ m ih =>
    unfold drain at h
    cases hq : a.sched.pending with
    | nil =>
      simp only [Sched.dequeue, hq, Res.ok.injEq] at h
      subst h
      exact ⟨hj, id, hq⟩
    | cons x q =>
      cases x with
      | none => exact absurd (by rw [hq]; simp) hj.whole
      | some ev =>
        simp only [Sched.dequeue, hq, Res.bind_eq_ok] at h
        obtain ⟨c, h1, h2⟩ := h
        have w : [ev] ++ waiting { a.sched with pending := q } = [] ++ waiting a.sched := by simp [waiting, hq]
        have j1 : J loud [ev] { a with sched := { a.sched with pending := q } } := by
          refine ⟨fun ko => ?_, ?_, ?_, ?_, hj.sched, ?_, hj.queued, hj.inq, hj.macros, hj.sticky⟩
          · show after ko _ ([ev] ++ waiting { a.sched with pending := q }) ≤ _
            rw [w]; exact hj.bound ko
          · show enables ([ev] ++ waiting { a.sched with pending := q }) + _ ≤ 1
            rw [w]; exact hj.caps
          · show ∀ e ∈ [ev] ++ waiting { a.sched with pending := q }, _
            rw [w]; exact hj.events
          · have := hj.whole
            rw [hq] at this
            simpa using this
          · intro hp
            refine ⟨(hj.free hp).1, ?_⟩
            show ∀ e ∈ [ev] ++ waiting { a.sched with pending := q }, _
            rw [w]; exact (hj.free hp).2
        obtain ⟨j2, p2⟩ := hH _ _ _ j1 h1
        obtain ⟨j3, p3, e3⟩ := ih j2 h2
        exact ⟨j3, fun hp => p3 (p2 hp), e3⟩

theorem requeue_J {i : Nat} {es : List (Event Ev)} {q q' : List InputEvent} {s s' : Sched Ev} (he : ∀ e ∈ es, ∃ ie, e = .input ie ∧ calm (.input ie) = false)
    (hq : ∀ ie ∈ q, calm (.input ie) = false) (h : requeue (cfg K refs S) i es q s = .ok (q', s')) :
    s' = s ∧ ∀ ie ∈ q', calm (.input ie) = false := by
  induction es generalizing q with
  | nil =>
    simp only [requeue, Res.ok.injEq, Prod.mk.injEq] at h
    obtain ⟨rfl, rfl⟩ := h
    exact ⟨rfl, hq⟩
  | cons e es ih =>
    obtain ⟨ie, rfl, hc⟩ := he e (by simp)
    simp only [requeue, Res.bind_eq_ok] at h
    obtain ⟨q1, h1, h2⟩ := h
    obtain ⟨_, rfl⟩ := pushCap_eq_ok.1 h1
    refine ih (fun x hx => he x (by simp [hx])) ?_ h2
    intro x hx
    rcases List.mem_append.1 hx with hx | hx
    · exact hq x hx
    · simp only [List.mem_singleton] at hx; subst hx; exact hc

theorem resolve_J {he : Handler Ref Ev Comp.Ctx PKS KS} (hH : HandlerJ loud he) {n : Nat} {a b : CKM} {p : Pending Ref Ev PKS} {ks : KS}
    (hj : J loud [] { a with pend := none }) (hq : ∀ e ∈ p.queued, ∃ ie, e = .input ie ∧ calm (.input ie) = false)
    (h : resolve (cfg K refs S) he n a p ks = .ok b) : J loud [] b := by
  simp only [resolve, resolveEnter, Res.bind_eq_ok, Res.pure_eq, Res.ok.injEq] at h
  obtain ⟨km1, ⟨ps, h1, ⟨q, s⟩, h2, q', h3, rfl⟩, km2, h4, o, _, h5⟩ := h
  obtain ⟨_, rfl⟩ := pushCap_eq_ok.1 h1
  obtain ⟨rfl, hi⟩ := requeue_J (q := []) (by
    intro e he'
    refine hq e ?_
    simp only [requeueList, List.mem_append, List.mem_filter] at he'
    rcases he' with he' | he'
    · exact he'.1
    · simp only [Option.mem_toList] at he'
      exact (List.mem_filter.1 (List.mem_of_getLast? he')).1) (by simp) h2
  obtain ⟨_, rfl⟩ := extendCap_eq_ok.1 h3
  have j1 : J loud [] { a with pend := none, pressed := a.pressed ++ [.key p.idx p.ref ks], sched := a.sched.cancel p.idx, inq := q ++ a.inq } := by
    refine hj.of_eq ?_ rfl (fun ko => due_cancel ko _ _) ?_ rfl rfl ?_
    · simp [virtuals]
    · intro t ht
      simp only [Sched.cancel, List.mem_map] at ht
      obtain ⟨u, hu, rfl⟩ := ht
      exact ⟨u, hu, by simp⟩
    · intro ie hie
      rcases List.mem_append.1 hie with h | h
      · exact hi ie h
      · exact hj.inq ie h
  obtain ⟨j2, p2, _⟩ := drain_J hH j1 h4
  have p2 := p2 rfl
  cases o with
  | none => simp only [Res.ok.injEq] at h5; subst h5; exact j2
  | some ko =>
    refine (hH km2 (.keymap (.resolved p.idx ko)) _ ⟨?_, ?_, ?_, j2.whole, j2.sched, fun h => absurd p2 h, j2.queued, j2.inq, j2.macros, j2.sticky⟩ h5).1
    · exact j2.bound
    · have := j2.caps
      unfold enables at *
      rw [List.singleton_append, List.countP_cons]
      simpa [isEnable] using this
    · intro e he'
      rcases List.mem_cons.1 he' with rfl | he'
      · rfl
      · exact j2.events e he'

/-- The caps-word key is pressed. -/
theorem J.caps_key {a : CKM} (hj : J loud [] a) (hp : a.pend = none) (ht : ∀ e ∈ waiting a.sched, tame e = true) {idx : Nat} {s : Sched Ev}
    (h : a.sched.scheduleAll S ((CapsWord.newPressedKey a.ctx.capsWord idx).mapEv .capsWord) = .ok s) : J loud [] { a with sched := s } := by
  obtain ⟨e1, e2, e3⟩ := scheduleAll_spec h
  have w := waiting_sched h
  have du : ∀ ko, dues ko ((CapsWord.newPressedKey a.ctx.capsWord idx).mapEv Ev.capsWord) = 0 := by
    intro ko; simp [dues, CapsWord.newPressedKey, KeyEvents.mapEv, SchEv.map, SchEv.imm]
  have im : imms ((CapsWord.newPressedKey a.ctx.capsWord idx).mapEv Ev.capsWord) =
      [.key idx (.capsWord (if a.ctx.capsWord.active then .disable else .enable))] := by
    simp [imms, CapsWord.newPressedKey, KeyEvents.mapEv, SchEv.map, SchEv.imm, Event.map]
  rw [im] at w e1
  refine ⟨fun ko => ?_, ?_, ?_, ?_, ?_, fun h => absurd hp h, hj.queued, hj.inq, hj.macros, hj.sticky⟩
  · have := hj.bound ko
    show after ko _ (waiting s) ≤ due ko s.scheduled + _
    rw [w, e2, du, after_append]
    exact this
  · show enables (waiting s) + _ ≤ 1
    have := enables_tame ht
    unfold enables at *
    rw [w, List.countP_append, this]
    cases a.ctx.capsWord.active <;> simp [isEnable]
  · show ∀ e ∈ waiting s, _
    rw [w]
    intro e he
    rcases List.mem_append.1 he with he | he
    · exact tame_calm (ht e he)
    · simp only [List.mem_singleton] at he; subst he; rfl
  · show none ∉ s.pending
    rw [e1]; simpa using hj.whole
  · intro t h'
    rcases e3 t h' with h | ⟨e, he, hn, _⟩
    · exact hj.sched t h
    · simp [CapsWord.newPressedKey, KeyEvents.mapEv] at he
      subst he
      simp [SchEv.map, SchEv.imm] at hn

theorem npk_caps {idx : Nat} {c : Ctx} {x : PKR Ref PKS KS} {es : KeyEvents Ev} (h : newPressedKey K idx c .capsWord = .ok (x, es)) :
    x = .newPressedKey .noOp ∧ es = (CapsWord.newPressedKey c.capsWord idx).mapEv .capsWord := by
  simp only [newPressedKey, Res.ok.injEq, Prod.mk.injEq] at h
  exact ⟨h.1.symm, h.2.symm⟩

theorem pendLoop_J {he : Handler Ref Ev Comp.Ctx PKS KS} (hH : HandlerJ loud he) {n m : Nat} {a b : CKM} {p : Pending Ref Ev PKS} {npk : NPK Ref}
    (hl : ¬loud) (hj : J loud [] { a with pend := none }) (ht : ∀ e ∈ waiting a.sched, tame e = true)
    (hq : ∀ e ∈ p.queued, ∃ ie, e = .input ie ∧ calm (.input ie) = false) (h : pendLoop (cfg K refs S) he n m a p npk = .ok b) : J loud [] b := by
  induction m generalizing a p npk with
  | zero => simp [pendLoop] at h
  | succ m ih =>
    cases npk with
    | noOp => exact resolve_J hH hj hq h
    | key r =>
      simp only [pendLoop, Res.bind_eq_ok] at h
      obtain ⟨⟨pkr, es⟩, h1, s, h2, h3⟩ := h
      by_cases hr : r = .capsWord
      · subst hr
        obtain ⟨rfl, rfl⟩ := npk_caps (K := K) h1
        exact resolve_J (a := { a with sched := s }) (p := { p with ref := .capsWord }) hH (hj.caps_key rfl ht h2) hq h3
      · have t := npk_calm hr h1
        have j1 : J loud [] { a with sched := s, pend := none } := hj.schedule t h2 rfl
        have w := waiting_sched h2
        have ht' : ∀ e ∈ waiting s, tame e = true := by
          rw [w]
          intro e he'
          rcases List.mem_append.1 he' with he' | he'
          · exact ht e he'
          · exact imms_tame t e he'
        cases pkr with
        | resolved ks => exact resolve_J (a := { a with sched := s }) (p := { p with ref := r }) hH j1 hq h3
        | newPressedKey k =>
          cases k with
          | noOp => exact resolve_J (a := { a with sched := s }) (p := { p with ref := r }) hH j1 hq h3
          | key r' => exact ih (a := { a with sched := s }) (p := { p with ref := r }) j1 ht' hq h3
        | pending pks =>
          simp only [Res.bind_eq_ok, Res.pure_eq, Res.ok.injEq] at h3
          obtain ⟨q1, h4, q2, h5, rfl⟩ := h3
          obtain ⟨_, rfl⟩ := extendCap_eq_ok.1 h4
          obtain ⟨_, rfl⟩ := extendCap_eq_ok.1 h5
          refine ⟨j1.bound, j1.caps, j1.events, j1.whole, j1.sched, fun _ => ⟨hl, ht'⟩, ?_, ?_, j1.macros, j1.sticky⟩
          · intro p' hp'
            simp only [Option.some.injEq] at hp'
            subst hp'
            simp
          · intro ie hie
            simp only [List.nil_append, List.mem_append, List.mem_filterMap, List.mem_reverse] at hie
            rcases hie with ⟨e, he', hx⟩ | hie
            · obtain ⟨ie', rfl, hc⟩ := hq e he'
              simp only [inputOf?, Option.some.injEq] at hx
              subst hx; exact hc
            · exact j1.inq ie hie

theorem updatePending_J {he : Handler Ref Ev Comp.Ctx PKS KS} (hH : HandlerJ loud he) {n : Nat} {a b : CKM} {ev : Event Ev}
    (hj : J loud [] a) (h : updatePending (cfg K refs S) he n a ev = .ok b) : J loud [] b := by
  unfold updatePending at h
  cases hp : a.pend with
  | none => simp only [hp, Res.pure_eq, Res.ok.injEq] at h; subst h; exact hj
  | some p =>
    simp only [hp, Res.bind_eq_ok] at h
    obtain ⟨⟨pks, npk, es⟩, h1, s, h2, h3⟩ := h
    obtain ⟨hl, ht⟩ := hj.free (by rw [hp]; simp)
    have t := pend_calm (c := a.ctx) h1
    have j1 : J loud [] { a with sched := s } := hj.schedule t h2 rfl
    have ht' : ∀ e ∈ waiting s, tame e = true := by
      rw [waiting_sched h2]
      intro e he'
      rcases List.mem_append.1 he' with he' | he'
      · exact ht e he'
      · exact imms_tame t e he'
    cases npk with
    | none =>
      simp only [Res.pure_eq, Res.ok.injEq] at h3
      subst h3
      refine ⟨j1.bound, j1.caps, j1.events, j1.whole, j1.sched, fun _ => ⟨hl, ht'⟩, ?_, j1.inq, j1.macros, j1.sticky⟩
      intro p' hp'
      simp only [Option.some.injEq] at hp'
      subst hp'
      exact hj.queued p hp
    | some k =>
      refine pendLoop_J (p := { p with pks := pks }) hH hl ?_ ht' (hj.queued p hp) h3
      exact ⟨j1.bound, j1.caps, j1.events, j1.whole, j1.sched, fun h => absurd rfl h, fun p' hp' => by simp at hp', j1.inq, j1.macros, j1.sticky⟩

theorem pressLoop_J {he : Handler Ref Ev Comp.Ctx PKS KS} (hH : HandlerJ loud he) {m idx : Nat} {a b : CKM} {r : Ref}
    (hj : J loud [] a) (hp : a.pend = none) (ht : ∀ e ∈ waiting a.sched, tame e = true) (hr : loud → Decided K r)
    (h : pressLoop (cfg K refs S) he idx m a r = .ok b) : J loud [] b := by
  induction m generalizing a r with
  | zero => simp [pressLoop] at h
  | succ m ih =>
    simp only [pressLoop, Res.bind_eq_ok] at h
    obtain ⟨⟨pkr, es⟩, h1, s, h2, h3⟩ := h
    by_cases hr' : r = .capsWord
    · subst hr'
      obtain ⟨rfl, rfl⟩ := npk_caps (K := K) h1
      have j1 := hj.caps_key hp ht h2
      simp only [Res.bind_eq_ok, Res.pure_eq, Res.ok.injEq] at h3
      obtain ⟨ps, h4, rfl⟩ := h3
      obtain ⟨_, rfl⟩ := pushCap_eq_ok.1 h4
      exact j1.of_eq (by simp [virtuals]) rfl (fun _ => rfl) (fun t ht => ⟨t, ht, rfl⟩) rfl rfl j1.inq
    · have t := npk_calm hr' h1
      have j1 : J loud [] { a with sched := s } := hj.schedule t h2 rfl
      have ht' : ∀ e ∈ waiting s, tame e = true := by
        rw [waiting_sched h2]
        intro e he'
        rcases List.mem_append.1 he' with he' | he'
        · exact ht e he'
        · exact imms_tame t e he'
      have pushed : ∀ ks, J loud [] { a with sched := s, pressed := a.pressed ++ [.key idx r ks] } := fun ks =>
        j1.of_eq (by simp [virtuals]) rfl (fun _ => rfl) (fun t ht => ⟨t, ht, rfl⟩) rfl rfl j1.inq
      cases pkr with
      | resolved ks =>
        simp only [Res.bind_eq_ok] at h3
        obtain ⟨ps, h4, o, _, h5⟩ := h3
        obtain ⟨_, rfl⟩ := pushCap_eq_ok.1 h4
        have j2 := pushed ks
        cases o with
        | none => simp only [Res.pure_eq, Res.ok.injEq] at h5; subst h5; exact j2
        | some ko =>
          refine (hH _ (.keymap (.resolved idx ko)) _ ⟨?_, ?_, ?_, j2.whole, j2.sched, fun h => absurd hp h, j2.queued, j2.inq, j2.macros, j2.sticky⟩ h5).1
          · exact j2.bound
          · have := j2.caps
            unfold enables at *
            rw [List.singleton_append, List.countP_cons]
            simpa [isEnable] using this
          · intro e he'
            rcases List.mem_cons.1 he' with rfl | he'
            · rfl
            · exact j2.events e he'
      | newPressedKey k =>
        cases k with
        | noOp =>
          simp only [Res.bind_eq_ok, Res.pure_eq, Res.ok.injEq] at h3
          obtain ⟨ps, h4, rfl⟩ := h3
          obtain ⟨_, rfl⟩ := pushCap_eq_ok.1 h4
          exact pushed _
        | key r' =>
          exact ih (a := { a with sched := s }) j1 hp ht' (fun hl => (hr hl).child (npk_child (idx := idx) (c := a.ctx) (es := es) h1)) h3
      | pending pks =>
        simp only [Res.pure_eq, Res.ok.injEq] at h3
        subst h3
        have hl : ¬loud := by
          intro hl
          have hG := hr hl r (.refl r)
          rcases npk_pending (idx := idx) (c := a.ctx) (es := es) h1 with ⟨_, _, rfl, _⟩ | ⟨_, _, rfl, _⟩ | ⟨_, _, rfl, _⟩ <;>
            simp [immediateRef] at hG
        refine ⟨j1.bound, j1.caps, j1.events, j1.whole, j1.sched, fun _ => ⟨hl, ht'⟩, ?_, j1.inq, j1.macros, j1.sticky⟩
        intro p' hp'
        simp only [Option.some.injEq] at hp'
        subst hp'
        simp

theorem virts_removeVirt (k ko : KeyOutput) (ps : List (PressedInput Ref KS)) : virts k (removeVirt ko ps) = if ko = k then virts k ps - 1 else virts k ps := by
  induction ps with
  | nil => simp [virts, removeVirt, virtuals]
  | cons x ps ih =>
    cases x with
    | key i r ks => simpa [virts, removeVirt, virtuals] using ih
    | virt ko' =>
      simp only [removeVirt]
      split
      · rename_i e
        subst e
        by_cases e : ko' = k
        · simp [virts, virtuals, e]
        · simp [virts, virtuals, e]
      · rename_i e
        have e1 : ∀ l : List (PressedInput Ref KS), virts k (.virt ko' :: l) = virts k l + if ko' = k then 1 else 0 := by
          intro l; simp [virts, virtuals, List.count_cons]
        rw [e1, e1, ih]
        by_cases e2 : ko = k
        · subst e2; simp [e]
        · simp [e2]

theorem virtuals_removeKey (i : Nat) (ps : List (PressedInput Ref KS)) : virtuals (removeKey i ps) = virtuals ps := by
  induction ps with
  | nil => rfl
  | cons x ps ih =>
    cases x with
    | key j r ks => simp only [removeKey]; split <;> simp_all [virtuals]
    | virt ko => simp only [removeKey]; simp_all [virtuals]

/-- A virtual key is pressed or released. -/
theorem J.virtual {a : CKM} {ie : InputEvent} {ps : List (PressedInput Ref KS)} (hj : J loud [.input ie] a) (hp : a.pend = none)
    (hps : ∀ ko, virts ko ps = upd ko (virts ko a.pressed) (.input ie)) : J loud [] { a with pressed := ps } := by
  refine ⟨fun ko => ?_, ?_, fun e he => hj.events e (by simp at he ⊢; exact .inr he), hj.whole, hj.sched, fun h => absurd hp h, hj.queued, hj.inq, hj.macros, hj.sticky⟩
  · have := hj.bound ko
    show after ko (virts ko ps) (waiting a.sched) ≤ _
    rw [hps]; exact this
  · have := hj.caps
    unfold enables at *
    rw [List.singleton_append, List.countP_cons] at this
    simpa [isEnable] using this

theorem handleEvent_J (hk : K.sticky = []) (n : Nat) : HandlerJ loud (handleEvent (cfg K refs S) n) := by
  induction n with
  | zero => intro a ev b _ h; simp [handleEvent] at h
  | succ n ih =>
    intro a ev b hj h
    simp only [handleEvent, handleBody, Res.bind_eq_ok] at h
    obtain ⟨c, h1, d, h2, h3⟩ := h
    have hf : J loud [ev] (a.fire ev) := by
      refine hj.of_eq ?_ ?_ ?_ ?_ ?_ ?_ ?_
      · simp
      · simp
      · simp
      · intro t ht; exact ⟨t, by simpa using ht, rfl⟩
      · simp
      · simp
      · intro ie hie; exact hj.inq ie (by simpa using hie)
    have hfp : (a.fire ev).pend = a.pend := by simp
    generalize a.fire ev = a1 at h1 hf hfp
    cases hp : a1.pend with
    | none =>
      have e0 : c = a1 := by simpa [updatePending, hp, eq_comm] using h1
      subst e0
      by_cases hi : ∃ ie, ev = .input ie
      · obtain ⟨ie, rfl⟩ := hi
        obtain ⟨j1, p1, q1, _⟩ := notify_same hk hf (.inl ⟨ie, rfl⟩) h2
        simp only at h3
        unfold processInput at h3
        simp only [p1.trans hp, Res.bind_eq_ok, processDirect] at h3
        obtain ⟨f, ⟨g, h4, h5⟩, h6⟩ := h3
        obtain ⟨j2, p2, q2, _⟩ := notify_same hk j1 (.inl ⟨ie, rfl⟩) h4
        have gp : g.pend = none := p2.trans (p1.trans hp)
        have j3 : J loud [] f ∧ f.pend = none := by
          have hc := j2.events (.input ie) (by simp)
          cases ie with
          | press i => simp [calm] at hc
          | release i => simp [calm] at hc
          | vpress ko =>
            simp only [Res.bind_eq_ok, Res.pure_eq, Res.ok.injEq] at h5
            obtain ⟨ps, h7, rfl⟩ := h5
            obtain ⟨_, rfl⟩ := pushCap_eq_ok.1 h7
            refine ⟨j2.virtual gp fun k => ?_, gp⟩
            simp only [virts, virtuals, List.filterMap_append, List.filterMap_cons, List.filterMap_nil, List.count_append, List.count_singleton, upd]
            by_cases e : ko = k <;> simp [e]
          | vrelease ko =>
            simp only [Res.pure_eq, Res.ok.injEq] at h5
            subst h5
            exact ⟨j2.virtual gp fun k => virts_removeVirt _ _ _, gp⟩
        obtain ⟨j4, p4, _⟩ := drain_J ih j3.1 h6
        exact ⟨j4, fun _ => p4 j3.2⟩
      · have hi' : ∀ ie, ev ≠ .input ie := fun ie e => hi ⟨ie, e⟩
        have := notify_wild hk hf hp hi' h2
        have e : d = b := by
          cases ev with
          | input ie => exact absurd rfl (hi' ie)
          | key _ _ => simpa using h3
          | keymap _ => simpa using h3
        rw [← e]; exact ⟨this.1, fun _ => this.2⟩
    | some p =>
      obtain ⟨hl, ht⟩ := hf.free (by rw [hp]; simp)
      have hte := ht ev (by simp)
      have j0 : J loud [] a1 := by
        refine ⟨fun ko => ?_, ?_, fun e he => hf.events e (by simp at he ⊢; exact .inr he), hf.whole, hf.sched,
          fun h => ⟨hl, fun e he => ht e (by simp at he ⊢; exact .inr he)⟩, hf.queued, hf.inq, hf.macros, hf.sticky⟩
        · have := hf.bound ko
          show after ko _ (waiting a1.sched) ≤ _
          rwa [show ([ev] ++ waiting a1.sched) = ev :: waiting a1.sched from rfl,
            show after ko (virts ko a1.pressed) (ev :: waiting a1.sched) = after ko (upd ko (virts ko a1.pressed) ev) (waiting a1.sched) from rfl, upd_tame (tame_input hte)] at this
        · have := hf.caps
          unfold enables at *
          rw [List.singleton_append, List.countP_cons] at this
          show List.countP isEnable (waiting a1.sched) + _ ≤ 1
          omega
      have j1 := updatePending_J ih j0 h1
      obtain ⟨j2, _⟩ := notify_same hk j1 (.inr hte) h2
      have e : d = b := by
        cases ev with
        | input ie => simp [tame] at hte
        | key _ _ => simpa using h3
        | keymap _ => simpa using h3
      rw [← e]
      exact ⟨j2, fun h => by rw [← hfp, hp] at h; cases h⟩

/-! ## Calls -/

/-- What holds between calls. -/
structure Rests (loud : Prop) (km : CKM) : Prop where
  j : J loud [] km
  quiet : km.sched.pending = []

/-- A press or release of a key is processed. -/
theorem processInput_J (hk : K.sticky = []) (hD : loud → ∀ r ∈ refs, Decided K r) {n : Nat} {a b : CKM} {ie : InputEvent} (ha : Rests loud a)
    (hie : calm (.input ie) = false) (h : processInputN (cfg K refs S) n a ie = .ok b) : Rests loud b := by
  have hH := handleEvent_J (loud := loud) (refs := refs) (S := S) hk n
  have hw : waiting a.sched = [] := by simp [waiting, ha.quiet]
  unfold processInputN processInput at h
  suffices key : ∃ c, J loud [] c ∧ drain (handleEvent (cfg K refs S) n) n c = .ok b by
    obtain ⟨c, j, h⟩ := key
    obtain ⟨j1, _, e⟩ := drain_J hH j h
    exact ⟨j1, e⟩
  cases hp : a.pend with
  | some p =>
    simp only [hp, Res.bind_eq_ok] at h
    obtain ⟨q, h1, c, h2, h3⟩ := h
    obtain ⟨_, rfl⟩ := pushCap_eq_ok.1 h1
    refine ⟨c, updatePending_J hH ?_ h2, h3⟩
    have j := ha.j
    refine ⟨j.bound, j.caps, j.events, j.whole, j.sched, fun _ => j.free (by rw [hp]; simp), ?_, j.inq, j.macros, j.sticky⟩
    intro p' hp'
    simp only [Option.some.injEq] at hp'
    subst hp'
    intro e he
    rcases List.mem_append.1 he with he | he
    · exact j.queued p hp e he
    · simp only [List.mem_singleton] at he; subst he; exact ⟨ie, rfl, hie⟩
  | none =>
    simp only [hp, Res.bind_eq_ok, processDirect] at h
    obtain ⟨c, ⟨d, h1, h2⟩, h3⟩ := h
    obtain ⟨j1, p1, q1, t1⟩ := notify_same hk ha.j (.inl ⟨ie, rfl⟩) h1
    have t2 := t1 ⟨ie, rfl⟩ (by rw [hw]; simp)
    refine ⟨c, ?_, h3⟩
    cases ie with
    | press i =>
      simp only at h2
      split at h2
      · simp only [Res.pure_eq, Res.ok.injEq] at h2; subst h2; exact j1
      · simp only [Res.bind_eq_ok] at h2
        obtain ⟨r, hr, h2⟩ := h2
        exact pressLoop_J hH j1 (p1.trans hp) t2 (fun hl => hD hl r (List.mem_of_getElem? (Res.index_eq_ok.1 hr))) h2
    | release i =>
      simp only [Res.pure_eq, Res.ok.injEq] at h2
      subst h2
      exact j1.of_eq (virtuals_removeKey _ _) rfl (fun _ => rfl) (fun t ht => ⟨t, ht, rfl⟩) rfl rfl j1.inq
    | vpress ko => simp [calm] at hie
    | vrelease ko => simp [calm] at hie

theorem Rests.of_eq {a b : CKM} (h : Rests loud a) (hp : b.pressed = a.pressed) (hs : b.sched = a.sched) (hc : b.ctx = a.ctx) (hpend : b.pend = a.pend)
    (hi : ∀ ie ∈ b.inq, calm (.input ie) = false) : Rests loud b := by
  refine ⟨h.j.of_eq ?_ ?_ ?_ ?_ hc hpend hi, by rw [hs]; exact h.quiet⟩
  · rw [hp]
  · rw [hs]
  · intro; rw [hs]
  · intro t ht; exact ⟨t, by rwa [hs] at ht, rfl⟩

theorem handleInput_J (hk : K.sticky = []) (hD : loud → ∀ r ∈ refs, Decided K r) {n : Nat} {a b : CKM} {ie : InputEvent} (ha : Rests loud a)
    (hie : calm (.input ie) = false) (h : handleInput (cfg K refs S) n a ie = .ok b) : Rests loud b := by
  have hq : ∀ x ∈ a.inq ++ [ie], calm (.input x) = false := by
    intro x hx
    rcases List.mem_append.1 hx with hx | hx
    · exact ha.j.inq x hx
    · simp only [List.mem_singleton] at hx; subst hx; exact hie
  unfold handleInput at h
  simp only at h
  split at h
  · simp only [Res.ok.injEq] at h; subst h
    exact ha.of_eq rfl rfl rfl rfl ha.j.inq
  · split at h
    · split at h
      · simp at h
      · rename_i x q hx
        simp only [Res.bind_eq_ok, Res.pure_eq, Res.ok.injEq] at h
        obtain ⟨c, h1, rfl⟩ := h
        rw [hx] at hq
        have := processInput_J hk hD (a := { a with idle := 0, inq := q, log := a.log ++ [x] })
          (ha.of_eq rfl rfl rfl rfl (fun y hy => hq y (by simp [hy]))) (hq x (by simp)) h1
        exact this.of_eq rfl rfl rfl rfl this.j.inq
    · simp only [Res.ok.injEq] at h; subst h
      exact ha.of_eq rfl rfl rfl rfl hq

theorem tick_J (hk : K.sticky = []) (hD : loud → ∀ r ∈ refs, Decided K r) {n : Nat} {a b : CKM} (ha : Rests loud a)
    (h : tick (cfg K refs S) n a = .ok b) : Rests loud b := by
  have hH := handleEvent_J (loud := loud) (refs := refs) (S := S) hk n
  simp only [tick, Res.bind_eq_ok] at h
  obtain ⟨c, h1, s, h2, d, h3, h4⟩ := h
  have e4 : b.pressed = d.pressed ∧ b.sched = d.sched ∧ b.ctx = d.ctx ∧ b.pend = d.pend ∧ b.inq = d.inq := by
    split at h4
    · simp only [Res.pure_eq, Res.ok.injEq] at h4; subst h4; simp
    · simp at h4
  suffices hd : Rests loud d from hd.of_eq e4.1 e4.2.1 e4.2.2.1 e4.2.2.2.1 (by rw [e4.2.2.2.2]; exact hd.j.inq)
  have ha' : Rests loud { a with ctx := (cfg K refs S).sys.setCtx a.ctx a.sched.counter a.idle } := by
    have j := ha.j
    exact ⟨⟨j.bound, j.caps, j.events, j.whole, j.sched, j.free, j.queued, j.inq, j.macros, j.sticky⟩, ha.quiet⟩
  generalize ({ a with ctx := (cfg K refs S).sys.setCtx a.ctx a.sched.counter a.idle } : CKM) = a' at h1 ha'
  have hc : Rests loud c := by
    unfold tickInput at h1
    split at h1
    · rename_i x q hx
      have hq := ha'.j.inq
      rw [hx] at hq
      split at h1
      · simp only [Res.bind_eq_ok, Res.pure_eq, Res.ok.injEq] at h1
        obtain ⟨e, h5, rfl⟩ := h1
        have := processInput_J hk hD (a := { a' with inq := q, log := a'.log ++ [x] })
          (ha'.of_eq rfl rfl rfl rfl (fun y hy => hq y (by simp [hy]))) (hq x (by simp)) h5
        exact this.of_eq rfl rfl rfl rfl this.j.inq
      · simp only [Res.ok.injEq] at h1; subst h1; exact ha'
    · simp only [Res.ok.injEq] at h1; subst h1; exact ha'
  have hwc : waiting c.sched = [] := by simp [waiting, hc.quiet]
  have j := hc.j
  obtain ⟨_, ⟨rfl, _⟩ | ⟨t, rest, hs, _, _, rfl⟩⟩ := Sched.tick_eq_ok h2
  · have : J loud [] { c with delay := c.delay - 1, sched := { c.sched with counter := c.sched.counter + c.msPerTick } } :=
      ⟨j.bound, j.caps, j.events, j.whole, j.sched, j.free, j.queued, j.inq, j.macros, j.sticky⟩
    obtain ⟨j1, _, e⟩ := drain_J hH this h3
    exact ⟨j1, e⟩
  · have hs' : c.sched.scheduled = t :: rest := hs
    have hrest : ∀ x ∈ rest, tame x.event = true ∨ (loud ∧ ∃ ko, x.event = .input (.vrelease ko)) := fun x hx => j.sched x (by rw [hs']; simp [hx])
    have ht := j.sched t (by rw [hs']; simp)
    have b0 : ∀ ko, virts ko c.pressed ≤ due ko (t :: rest) + owed ko c.ctx.capsWord.active := by
      intro ko
      have := j.bound ko
      rw [hwc, hs'] at this
      exact this
    have c0 := j.caps
    rw [hwc] at c0
    by_cases hlive : t.live = true
    · simp only [hlive, if_true] at h3
      have w : waiting ⟨c.sched.pending ++ [some t.event], rest, c.sched.counter + c.msPerTick⟩ = [t.event] := by
        simp [waiting, hc.quiet]
      have ne : isEnable t.event = false := by
        rcases ht with ht | ⟨_, ko, ht⟩
        · have := enables_tame (l := [t.event]) (by simpa using ht)
          simpa [enables] using this
        · rw [ht]; rfl
      have : J loud [] { c with delay := c.delay - 1, sched := ⟨c.sched.pending ++ [some t.event], rest, c.sched.counter + c.msPerTick⟩ } := by
        refine ⟨fun ko => ?_, ?_, ?_, ?_, hrest, ?_, j.queued, j.inq, j.macros, j.sticky⟩
        · show after ko (virts ko c.pressed) ([] ++ waiting _) ≤ due ko rest + owed ko c.ctx.capsWord.active
          rw [w]
          show upd ko (virts ko c.pressed) t.event ≤ _
          have b1 := b0 ko
          simp only [due, List.countP_cons, hlive, Bool.true_and, decide_eq_true_eq] at b1
          simp only [due]
          rcases ht with ht | ⟨_, k, ht⟩
          · rw [upd_tame (tame_input ht)]
            rw [if_neg (tame_input ht _)] at b1
            omega
          · rw [ht]
            simp only [ht, upd, Event.input.injEq, InputEvent.vrelease.injEq] at b1 ⊢
            split at b1 <;> simp_all <;> omega
        · show enables ([] ++ waiting _) + _ ≤ 1
          rw [w]
          simp [enables, ne] at c0 ⊢
          exact Bool.toNat_le _
        · show ∀ e ∈ [] ++ waiting _, _
          rw [w]
          intro e he
          simp only [List.nil_append, List.mem_singleton] at he
          subst he
          rcases ht with ht | ⟨_, ko, ht⟩
          · exact tame_calm ht
          · rw [ht]; rfl
        · simp [hc.quiet]
        · intro hp
          refine ⟨(j.free hp).1, ?_⟩
          show ∀ e ∈ [] ++ waiting _, _
          rw [w]
          intro e he
          simp only [List.nil_append, List.mem_singleton] at he
          subst he
          rcases ht with ht | ⟨hl, _⟩
          · exact ht
          · exact absurd hl (j.free hp).1
      obtain ⟨j1, _, e⟩ := drain_J hH this h3
      exact ⟨j1, e⟩
    · have hlive : t.live = false := by simpa using hlive
      simp only [hlive] at h3
      unfold drainN at h3
      cases n with
      | zero => simp [drain] at h3
      | succ n =>
        simp only [drain, Sched.dequeue, hc.quiet, List.nil_append, Res.ok.injEq] at h3
        simp only [Bool.false_eq_true, if_false, Res.ok.injEq] at h3
        subst h3
        refine ⟨⟨fun ko => ?_, ?_, ?_, by simp, hrest, ?_, j.queued, j.inq, j.macros, j.sticky⟩, rfl⟩
        · have := b0 ko
          simp only [due, List.countP_cons, hlive, Bool.false_and] at this
          simpa [waiting, after, due] using this
        · simpa [waiting] using c0
        · simp [waiting]
        · intro hp
          exact ⟨(j.free hp).1, by simp [waiting]⟩

theorem ticks_J (hk : K.sticky = []) (hD : loud → ∀ r ∈ refs, Decided K r) {n k : Nat} {a b : CKM} (ha : Rests loud a)
    (h : ticks (cfg K refs S) n k a = .ok b) : Rests loud b := by
  induction k generalizing a with
  | zero => simp only [ticks, Res.ok.injEq] at h; subst h; exact ha
  | succ k ih =>
    simp only [ticks, Res.bind_eq_ok] at h
    obtain ⟨c, h1, h2⟩ := h
    exact ih (tick_J hk hD ha h1) h2

theorem tickBy_J (hk : K.sticky = []) (hD : loud → ∀ r ∈ refs, Decided K r) {n d : Nat} {a b : CKM} (ha : Rests loud a)
    (h : tickBy (cfg K refs S) n a d = .ok b) : Rests loud b := by
  unfold tickBy at h
  split at h
  · exact tick_J hk hD ha h
  · split at h
    · simp at h
    · exact ticks_J hk hD ha h

theorem step_J (hk : K.sticky = []) (hD : loud → ∀ r ∈ refs, Decided K r) {n : Nat} {a b : CKM} {op : Op} (ha : Rests loud a) (hop : keysOnly op = true)
    (h : step (cfg K refs S) n a op = .ok b) : Rests loud b := by
  cases op with
  | input ev => exact handleInput_J hk hD ha (by cases ev <;> simp_all [keysOnly, calm]) h
  | tick => exact tick_J hk hD ha h
  | report =>
    simp only [Verif.step, reportOutput, map_eq_pure_bind, Res.bind_eq_ok, Res.pure_eq, Res.ok.injEq, bind_assoc] at h
    obtain ⟨os, h1, x, rfl, rfl⟩ := h
    exact ha.of_eq rfl rfl rfl rfl ha.j.inq
  | init =>
    simp only [Verif.step, Res.ok.injEq] at h; subst h
    have j := ha.j
    have e : (a.init).sched.pending = [] := by simp [KM.init, Sched.init, ha.quiet, Sched.initDrain]
    refine ⟨⟨fun ko => ?_, ?_, ?_, ?_, ?_, ?_, ?_, ?_, j.macros, j.sticky⟩, e⟩
    · simp [KM.init, waiting, Sched.init, ha.quiet, Sched.initDrain, virts, virtuals, after]
    · simpa [KM.init, waiting, Sched.init, ha.quiet, Sched.initDrain] using j.caps
    · simp [KM.init, waiting, Sched.init, ha.quiet, Sched.initDrain]
    · rw [e]; simp
    · simp [KM.init, Sched.init]
    · simp [KM.init]
    · simp [KM.init]
    · simp [KM.init]
  | setCallback c f =>
    simp only [Verif.step, KM.setCallback] at h
    split at h
    · simp only [Res.ok.injEq] at h; subst h
      exact ha.of_eq rfl rfl rfl rfl ha.j.inq
    · simp at h
  | setMsPerTick ms =>
    simp only [Verif.step, Res.ok.injEq] at h; subst h
    exact ha.of_eq rfl rfl rfl rfl ha.j.inq
  | inputAfter d ev =>
    simp only [Verif.step, handleInputAfterTime, map_eq_pure_bind, Res.bind_eq_ok, Res.pure_eq, Res.ok.injEq] at h
    obtain ⟨x, ⟨km1, h1, km2, h2, r, h3, h4⟩, h5⟩ := h
    split at h4
    · simp at h4
    · simp only [Res.ok.injEq] at h4
      subst h4; subst h5
      exact handleInput_J hk hD (tickBy_J hk hD ha h1) (by cases ev <;> simp_all [keysOnly, calm]) h2
  | tickToNext =>
    simp only [Verif.step, tickToNext, map_eq_pure_bind, Res.bind_eq_ok, Res.pure_eq, Res.ok.injEq] at h
    obtain ⟨x, ⟨o, h1, h2⟩, h5⟩ := h
    cases o with
    | none => simp only [Res.ok.injEq] at h2; subst h2; subst h5; exact ha
    | some d =>
      simp only [Res.bind_eq_ok, Res.ok.injEq] at h2
      obtain ⟨km1, h3, r, h4, rfl⟩ := h2
      subst h5
      exact tickBy_J hk hD ha h3

theorem run_J (hk : K.sticky = []) (hD : loud → ∀ r ∈ refs, Decided K r) {n : Nat} {a b : CKM} {ops : List Op} (ha : Rests loud a)
    (hop : ∀ op ∈ ops, keysOnly op = true) (h : run (cfg K refs S) n a ops = .ok b) : Rests loud b := by
  induction ops generalizing a with
  | nil => simp only [run, Res.ok.injEq] at h; subst h; exact ha
  | cons op ops ih =>
    simp only [run, Res.bind_eq_ok] at h
    obtain ⟨c, h1, h2⟩ := h
    exact ih (step_J hk hD ha (hop op (by simp)) h1) (fun x hx => hop x (by simp [hx])) h2

theorem Rests.new (c : Config) (hA : Macros loud c.automation.instructions) : Rests loud (KM.new (Ctx.fromConfig c) : CKM) := by
  refine ⟨⟨fun ko => ?_, ?_, ?_, ?_, ?_, ?_, ?_, ?_, hA, rfl⟩, rfl⟩ <;>
    simp [KM.new, Sched.new, waiting, virts, virtuals, after, enables, Ctx.fromConfig, CapsWord.Ctx.new]

end Verif.Nothing
