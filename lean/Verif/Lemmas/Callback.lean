import Verif.Lemmas.Refs
import Verif.Spec.Queue

/-! # Callback events -/

namespace Verif

section
variable {R Ev Ctx PKS KS : Type}

/-- The callback an event asks for. -/
def cbOf : Event Ev → List Callback
  | .keymap (.callback c) => [c]
  | _ => []

/-- The callbacks asked for in the queue of immediate events. -/
def owedCbs : List (Option (Event Ev)) → List Callback
  | [] => []
  | some e :: q => cbOf e ++ owedCbs q
  | none :: q => owedCbs q

/-- The callbacks called so far, and those that will be when the queue is handled. -/
def owed (km : KM R Ev Ctx PKS KS) : List (Callback × Nat) :=
  km.fired ++ (owedCbs km.sched.pending).flatMap (Spec.invoke km.callbacks)

theorem owedCbs_append (a b : List (Option (Event Ev))) : owedCbs (a ++ b) = owedCbs a ++ owedCbs b := by
  induction a with
  | nil => rfl
  | cons x a ih => cases x <;> simp [owedCbs, ih]

theorem lookup_invoke (cs : List (Callback × Nat)) (c : Callback) :
    Spec.invoke cs c = match lookupCallback c cs with | some f => [(c, f)] | none => [] := by
  induction cs with
  | nil => rfl
  | cons x cs ih =>
    obtain ⟨c', f⟩ := x
    by_cases h : c' = c
    · subst h; simp [Spec.invoke, lookupCallback]
    · have : Spec.invoke ((c', f) :: cs) c = Spec.invoke cs c := by simp [Spec.invoke, h]
      rw [this, ih]
      simp [lookupCallback, h]

theorem fire_fired (km : KM R Ev Ctx PKS KS) (ev : Event Ev) :
    (km.fire ev).fired = km.fired ++ (cbOf ev).flatMap (Spec.invoke km.callbacks) := by
  unfold KM.fire
  split
  · rename_i c
    simp only [cbOf, List.flatMap_cons, List.flatMap_nil, List.append_nil]
    rw [lookup_invoke]
    split <;> simp_all
  · rename_i hne
    have : cbOf ev = [] := by
      rcases ev with (_ | _ | _ | _) | _ | (_ | _) <;> simp [cbOf]
      exact absurd rfl (hne _)
    simp [this]

/-- What scheduling events adds to the queue. -/
theorem scheduleAll_owed {S : Search} {es : KeyEvents Ev} {s s' : Sched Ev} (h : s.scheduleAll S es = .ok s') :
    owedCbs s'.pending = owedCbs s.pending ++
      es.flatMap (fun e => if e.schedule = .immediate then cbOf e.event else []) := by
  induction es generalizing s with
  | nil => simp only [Sched.scheduleAll, Res.ok.injEq] at h; subst h; simp
  | cons a es ih =>
    simp only [Sched.scheduleAll, Res.bind_eq_ok] at h
    obtain ⟨s1, h1, h2⟩ := h
    rw [ih h2]
    rcases Sched.scheduleEvent_cases h1 with ⟨hi, _, rfl⟩ | ⟨d, hi, h3⟩
    · rw [owedCbs_append]
      simp [hi, owedCbs]
    · rw [(Sched.scheduleAfter_spec h3).1]
      simp [hi]

/-- Where the scheduled events come from. -/
theorem scheduleAll_timed {S : Search} {es : KeyEvents Ev} {s s' : Sched Ev} (h : s.scheduleAll S es = .ok s')
    {t : Timed Ev} (ht : t ∈ s'.scheduled) : t ∈ s.scheduled ∨ ∃ se ∈ es, se.schedule ≠ .immediate ∧ se.event = t.event := by
  induction es generalizing s with
  | nil => simp only [Sched.scheduleAll, Res.ok.injEq] at h; subst h; exact Or.inl ht
  | cons a es ih =>
    simp only [Sched.scheduleAll, Res.bind_eq_ok] at h
    obtain ⟨s1, h1, h2⟩ := h
    rcases ih h2 with h | ⟨se, hm, hx⟩
    · rcases Sched.scheduleEvent_cases h1 with ⟨hi, _, rfl⟩ | ⟨d, hi, h3⟩
      · exact Or.inl h
      · rcases List.mem_cons.1 ((Sched.scheduleAfter_spec h3).2.2.1.mem_iff.1 h) with rfl | h
        · exact Or.inr ⟨a, List.mem_cons_self, by simp [hi], rfl⟩
        · exact Or.inl h
    · exact Or.inr ⟨se, List.mem_cons_of_mem _ hm, hx⟩

end

namespace Comp

theorem NoCb.cbOf {e : Event Ev} (h : NoCb e) : cbOf e = [] := by
  rcases e with (_ | _ | _ | _) | _ | _ <;> simp_all [NoCb, Verif.cbOf]

theorem scheduleAll_noCb {S : Search} {es : KeyEvents Ev} {s s' : Sched Ev} (h : s.scheduleAll S es = .ok s')
    (hes : AllNoCb es) : owedCbs s'.pending = owedCbs s.pending := by
  rw [scheduleAll_owed h]
  have : es.flatMap (fun e => if e.schedule = .immediate then cbOf e.event else []) = [] := by
    rw [List.flatMap_eq_nil_iff]
    intro e he
    rw [(hes e he).cbOf]; simp
  rw [this, List.append_nil]

/-- What pressing callback key `j` does. -/
theorem npk_callback {K : Keys} {idx j : Nat} {c : Ctx} {x : PKR Ref PKS KS} {es : KeyEvents Ev}
    (h : newPressedKey K idx c (.callback j) = .ok (x, es)) :
    ∃ cb, K.callback[j]? = some cb ∧ x = .newPressedKey .noOp ∧ es = [SchEv.imm (.keymap (.callback cb))] := by
  simp only [newPressedKey, CallbackKey.newPressedKey, Res.bind_eq_ok, Res.pure_eq, Res.ok.injEq, Prod.mk.injEq] at h
  obtain ⟨_, ⟨cb, hc, rfl⟩, rfl, rfl⟩ := h
  exact ⟨cb, Res.index_eq_ok.1 hc, rfl, rfl⟩

/-- Scheduled events are never callbacks: callbacks are immediate. -/
def NoTimedCb (km : KM Ref Ev Ctx PKS KS) : Prop := ∀ t ∈ km.sched.scheduled, cbOf t.event = []

theorem noTimed_of {S : Search} {es : KeyEvents Ev} {s s' : Sched Ev} (h : s.scheduleAll S es = .ok s')
    (hs : ∀ t ∈ s.scheduled, cbOf t.event = []) (hes : AllNoCb es ∨ ∀ e ∈ es, e.schedule = .immediate) :
    ∀ t ∈ s'.scheduled, cbOf t.event = [] := by
  intro t ht
  rcases scheduleAll_timed h ht with ht | ⟨se, hm, hi, he⟩
  · exact hs t ht
  · rcases hes with hes | hes
    · rw [← he]; exact (hes se hm).cbOf
    · exact absurd (hes se hm) hi

theorem npk_cb_cases {K : Keys} {idx : Nat} {c : Ctx} {r : Ref} {x : PKR Ref PKS KS} {es : KeyEvents Ev}
    (h : newPressedKey K idx c r = .ok (x, es)) :
    AllNoCb es ∨ ∃ j cb, r = .callback j ∧ K.callback[j]? = some cb ∧ es = [SchEv.imm (.keymap (.callback cb))] := by
  by_cases hr : ∃ j, r = .callback j
  · obtain ⟨j, rfl⟩ := hr
    obtain ⟨cb, h1, _, h2⟩ := npk_callback h
    exact Or.inr ⟨j, cb, rfl, h1, h2⟩
  · exact Or.inl (npk_noCb (fun j hj => hr ⟨j, hj⟩) h)

theorem noTimedCb_micro {K : Keys} {refs : List Ref} {S : Search} {Q : Event Ev → Prop} {a b : KM Ref Ev Ctx PKS KS}
    (h : NoTimedCb a) (hq : QInv (fun _ => True) a) (m : Micro (cfg K refs S) Q a b) : NoTimedCb b := by
  have npk : ∀ {idx c r x es}, newPressedKey K idx c r = .ok (x, es) →
      AllNoCb es ∨ ∀ e ∈ es, e.schedule = .immediate := by
    intro idx c r x es h
    rcases npk_cb_cases h with h | ⟨j, cb, rfl, _, rfl⟩
    · exact Or.inl h
    · right; simp [SchEv.imm]
  cases m with
  | updKey ev pre i r ks post ks' es s hp hu hs => exact noTimed_of hs h (Or.inl (state_noCb (c := a.ctx) hu))
  | ctxEv ev ctx es s hu hs => exact noTimed_of hs h (Or.inl (ctx_noCb hu))
  | take ev s hd =>
    intro t ht
    simp only [fire_sched] at ht
    rw [(Sched.dequeue_some hd).2.1] at ht
    exact h t ht
  | takeNone s hd =>
    intro t ht
    rcases Sched.dequeue_none hd with ⟨_, rfl⟩ | ⟨_, h2, _⟩
    · exact h t ht
    · simp only [h2] at ht; exact h t ht
  | pendUpd ev p pks npk es s hp hu hs => exact noTimed_of hs h (Or.inl (pend_noCb hu))
  | pendNpk p r pkr es s hp hu hs => exact noTimed_of hs h (npk hu)
  | resolve p ks km' hp hf he =>
    obtain ⟨_, _, rfl⟩ := resolveEnter_spec (hq.queued p hp) he
    intro t ht
    simp only [Sched.cancel, List.mem_map] at ht
    obtain ⟨t', ht', rfl⟩ := ht
    have := h t' ht'
    unfold Sched.cancelOne
    split
    · split <;> exact this
    · exact this
  | npk idx r pkr es s hp hq hn hu hs => exact noTimed_of hs h (npk hu)
  | _ => exact h

theorem noTimedCb_tick {s s' : Sched Ev} {d : Nat} (h : s.tick d = .ok s') (hs : ∀ t ∈ s.scheduled, cbOf t.event = []) :
    (∀ t ∈ s'.scheduled, cbOf t.event = []) ∧ owedCbs s'.pending = owedCbs s.pending := by
  obtain ⟨_, (⟨rfl, hno⟩ | ⟨t, rest, he, ht, _, rfl⟩)⟩ := Sched.tick_eq_ok h
  · exact ⟨hs, rfl⟩
  · refine ⟨fun t' ht' => hs t' (by rw [he]; exact List.mem_cons_of_mem _ ht'), ?_⟩
    simp only
    rw [owedCbs_append]
    have := hs t (by simp [he])
    cases hl : t.live <;> simp [owedCbs, this]

theorem noTimedCb_api (K : Keys) (refs : List Ref) (S : Search) : ApiInv (cfg K refs S) NoTimedCb where
  micro := fun _ _ h hq m => noTimedCb_micro h hq m
  frame := fun _ h _ _ _ _ _ => h
  enq := fun _ h _ _ => h
  deq := fun _ h _ _ _ => h
  ctx := fun _ h _ _ => h
  tick := fun _ h _ _ hs => (noTimedCb_tick hs h).1
  init := by intro a _ t ht; simp [KM.init, Sched.init] at ht

theorem owed_sched (a : KM Ref Ev Ctx PKS KS) (s : Sched Ev) (h : owedCbs s.pending = owedCbs a.sched.pending) :
    a.fired ++ (owedCbs s.pending).flatMap (Spec.invoke a.callbacks) = owed a := by
  rw [h]; rfl

/-- Every change of the callbacks due comes from pressing a callback key. -/
theorem owed_micro {K : Keys} {refs : List Ref} {S : Search} {Q : Event Ev → Prop} {a b : KM Ref Ev Ctx PKS KS}
    (hq : QInv (fun _ => True) a) (m : Micro (cfg K refs S) Q a b) :
    owed b = owed a ∨ ∃ j cb, K.callback[j]? = some cb ∧ owed b = owed a ++ Spec.invoke a.callbacks cb ∧
      ((∃ idx, Q (.input (.press idx)) ∧ PressRef (cfg K refs S) idx (.callback j)) ∨
        ∃ p, a.pend = some p ∧ Becomes (cfg K refs S) p.idx p.ref (.callback j)) := by
  have npk : ∀ {idx c r x es s}, newPressedKey K idx c r = .ok (x, es) → a.sched.scheduleAll S es = .ok s →
      owedCbs s.pending = owedCbs a.sched.pending ∨
      ∃ j cb, r = .callback j ∧ K.callback[j]? = some cb ∧ owedCbs s.pending = owedCbs a.sched.pending ++ [cb] := by
    intro idx c r x es s h hs
    rcases npk_cb_cases h with h | ⟨j, cb, rfl, hj, rfl⟩
    · exact Or.inl (scheduleAll_noCb hs h)
    · right
      refine ⟨j, cb, rfl, hj, ?_⟩
      rw [scheduleAll_owed hs]
      simp [SchEv.imm, cbOf]
  cases m with
  | updKey ev pre i r ks post ks' es s hp hu hs =>
    exact Or.inl (owed_sched a s (scheduleAll_noCb hs (state_noCb (c := a.ctx) hu)))
  | ctxEv ev ctx es s hu hs => exact Or.inl (owed_sched a s (scheduleAll_noCb hs (ctx_noCb hu)))
  | take ev s hd =>
    left
    unfold owed
    rw [fire_fired, fire_sched, fire_callbacks, (Sched.dequeue_some hd).1]
    simp [owedCbs]
  | takeNone s hd =>
    left
    rcases Sched.dequeue_none hd with ⟨_, rfl⟩ | ⟨h1, h2, _⟩
    · rfl
    · exact owed_sched a s (by rw [h1]; rfl)
  | pendUpd ev p pks npk es s hp hu hs => exact Or.inl (owed_sched a s (scheduleAll_noCb hs (pend_noCb hu)))
  | pendNpk p r pkr es s hp hu hs hb =>
    rcases npk hu hs with h | ⟨j, cb, rfl, hj, h⟩
    · exact Or.inl (owed_sched a s h)
    · refine Or.inr ⟨j, cb, hj, ?_, Or.inr ⟨p, hp, hb⟩⟩
      unfold owed
      simp only
      rw [h]; simp
  | resolve p ks km' hp hf he =>
    obtain ⟨_, _, rfl⟩ := resolveEnter_spec (hq.queued p hp) he
    exact Or.inl rfl
  | npk idx r pkr es s hp hq hn hu hs hb =>
    rcases npk hu hs with h | ⟨j, cb, rfl, hj, h⟩
    · exact Or.inl (owed_sched a s h)
    · refine Or.inr ⟨j, cb, hj, ?_, Or.inl ⟨idx, hq, hb⟩⟩
      unfold owed
      simp only
      rw [h]; simp
  | _ => exact Or.inl rfl

/-- Without physical key events and without a pending key, no callback becomes due. -/
theorem owed_nonphys {K : Keys} {refs : List Ref} {S : Search} {a b : KM Ref Ev Ctx PKS KS}
    (hq : QInv (fun _ => True) a) (hp : a.pend = none) (m : Steps (cfg K refs S) NonPhys a b) : owed b = owed a := by
  refine (m.inv (I := fun km => QInv (fun _ => True) km ∧ km.pend = none ∧ owed km = owed a) ?_ ⟨hq, hp, rfl⟩).2.2
  intro x y hx m
  refine ⟨hx.1.micro (Emits.trivial _) m, (nonphys_micro m hx.2.1).1, ?_⟩
  rcases owed_micro hx.1 m with h | ⟨j, cb, _, _, (⟨idx, hQ, _⟩ | ⟨p, hp, _⟩)⟩
  · exact h.trans hx.2.2
  · simp [NonPhys, Spec.physical] at hQ
  · rw [hx.2.1] at hp; simp at hp

theorem owed_quiet {a : KM Ref Ev Ctx PKS KS} (h : a.sched.pending = []) : owed a = a.fired := by
  simp [owed, h, owedCbs]

end Comp

end Verif
