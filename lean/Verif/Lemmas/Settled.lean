import Verif.Keymap
import Verif.Lemmas.Scheduler

/-!
# Keymap steps that end with nothing left to do

Equations for the functions of the keymap when no key is pending and no event is waiting.
-/

namespace Verif

variable {R Ev Ctx PKS KS : Type}

theorem Sched.scheduleAll_append (S : Search) (s : Sched Ev) (es fs : KeyEvents Ev) :
    s.scheduleAll S (es ++ fs) = (s.scheduleAll S es >>= fun s => s.scheduleAll S fs) := by
  induction es generalizing s with
  | nil => rfl
  | cons e es ih =>
    simp only [List.cons_append, Sched.scheduleAll]
    cases h : s.scheduleEvent S e with
    | ok s1 => simp only [Res.ok_bind]; exact ih s1
    | panic p => rfl
    | fuel => rfl

/-- An immediate event is the next one to be handled, if none is waiting. -/
theorem Sched.scheduleAll_imm (S : Search) (s : Sched Ev) (h : s.pending = []) (e : Event Ev) :
    s.scheduleAll S [SchEv.imm e] = .ok { s with pending := [some e] } := by
  simp [Sched.scheduleAll, Sched.scheduleEvent, SchEv.imm, Sched.enqueue, h, pushCap, Sched.pendingCap]

/-- The events of the pressed keys, if none of them changes. -/
def eventsOf (evs : Nat → R → KS → KeyEvents Ev) (ps : List (PressedInput R KS)) : KeyEvents Ev :=
  ps.flatMap fun | .key i r ks => evs i r ks | .virt _ => []

theorem notifyPressed_eq (C : Cfg R Ev Ctx PKS KS) (ctx : Ctx) (ev : Event Ev) (evs : Nat → R → KS → KeyEvents Ev)
    (ps : List (PressedInput R KS)) (s : Sched Ev)
    (h : ∀ i r ks, PressedInput.key i r ks ∈ ps → C.sys.updateState ks r ctx i ev = .ok (ks, evs i r ks)) :
    notifyPressed C ctx ev ps s = (fun s' => (ps, s')) <$> s.scheduleAll C.search (eventsOf evs ps) := by
  induction ps generalizing s with
  | nil => rfl
  | cons p ps ih =>
    have ih' := fun s => ih s (fun i r ks hm => h i r ks (List.mem_cons_of_mem _ hm))
    cases p with
    | virt ko =>
      simp only [notifyPressed, ih', eventsOf, List.flatMap_cons, List.nil_append]
      cases s.scheduleAll C.search (List.flatMap _ ps) <;> rfl
    | key i r ks =>
      simp only [notifyPressed, h i r ks List.mem_cons_self, Res.ok_bind, eventsOf, List.flatMap_cons, Sched.scheduleAll_append]
      cases h1 : s.scheduleAll C.search (evs i r ks) with
      | ok s1 =>
        simp only [Res.ok_bind, ih', eventsOf]
        cases s1.scheduleAll C.search (List.flatMap _ ps) <;> rfl
      | panic p => rfl
      | fuel => rfl

/-- All keys and the context take an event and answer with nothing. -/
theorem notifyAll_quiet {C : Cfg R Ev Ctx PKS KS} {km : KM R Ev Ctx PKS KS} {ev : Event Ev} {ctx : Ctx}
    (h : ∀ i r ks, PressedInput.key i r ks ∈ km.pressed → C.sys.updateState ks r km.ctx i ev = .ok (ks, []))
    (hc : C.sys.ctxEvent km.ctx ev = .ok (ctx, [])) : notifyAll C km ev = .ok { km with ctx := ctx } := by
  have hnil : eventsOf (fun _ _ _ => []) km.pressed = ([] : KeyEvents Ev) := by
    simp only [eventsOf, List.flatMap_eq_nil_iff]
    intro x _
    cases x <;> rfl
  unfold notifyAll
  rw [notifyPressed_eq C km.ctx ev (fun _ _ _ => []) km.pressed km.sched h, hnil]
  simp only [Sched.scheduleAll, Res.map_ok, Res.ok_bind, hc]
  rfl

theorem drain_empty {he : Handler R Ev Ctx PKS KS} {n : Nat} {km : KM R Ev Ctx PKS KS} (h : km.sched.pending = []) :
    drain he (n + 1) km = .ok km := by
  simp only [drain, Sched.dequeue, h]

theorem drain_one {he : Handler R Ev Ctx PKS KS} {n : Nat} {km : KM R Ev Ctx PKS KS} {ev : Event Ev} {q : List (Option (Event Ev))}
    (h : km.sched.pending = some ev :: q) :
    drain he (n + 1) km = (he { km with sched := { km.sched with pending := q } } ev >>= fun km => drain he n km) := by
  simp only [drain, Sched.dequeue, h]

/-- Input with no key pending. -/
theorem processInput_none {C : Cfg R Ev Ctx PKS KS} {he : Handler R Ev Ctx PKS KS} {n : Nat} {km : KM R Ev Ctx PKS KS} (ev : InputEvent)
    (h : km.pend = none) : processInput C he n km ev = (processDirect C he n km ev >>= fun km => drain he n km) := by
  unfold processInput
  rw [h]

/-- Handling an event that is not an input event, with no key pending. -/
theorem handleEvent_quiet {C : Cfg R Ev Ctx PKS KS} {n : Nat} {km : KM R Ev Ctx PKS KS} {ev : Event Ev} {ctx : Ctx}
    (hp : km.pend = none) (hev : ∀ ie, ev ≠ .input ie)
    (h : ∀ i r ks, PressedInput.key i r ks ∈ km.pressed → C.sys.updateState ks r km.ctx i ev = .ok (ks, []))
    (hc : C.sys.ctxEvent km.ctx ev = .ok (ctx, [])) : handleEvent C (n + 1) km ev = .ok { km.fire ev with ctx := ctx } := by
  have hf : (km.fire ev).pend = none ∧ (km.fire ev).pressed = km.pressed ∧ (km.fire ev).ctx = km.ctx := by
    unfold KM.fire
    split
    · split <;> exact ⟨hp, rfl, rfl⟩
    · exact ⟨hp, rfl, rfl⟩
  simp only [handleEvent, handleBody, updatePending, hf.1, Res.pure_eq, Res.ok_bind]
  rw [notifyAll_quiet (km := km.fire ev) (by rw [hf.2.1, hf.2.2]; exact h) (by rw [hf.2.2]; exact hc)]
  cases ev with
  | input ie => exact absurd rfl (hev ie)
  | key i e => simp only [Res.ok_bind, Res.pure_eq, hf.1]
  | keymap e => simp only [Res.ok_bind, Res.pure_eq, hf.1]

end Verif
