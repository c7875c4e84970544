import Verif.Lemmas.Immediate
import Verif.Lemmas.Refs
import Verif.Example

/-!
# C14: input events are processed in arrival order

`km.log` lists the input events processed so far (taken from the queue, in that order), `km.inq` those
waiting.
-/

namespace Verif

section
variable {R Ev Ctx PKS KS : Type} {C : Cfg R Ev Ctx PKS KS} {ctx : Ctx} {P : R → Prop}

/-- C14, `handle_input`: the event is ignored iff 31 events are waiting; otherwise it joins the end of the
line, and at most one event is processed, the one that came first. -/
theorem C14_handle_input (hP : Immediate C P) {a b : KM R Ev Ctx PKS KS} {n : Nat} {ev : InputEvent}
    (hr : Reachable C ctx a) (h : handleInput C n a ev = .ok b) :
    (31 ≤ a.inq.length → b = { a with idle := 0 }) ∧
    (a.inq.length < 31 → b.log ++ b.inq = a.log ++ a.inq ++ [ev] ∧ a.log.length ≤ b.log.length ∧
      b.log.length ≤ a.log.length + 1 ∧ (a.delay = 0 → b.log.length = a.log.length + 1)) := by
  have hp := hP.api.of_reachable rfl hr
  have key := hP.handleInput hr.quiet.2 hp h
  simp only [inputCap] at key
  refine ⟨fun hl => ?_, fun hl => ?_⟩
  · rcases key with key | key
    · exact key.2
    · omega
  · rcases key with key | key
    · omega
    · refine ⟨key.2.1, key.2.2.1, key.2.2.2, fun hd => ?_⟩
      unfold handleInput at h
      simp only [inputCap] at h
      rw [if_neg (by omega), if_pos hd] at h
      split at h
      · rename_i he; simp at he
      · rename_i ie q hq
        simp only [Res.bind_eq_ok, Res.pure_eq, Res.ok.injEq] at h
        obtain ⟨km1, h2, rfl⟩ := h
        have := hP.steps (a := { a with idle := 0, inq := q, log := a.log ++ [ie] }) hp
          (processInputN_steps (Emits.trivial C) ⟨hr.quiet.2.pending, hr.quiet.2.scheduled, hr.quiet.2.queued⟩
            True.intro h2)
        simp only at this ⊢
        rw [this.2.2]; simp

/-- C14, `tick`: the line does not change, and at most the first waiting event is processed. -/
theorem C14_tick (hP : Immediate C P) {a b : KM R Ev Ctx PKS KS} {n : Nat}
    (hr : Reachable C ctx a) (h : tick C n a = .ok b) :
    b.log ++ b.inq = a.log ++ a.inq ∧ a.log.length ≤ b.log.length ∧ b.log.length ≤ a.log.length + 1 := by
  have := hP.tick hr.quiet.2 (hP.api.of_reachable rfl hr) h
  rw [this.1, this.2.1]
  split
  · refine ⟨by rw [List.append_assoc, List.take_append_drop], by simp, ?_⟩
    simp only [List.length_append, List.length_take]; omega
  · simp

/-- `k` ticks: the first `k - delay` waiting events are processed (`delay` is 0 or 1). -/
theorem Immediate.ticks (hP : Immediate C P) {a b : KM R Ev Ctx PKS KS} {n k : Nat}
    (hq : QInv (fun _ => True) a) (hp : a.pend = none) (h : ticks C n k a = .ok b) :
    b.log = a.log ++ a.inq.take (k - a.delay) ∧ b.inq = a.inq.drop (k - a.delay) := by
  induction k generalizing a with
  | zero => simp only [Verif.ticks, Res.ok.injEq] at h; subst h; simp
  | succ k ih =>
    simp only [Verif.ticks, Res.bind_eq_ok] at h
    obtain ⟨c, h1, h2⟩ := h
    have t := hP.tick hq hp h1
    have hc := hP.api.tickCall ⟨hp, hq⟩ h1
    have := ih hc.2 hc.1 h2
    rw [this.1, this.2, t.1, t.2.1, t.2.2]
    by_cases hd : a.delay = 0
    · simp only [hd, if_true, Nat.sub_zero]
      cases hi : a.inq with
      | nil => simp
      | cons x q => simp
    · simp only [hd, if_false]
      have e : k - (a.delay - 1) = k + 1 - a.delay := by omega
      rw [e]; simp

/-- C14: none is lost: after as many ticks as events wait (one more after a direct `handle_input`), all
of them have been processed, in order. -/
theorem C14_all_processed (hP : Immediate C P) {a b : KM R Ev Ctx PKS KS} {n k : Nat}
    (hr : Reachable C ctx a) (hk : a.inq.length + a.delay ≤ k) (h : ticks C n k a = .ok b) :
    b.inq = [] ∧ b.log = a.log ++ a.inq := by
  have := hP.ticks hr.quiet.2 (hP.api.of_reachable rfl hr) h
  rw [this.1, this.2]
  exact ⟨List.drop_eq_nil_of_le (by omega), by rw [List.take_of_length_le (by omega)]⟩

theorem Immediate.tickBy (hP : Immediate C P) {a b : KM R Ev Ctx PKS KS} {n d : Nat}
    (hq : QInv (fun _ => True) a) (hp : a.pend = none) (h : tickBy C n a d = .ok b) :
    b.log ++ b.inq = a.log ++ a.inq ∧ b.inq.length ≤ a.inq.length := by
  unfold Verif.tickBy at h
  split at h
  · have := hP.ticks (n := n) (k := 1) (b := b) hq hp (by simp [Verif.ticks, h])
    rw [this.1, this.2, List.append_assoc, List.take_append_drop]
    exact ⟨rfl, by simp⟩
  · split at h
    · simp at h
    · have := hP.ticks hq hp h
      rw [this.1, this.2, List.append_assoc, List.take_append_drop]
      exact ⟨rfl, by simp⟩

/-- One call. -/
theorem Immediate.step (hP : Immediate C P) {a b : KM R Ev Ctx PKS KS} {n : Nat} {op : Op}
    (hq : QInv (fun _ => True) a) (hp : a.pend = none) (h : step C n a op = .ok b) :
    (b.log ++ b.inq).Sublist (a.log ++ a.inq ++ Spec.inputs [op]) ∧
    (op ≠ .init → a.inq.length + (Spec.inputs [op]).length ≤ 31 →
      b.log ++ b.inq = a.log ++ a.inq ++ Spec.inputs [op] ∧
      b.inq.length ≤ a.inq.length + (Spec.inputs [op]).length) := by
  have inp : ∀ {a b : KM R Ev Ctx PKS KS} {ev : InputEvent}, QInv (fun _ => True) a → a.pend = none →
      Verif.handleInput C n a ev = .ok b → (b.log ++ b.inq).Sublist (a.log ++ a.inq ++ [ev]) ∧
      (a.inq.length + 1 ≤ 31 → b.log ++ b.inq = a.log ++ a.inq ++ [ev] ∧ b.inq.length ≤ a.inq.length + 1) := by
    intro a b ev hq hp h
    rcases hP.handleInput hq hp h with ⟨hl, rfl⟩ | ⟨hl, he, h1, h2⟩
    · exact ⟨by simp, fun h => by simp only [inputCap] at hl; omega⟩
    · refine ⟨by rw [he]; exact List.Sublist.refl _, fun _ => ⟨he, ?_⟩⟩
      have := congrArg List.length he
      simp only [List.length_append, List.length_cons, List.length_nil] at this
      omega
  cases op with
  | input ev => exact ⟨(inp hq hp h).1, fun _ hl => (inp hq hp h).2 hl⟩
  | tick =>
    have := hP.ticks (n := n) (k := 1) hq hp (b := b) (by simp only [Verif.step] at h; simp [Verif.ticks, h])
    simp only [Spec.inputs, List.append_nil]
    rw [this.1, this.2, List.append_assoc, List.take_append_drop]
    exact ⟨List.Sublist.refl _, fun _ _ => ⟨rfl, by simp⟩⟩
  | report =>
    simp only [Verif.step, Res.map_eq_ok, reportOutput, Res.bind_eq_ok, Res.pure_eq, Res.ok.injEq] at h
    obtain ⟨x, ⟨os, _, rfl⟩, rfl⟩ := h
    simp [Spec.inputs]
  | init =>
    simp only [Verif.step, Res.ok.injEq] at h; subst h
    refine ⟨?_, fun h => absurd rfl h⟩
    simp [KM.init, Spec.inputs]
  | setCallback c f =>
    simp only [Verif.step, KM.setCallback] at h
    split at h
    · simp only [Res.ok.injEq] at h; subst h; simp [Spec.inputs]
    · simp at h
  | setMsPerTick ms => simp only [Verif.step, Res.ok.injEq] at h; subst h; simp [Spec.inputs, KM.setMsPerTick]
  | inputAfter d ev =>
    simp only [Verif.step, Res.map_eq_ok, handleInputAfterTime, Res.bind_eq_ok] at h
    obtain ⟨x, ⟨c, h1, e, h2, nx, _, h3⟩, rfl⟩ := h
    split at h3
    · simp at h3
    · simp only [Res.pure_eq, Res.ok.injEq] at h3; subst h3
      have t := hP.tickBy hq hp h1
      have hc := hP.api.tickBy ⟨hp, hq⟩ h1
      have i := inp hc.2 hc.1 h2
      rw [t.1] at i
      simp only [Spec.inputs, List.length_cons, List.length_nil]
      refine ⟨i.1, fun _ hl => ?_⟩
      have := i.2 (by omega)
      exact ⟨this.1, by omega⟩
  | tickToNext =>
    simp only [Verif.step, Res.map_eq_ok, tickToNext, Res.bind_eq_ok] at h
    obtain ⟨x, ⟨nx, _, h3⟩, rfl⟩ := h
    split at h3
    · simp only [Res.bind_eq_ok, Res.pure_eq, Res.ok.injEq] at h3
      obtain ⟨c, h1, _, _, rfl⟩ := h3
      have t := hP.tickBy hq hp h1
      simp only [Spec.inputs, List.append_nil, List.length_nil, Nat.add_zero]
      rw [t.1]
      exact ⟨List.Sublist.refl _, fun _ _ => ⟨rfl, t.2⟩⟩
    · simp only [Res.pure_eq, Res.ok.injEq] at h3; subst h3; simp [Spec.inputs]

theorem Spec.inputs_cons (op : Op) (ops : List Op) : Spec.inputs (op :: ops) = Spec.inputs [op] ++ Spec.inputs ops := by
  cases op <;> simp [Spec.inputs]

theorem Immediate.run (hP : Immediate C P) {a b : KM R Ev Ctx PKS KS} {n : Nat} {ops : List Op}
    (ha : Both (fun km => km.pend = none) a) (h : run C n a ops = .ok b) :
    (b.log ++ b.inq).Sublist (a.log ++ a.inq ++ Spec.inputs ops) ∧
    (Op.init ∉ ops → a.inq.length + (Spec.inputs ops).length ≤ 31 →
      b.log ++ b.inq = a.log ++ a.inq ++ Spec.inputs ops) := by
  induction ops generalizing a with
  | nil => simp only [Verif.run, Res.ok.injEq] at h; subst h; simp [Spec.inputs]
  | cons op ops ih =>
    simp only [Verif.run, Res.bind_eq_ok] at h
    obtain ⟨c, h1, h2⟩ := h
    have s := hP.step ha.2 ha.1 h1
    have hc := hP.api.step ha h1
    have r := ih hc h2
    rw [Spec.inputs_cons, ← List.append_assoc]
    refine ⟨r.1.trans (s.1.append_right _), fun hi hl => ?_⟩
    simp only [List.length_append] at hl
    have e := s.2 (fun e => hi (by simp [e])) (by omega)
    rw [r.2 (fun e => hi (List.mem_cons_of_mem _ e)) (by omega), e.1]

/-- C14: over any sequence of calls, what has been processed followed by what is waiting is a subsequence
of the events that came in: none is duplicated, none overtakes another. -/
theorem C14_in_order (hP : Immediate C P) {b : KM R Ev Ctx PKS KS} {n : Nat} {ops : List Op}
    (h : run C n (KM.new ctx) ops = .ok b) : (b.log ++ b.inq).Sublist (Spec.inputs ops) := by
  have := (hP.run ⟨rfl, QInv.new _ _⟩ h).1
  simpa [KM.new] using this

/-- C14: and it is all of them when no more than 31 came in (and no `init` dropped them). -/
theorem C14_none_lost (hP : Immediate C P) {b : KM R Ev Ctx PKS KS} {n : Nat} {ops : List Op}
    (h : run C n (KM.new ctx) ops = .ok b) (hi : Op.init ∉ ops) (hl : (Spec.inputs ops).length ≤ 31) :
    b.log ++ b.inq = Spec.inputs ops := by
  have := (hP.run ⟨rfl, QInv.new _ _⟩ h).2 hi (by simpa [KM.new] using hl)
  simpa [KM.new] using this

end

namespace Comp

/-- Keys that never wait for a decision: all but tap-hold, tap-dance and chorded keys. -/
def immediateRef : Ref → Bool
  | .tapHold _ | .tapDance _ | .chorded _ => false
  | _ => true

/-- All key references and all entries of layered keys are of that kind. -/
structure NoDeferral (K : Keys) (refs : List Ref) : Prop where
  refs : ∀ r ∈ refs, immediateRef r = true
  base : ∀ k ∈ K.layered, immediateRef k.base = true
  layers : ∀ k ∈ K.layered, ∀ r, some r ∈ k.layered → immediateRef r = true

theorem NoDeferral.immediate {K : Keys} {refs : List Ref} (S : Search) (h : NoDeferral K refs) :
    Immediate (cfg K refs S) (fun r => immediateRef r = true) where
  refs := fun i r hr => h.refs r (List.mem_of_getElem? (Res.index_eq_ok.1 hr))
  next := by
    intro r hr i c r' es hn
    cases npk_child hn with
    | base hk => exact h.base _ (List.mem_of_getElem? hk)
    | layer hk hm => exact h.layers _ (List.mem_of_getElem? hk) _ hm
    | _ => simp [immediateRef] at hr
  pend := by
    intro r hr i c p es hn
    rcases npk_pending hn with ⟨i, q, rfl, _⟩ | ⟨i, q, rfl, _⟩ | ⟨l, q, rfl, _⟩ <;> simp [immediateRef] at hr

/-- C14 for the aggregate key system. -/
theorem C14_in_order {K : Keys} {refs : List Ref} {S : Search} {ctx : Ctx} (hK : NoDeferral K refs)
    {km : KM Ref Ev Ctx PKS KS} {n : Nat} {ops : List Op} (h : run (cfg K refs S) n (KM.new ctx) ops = .ok km) :
    (km.log ++ km.inq).Sublist (Spec.inputs ops) ∧
    (Op.init ∉ ops → (Spec.inputs ops).length ≤ 31 → km.log ++ km.inq = Spec.inputs ops) :=
  ⟨Verif.C14_in_order (hK.immediate S) h, Verif.C14_none_lost (hK.immediate S) h⟩

/-- C14 for the aggregate key system: every waiting event is processed by the following ticks. -/
theorem C14_all_processed {K : Keys} {refs : List Ref} {S : Search} {ctx : Ctx} (hK : NoDeferral K refs)
    {a b : KM Ref Ev Ctx PKS KS} {n k : Nat} (hr : Reachable (cfg K refs S) ctx a) (hk : a.inq.length + a.delay ≤ k)
    (h : ticks (cfg K refs S) n k a = .ok b) : b.inq = [] ∧ b.log = a.log ++ a.inq :=
  Verif.C14_all_processed (hK.immediate S) hr hk h

/-- The keys of the example keymap that decide at once. -/
def exRefs : List Ref := Ex.refs.filter immediateRef

/-- A keymap with layers, macros, sticky keys and caps word meets the hypothesis. -/
example : NoDeferral Ex.K exRefs ∧ exRefs.length = 12 := by
  refine ⟨⟨?_, ?_, ?_⟩, by decide⟩
  · decide
  · decide
  · intro k hk r hr
    simp only [Ex.K, List.mem_cons, List.not_mem_nil, or_false] at hk
    subst hk
    simp only [List.mem_cons, Option.some.injEq, reduceCtorEq, List.not_mem_nil, or_false] at hr
    subst hr; rfl

/-- Four events at once: one is processed directly, three wait; one per tick follows. -/
example : ((fun km => (km.log, km.inq, km.delay)) <$> run ⟨system Ex.K, exRefs, Search.std⟩ 9 Ex.km0
    [.input (.press 0), .input (.press 1), .input (.release 0), .input (.release 1), .tick, .tick]) =
      .ok ([.press 0, .press 1], [.release 0, .release 1], 0) := by decide +kernel

/-- With 31 events waiting the next one is ignored. -/
example : ((fun km => (km.log.length, km.inq.length)) <$> run ⟨system Ex.K, exRefs, Search.std⟩ 9 Ex.km0
    (List.replicate 33 (.input (.press 0)))) = .ok (1, 31) := by decide +kernel

end Comp
end Verif
