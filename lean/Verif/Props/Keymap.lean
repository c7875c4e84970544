import Verif.Lemmas.KeysOk
import Verif.Lemmas.Ticks
import Verif.Example

/-!
# C12, C13, C14, C15, C17, C44, C46, C47, C48, C52: the keymap

The theorems without a `Comp` prefix hold for every key system. `Reachable C ctx km` says that `km`
is the state after some sequence of public calls on a new keymap.
-/

namespace Verif

open Spec (indices keys virtuals)

section
variable {R Ev Ctx PKS KS : Type} {C : Cfg R Ev Ctx PKS KS} {ctx : Ctx}

/-! ## C12 -/

/-- C12: between calls no immediate event is waiting, and `requires_polling` tells exactly whether an
input event is waiting. -/
theorem C12_no_immediate_work {km : KM R Ev Ctx PKS KS} (hr : Reachable C ctx km) :
    km.sched.pending = [] ∧ (km.requiresPolling = true ↔ km.inq ≠ []) := by
  have h := hr.quiet.1
  refine ⟨h, ?_⟩
  simp [KM.requiresPolling, h]

/-- A state in which polling is required: two events arrive before the next tick. -/
example : (KM.requiresPolling <$> run Ex.C 9 Ex.km0 [.input (.press 0), .input (.press 6)]) = .ok true ∧
    (KM.requiresPolling <$> run Ex.C 9 Ex.km0 [.input (.press 0), .input (.press 6), .tick, .tick]) = .ok false := by
  decide +kernel

/-! ## C13 -/

/-- C13: a physical key is down at most once, and the key being decided is not among the pressed
ones. -/
theorem C13_down_at_most_once {km : KM R Ev Ctx PKS KS} (hr : Reachable C ctx km) :
    (indices km.pressed).Nodup ∧ ∀ p, km.pend = some p → p.idx ∉ indices km.pressed :=
  (distinct_api C).of_reachable (Distinct.new ctx) hr

/-- C13: processing another press of a key that is down changes no pressed physical key. -/
theorem C13_repeat_ignored (hE : Emits C NonPhys) {km km' : KM R Ev Ctx PKS KS} {n i : Nat}
    (hq : QInv NonPhys km) (hp : km.pend = none) (hi : i ∈ indices km.pressed)
    (h : processInputN C n km (.press i) = .ok km') : km'.pend = none ∧ keys km'.pressed = keys km.pressed := by
  obtain ⟨km1, h1, h2⟩ := processInputN_direct hp h
  simp only [processDirect, Res.bind_eq_ok] at h1
  obtain ⟨km2, h3, h4⟩ := h1
  have sh := notifyAll_shape h3
  rw [if_pos (by rw [hasPressed_iff, sh.2.2.2.1]; exact hi)] at h4
  simp only [Res.pure_eq, Res.ok.injEq] at h4
  subst h4
  have q2 := hq.steps hE (notifyAll_steps (Q := NonPhys) h3)
  have := nonphys_steps (drainN_steps hE q2 h2) (by rw [sh.1, hp])
  exact ⟨this.1, this.2.trans sh.2.1⟩

/-- Two presses of the same key: it is down once. -/
example : ((fun km => (indices km.pressed, km.inq)) <$>
    run Ex.C 9 Ex.km0 [.input (.press 0), .tick, .input (.press 0), .tick]) = .ok ([0], []) := by decide +kernel

/-! ## C15 -/

theorem release_processed (hE : Emits C NonPhys) {km km' : KM R Ev Ctx PKS KS} {n i : Nat}
    (hq : QInv NonPhys km) (hp : km.pend = none) (hd : (indices km.pressed).Nodup)
    (h : processInputN C n km (.release i) = .ok km') :
    km'.pend = none ∧ keys km'.pressed = (keys km.pressed).filter (fun x => x.1 != i) := by
  obtain ⟨km1, h1, h2⟩ := processInputN_direct hp h
  simp only [processDirect, Res.bind_eq_ok] at h1
  obtain ⟨km2, h3, h4⟩ := h1
  have sh := notifyAll_shape h3
  simp only [Res.pure_eq, Res.ok.injEq] at h4
  have q2 := hq.steps hE (notifyAll_steps (Q := NonPhys) h3)
  have q1 : QInv NonPhys km1 := by rw [← h4]; exact ⟨q2.pending, q2.scheduled, q2.queued⟩
  have := nonphys_steps (drainN_steps hE q1 h2) (by rw [← h4]; simp only; rw [sh.1, hp])
  refine ⟨this.1, this.2.trans ?_⟩
  rw [← h4]
  simp only
  rw [keys_removeKey _ _ (by rw [sh.2.2.2.1]; exact hd), sh.2.1]

/-- C15: when no key is undecided, processing the release of key `i` removes exactly the entry of
`i` from the pressed physical keys. -/
theorem C15_release_removes (hE : Emits C NonPhys) {km km' : KM R Ev Ctx PKS KS} {n i : Nat}
    (hr : Reachable C ctx km) (hp : km.pend = none) (h : processInputN C n km (.release i) = .ok km') :
    i ∉ indices km'.pressed ∧ keys km'.pressed = (keys km.pressed).filter (fun x => x.1 != i) := by
  have hq : QInv NonPhys km := (qinv_api NonPhys hE).of_reachable (QInv.new _ ctx) hr
  have := (release_processed hE hq hp (C13_down_at_most_once hr).1 h).2
  refine ⟨?_, this⟩
  rw [indices_eq_keys, this, List.mem_map]
  rintro ⟨x, hx, rfl⟩
  simp at hx

/-- C15 at the level of `handle_input`: with nothing waiting, the release takes effect in the call. -/
theorem C15_handle_input (hE : Emits C NonPhys) {km km' : KM R Ev Ctx PKS KS} {n i : Nat}
    (hr : Reachable C ctx km) (hp : km.pend = none) (hi : km.inq = []) (hd : km.delay = 0)
    (h : handleInput C n km (.release i) = .ok km') :
    i ∉ indices km'.pressed ∧ keys km'.pressed = (keys km.pressed).filter (fun x => x.1 != i) := by
  have hq : QInv NonPhys km := (qinv_api NonPhys hE).of_reachable (QInv.new _ ctx) hr
  unfold handleInput at h
  rw [if_neg (by simp [hi, inputCap]), if_pos hd] at h
  simp only [hi, List.nil_append, Res.bind_eq_ok, Res.pure_eq, Res.ok.injEq] at h
  obtain ⟨km1, h1, rfl⟩ := h
  have hdis := (C13_down_at_most_once hr).1
  have := (release_processed hE (km := { km with idle := 0, inq := [], log := km.log ++ [.release i] })
    ⟨hq.pending, hq.scheduled, hq.queued⟩ hp hdis h1).2
  refine ⟨?_, this⟩
  rw [indices_eq_keys]
  show i ∉ List.map _ (keys km1.pressed)
  rw [this, List.mem_map]
  rintro ⟨x, hx, rfl⟩
  simp at hx

end

/-- C15 for the aggregate key system: every keymap, every reachable state. -/
theorem Comp.C15_release_removes (K : Keys) (refs : List Ref) (S : Search) {ctx : Comp.Ctx}
    {km km' : KM Ref Ev Comp.Ctx PKS KS} {n i : Nat}
    (hr : Reachable (cfg K refs S) ctx km) (hp : km.pend = none)
    (h : processInputN (cfg K refs S) n km (.release i) = .ok km') :
    i ∉ indices km'.pressed ∧ keys km'.pressed = (keys km.pressed).filter (fun x => x.1 != i) :=
  Verif.C15_release_removes (emits_nonPhys K refs S) hr hp h

/-- Releasing one of two held keys. -/
example : ((fun km => (indices km.pressed, km.inq, km.pend.isNone)) <$>
    run Ex.C 9 Ex.km0 [.input (.press 0), .tick, .input (.press 1), .tick, .input (.release 0)]) =
      .ok ([1], [], true) := by decide +kernel

/-! ## C17 -/

section
variable {R Ev Ctx PKS KS : Type} {C : Cfg R Ev Ctx PKS KS} {ctx : Ctx}

/-- The key state never changes and the key never reacts. -/
def Inert (C : Cfg R Ev Ctx PKS KS) (r : R) (ks : KS) : Prop :=
  ∀ ctx idx ev ks' es, C.sys.updateState ks r ctx idx ev = .ok (ks', es) → ks' = ks

/-- The event is not the release of key `i`. -/
def NotRelease (i : Nat) (e : Event Ev) : Prop := e ≠ .input (.release i)

theorem held_call (C : Cfg R Ev Ctx PKS KS) {i : Nat} {r : R} {ks : KS} (hI : Inert C r ks) :
    CallInv C (NotRelease i) (fun km => PressedInput.key i r ks ∈ km.pressed) where
  micro := by
    intro a b h hq m
    cases m with
    | updKey ev pre j r' ks1 post ks2 es s hp hu hs =>
      simp only [hp, List.mem_append, List.mem_cons, PressedInput.key.injEq] at h ⊢
      rcases h with h | ⟨rfl, rfl, rfl⟩ | h
      · exact Or.inl h
      · exact Or.inr (Or.inl ⟨rfl, rfl, (hI _ _ _ _ _ hu).symm⟩)
      · exact Or.inr (Or.inr h)
    | ctxEv ev ctx es s hu hs => exact h
    | take ev s hd => simpa using h
    | takeNone s hd => exact h
    | pendUpd ev p pks npk es s hp hu hs => exact h
    | pendNpk p r pkr es s hp hu hs => exact h
    | pendSwap p pks q q' hp h1 h2 => exact h
    | resolve p ks km' hp hf he =>
      obtain ⟨_, _, rfl⟩ := resolveEnter_spec (hq.q.queued p hp) he
      simp [h]
    | queue p ie q hp hq hc => exact h
    | npk idx r pkr es s hp hq hn hu hs => exact h
    | pushKey idx r ks ps hp hq hn hf hc =>
      obtain ⟨_, rfl⟩ := pushCap_eq_ok.1 hc
      simp [h]
    | startPend idx r pks hp hq hn => exact h
    | remKey idx hp hq =>
      have hne : idx ≠ i := by rintro rfl; exact hq rfl
      have : ∀ ps : List (PressedInput R KS), PressedInput.key i r ks ∈ ps →
          PressedInput.key i r ks ∈ removeKey idx ps := by
        intro ps
        induction ps with
        | nil => simp
        | cons x ps ih =>
          intro hx
          cases x with
          | virt ko =>
            simp only [removeKey, List.mem_cons] at hx ⊢
            rcases hx with hx | hx
            · cases hx
            · exact Or.inr (ih hx)
          | key j r' ks' =>
            simp only [List.mem_cons, PressedInput.key.injEq] at hx
            by_cases hj : j = idx
            · simp only [removeKey, hj, if_true]
              rcases hx with hx | hx
              · exact absurd (hj.symm.trans hx.1.symm) hne
              · exact hx
            · simp only [removeKey, hj, if_false, List.mem_cons, PressedInput.key.injEq]
              rcases hx with hx | hx
              · exact Or.inl hx
              · exact Or.inr (ih hx)
      exact this _ h
    | pushVirt ko ps hp hq hc =>
      obtain ⟨_, rfl⟩ := pushCap_eq_ok.1 hc
      simp [h]
    | remVirt ko hp hq =>
      have : ∀ ps : List (PressedInput R KS), PressedInput.key i r ks ∈ ps →
          PressedInput.key i r ks ∈ removeVirt ko ps := by
        intro ps
        induction ps with
        | nil => simp
        | cons x ps ih =>
          intro hx
          cases x with
          | key j r' ks' =>
            simp only [removeVirt, List.mem_cons] at hx ⊢
            rcases hx with hx | hx
            · exact Or.inl hx
            · exact Or.inr (ih hx)
          | virt ko' =>
            simp only [List.mem_cons] at hx
            rcases hx with hx | hx
            · cases hx
            · by_cases hj : ko' = ko
              · simp [removeVirt, hj, hx]
              · simp [removeVirt, hj, ih hx]
      exact this _ h
  frame := fun _ h _ _ _ _ _ => h
  enq := fun _ h _ _ _ => h
  deq := fun _ h _ _ _ => h
  ctx := fun _ h _ _ => h
  tick := fun _ h _ _ _ => h

/-- C17: a resolved key whose state never changes stays pressed as the same key through every
sequence of calls that does not bring its release (and is no reset). -/
theorem C17_held_key_fixed (hE : Emits C NonPhys) {km km' : KM R Ev Ctx PKS KS} {n i : Nat} {r : R} {ks : KS}
    {ops : List Op} (hI : Inert C r ks) (hr : Reachable C ctx km) (hk : .key i r ks ∈ km.pressed)
    (hin : .release i ∉ km.inq) (hb : ∀ p, km.pend = some p → .input (.release i) ∉ p.queued)
    (ho : ∀ op ∈ ops, op ≠ .init ∧ op ≠ .input (.release i) ∧ ∀ d, op ≠ .inputAfter d (.release i))
    (h : run C n km ops = .ok km') : .key i r ks ∈ km'.pressed := by
  have hE' : Emits C (NotRelease i) := hE.weaken (by
    rintro e he rfl; simp [NonPhys, Spec.physical] at he)
  have hq : QInv (NotRelease i) km := (qinv_api _ hE').of_reachable (QInv.new _ ctx) hr
  refine ((held_call C hI).run hE' ?_ ⟨hk, hq, ?_, ?_⟩ h).1
  · intro op hop
    have := ho op hop
    cases op with
    | input ev => intro e; cases e; exact this.2.1 rfl
    | inputAfter d ev => intro e; cases e; exact this.2.2 d rfl
    | init => exact this.1 rfl
    | _ => trivial
  · intro ie hie e; cases e; exact hin hie
  · intro p hp e he e'; subst e'; exact hb p hp he

/-- The output of a pressed key is among the pressed outputs. -/
theorem output_mem {ps : List (PressedInput R KS)} {os : List KeyOutput} {i : Nat} {r : R} {ks : KS} {ko : KeyOutput}
    (hk : .key i r ks ∈ ps) (ho : C.sys.keyOutput r ks = .ok (some ko)) (h : pressedOutputs C.sys ps = .ok os) :
    ko ∈ os := by
  induction ps generalizing os with
  | nil => simp at hk
  | cons x ps ih =>
    cases x with
    | virt ko' =>
      simp only [pressedOutputs, Res.bind_eq_ok, Res.pure_eq, Res.ok.injEq] at h
      obtain ⟨os1, h1, rfl⟩ := h
      simp only [List.mem_cons] at hk
      rcases hk with hk | hk
      · cases hk
      · exact List.mem_cons_of_mem _ (ih hk h1)
    | key j r' ks' =>
      simp only [pressedOutputs, Res.bind_eq_ok, Res.pure_eq, Res.ok.injEq] at h
      obtain ⟨o, h0, os1, h1, rfl⟩ := h
      simp only [List.mem_cons, PressedInput.key.injEq] at hk
      rcases hk with ⟨rfl, rfl, rfl⟩ | hk
      · rw [ho] at h0
        simp only [Res.ok.injEq] at h0
        subst h0; simp
      · exact List.mem_append_right _ (ih hk h1)

end

namespace Comp

/-- Keyboard, consumer, custom and mouse keys (and keys that do nothing) have no changing state. -/
theorem inert_plain (K : Keys) (refs : List Ref) (S : Search) (r : Ref) (ks : KS)
    (h : ks = .keyboard ∨ ks = .consumer ∨ ks = .custom ∨ ks = .mouse ∨ ks = .noOp) :
    Inert (cfg K refs S) r ks := by
  intro c idx ev ks' es hu
  simp only [cfg, system, updateState] at hu
  rcases h with rfl | rfl | rfl | rfl | rfl <;> cases r <;>
    simp only [Res.ok.injEq, Prod.mk.injEq] at hu <;> exact hu.1.symm

/-- C17 for the aggregate key system: a held keyboard, consumer, custom or mouse key keeps its output
through every sequence of calls that does not bring its release. -/
theorem C17_held_key_output (K : Keys) (refs : List Ref) (S : Search) {ctx : Ctx}
    {km km' : KM Ref Ev Ctx PKS KS} {n i : Nat} {r : Ref} {ks : KS} {ko : KeyOutput} {ops : List Op}
    {os : List KeyOutput}
    (hks : ks = .keyboard ∨ ks = .consumer ∨ ks = .custom ∨ ks = .mouse)
    (hr : Reachable (cfg K refs S) ctx km) (hk : .key i r ks ∈ km.pressed)
    (hko : keyOutput K r ks = .ok (some ko))
    (hin : .release i ∉ km.inq) (hb : ∀ p, km.pend = some p → .input (.release i) ∉ p.queued)
    (ho : ∀ op ∈ ops, op ≠ .init ∧ op ≠ .input (.release i) ∧ ∀ d, op ≠ .inputAfter d (.release i))
    (h : run (cfg K refs S) n km ops = .ok km') (hos : km'.pressedKeys (cfg K refs S) = .ok os) :
    .key i r ks ∈ km'.pressed ∧ ko ∈ os := by
  have h1 := C17_held_key_fixed (emits_nonPhys K refs S) (inert_plain K refs S r ks (by rcases hks with h | h | h | h <;> simp [h])) hr hk hin hb ho h
  exact ⟨h1, output_mem h1 hko hos⟩

/-- The layered key 4 pressed while layer 1 is held keeps the layer's key code 7 after the layer key
is released. -/
example : ((fun km => (indices km.pressed, km.pressedKeys Ex.C)) <$>
    run Ex.C 9 Ex.km0 [.input (.press 3), .tick, .input (.press 4), .tick, .input (.release 3), .tick]) =
      .ok ([4], .ok [KeyOutput.fromKeyCode 7]) := by decide +kernel

end Comp

/-! ## C48 -/

section
variable {R Ev Ctx PKS KS : Type} {C : Cfg R Ev Ctx PKS KS} {ctx : Ctx}

/-- C48: a virtual press, processed while no key is undecided, adds one entry; a virtual release
removes exactly one equal entry, if there is one. Neither touches a physical key. (These are the
effects of the event itself, before the events it leads to are handled.) -/
theorem C48_virtual_counted {km km' : KM R Ev Ctx PKS KS} {he : Handler R Ev Ctx PKS KS} {n : Nat} {ko : KeyOutput} :
    (processDirect C he n km (.vpress ko) = .ok km' →
      virtuals km'.pressed = virtuals km.pressed ++ [ko] ∧ keys km'.pressed = keys km.pressed) ∧
    (processDirect C he n km (.vrelease ko) = .ok km' →
      virtuals km'.pressed = (virtuals km.pressed).erase ko ∧ keys km'.pressed = keys km.pressed) := by
  constructor
  · intro h
    simp only [processDirect, Res.bind_eq_ok, Res.pure_eq, Res.ok.injEq] at h
    obtain ⟨km1, h1, ps, h2, rfl⟩ := h
    obtain ⟨_, rfl⟩ := pushCap_eq_ok.1 h2
    have := notifyAll_shape h1
    simp [this]
  · intro h
    simp only [processDirect, Res.bind_eq_ok, Res.pure_eq, Res.ok.injEq] at h
    obtain ⟨km1, h1, rfl⟩ := h
    have := notifyAll_shape h1
    simp [this, virtuals_removeVirt, keys_removeVirt]

/-- None of the pressed keys, and not the context, reacts to virtual key events. -/
structure NoVirtualReaction (C : Cfg R Ev Ctx PKS KS) (ps : List (PressedInput R KS)) : Prop where
  keys : ∀ i r ks, .key i r ks ∈ ps → ∀ c ko, C.sys.updateState ks r c i (.input (.vpress ko)) = .ok (ks, []) ∧
    C.sys.updateState ks r c i (.input (.vrelease ko)) = .ok (ks, [])
  ctx : ∀ c ko, C.sys.ctxEvent c (.input (.vpress ko)) = .ok (c, []) ∧
    C.sys.ctxEvent c (.input (.vrelease ko)) = .ok (c, [])

theorem notifyPressed_noReaction {ps : List (PressedInput R KS)} (hN : NoVirtualReaction C ps) (c : Ctx) (ie : InputEvent)
    (hv : (∃ ko, ie = .vpress ko) ∨ ∃ ko, ie = .vrelease ko) (s : Sched Ev) :
    notifyPressed C c (.input ie) ps s = .ok (ps, s) := by
  induction ps with
  | nil => rfl
  | cons x ps ih =>
    have ih := ih ⟨fun i r ks hm => hN.keys i r ks (List.mem_cons_of_mem _ hm), hN.ctx⟩
    cases x with
    | virt ko => simp [notifyPressed, ih]
    | key i r ks =>
      have hk := hN.keys i r ks List.mem_cons_self c
      rcases hv with ⟨ko, rfl⟩ | ⟨ko, rfl⟩
      · simp [notifyPressed, (hk ko).1, Sched.scheduleAll, ih]
      · simp [notifyPressed, (hk ko).2, Sched.scheduleAll, ih]

/-- Exact effect of a virtual event when nobody reacts to it. -/
theorem processInputN_virtual {km : KM R Ev Ctx PKS KS} (hN : NoVirtualReaction C km.pressed) {n : Nat} {ko : KeyOutput}
    (hp : km.pend = none) (hq : km.sched.pending = []) :
    (km.pressed.length < maxPressedKeys →
      processInputN C (n + 1) km (.vpress ko) = .ok { km with pressed := km.pressed ++ [.virt ko] }) ∧
    processInputN C (n + 1) km (.vrelease ko) = .ok { km with pressed := removeVirt ko km.pressed } := by
  constructor
  · intro hl
    have : pushCap maxPressedKeys km.pressed (.virt ko : PressedInput R KS) = .ok (km.pressed ++ [.virt ko]) :=
      pushCap_eq_ok.2 ⟨hl, rfl⟩
    simp [processInputN, processInput, hp, processDirect, notifyAll, notifyPressed_noReaction hN,
      (hN.ctx km.ctx ko).1, Sched.scheduleAll, this, drain, Sched.dequeue, hq]
  · simp [processInputN, processInput, hp, processDirect, notifyAll, notifyPressed_noReaction hN,
      (hN.ctx km.ctx ko).2, Sched.scheduleAll, drain, Sched.dequeue, hq]

/-- Process a list of input events one after the other. -/
def processAll (C : Cfg R Ev Ctx PKS KS) (n : Nat) (km : KM R Ev Ctx PKS KS) : List InputEvent → Res (KM R Ev Ctx PKS KS)
  | [] => .ok km
  | ie :: ies => do
    let km ← processInputN C n km ie
    processAll C n km ies

theorem processAll_append {n : Nat} {km : KM R Ev Ctx PKS KS} (a b : List InputEvent) :
    processAll C n km (a ++ b) = processAll C n km a >>= fun km => processAll C n km b := by
  induction a generalizing km with
  | nil => rfl
  | cons x a ih => simp [processAll, ih]

theorem keysVirt_perm {a b : List (PressedInput R KS)} (hv : (virtuals a).Perm (virtuals b))
    (hk : a.filter (fun | .key .. => true | .virt _ => false) = b.filter (fun | .key .. => true | .virt _ => false)) :
    a.Perm b := by
  have split : ∀ l : List (PressedInput R KS),
      l.Perm (l.filter (fun | .key .. => true | .virt _ => false) ++ (virtuals l).map .virt) := by
    intro l
    induction l with
    | nil => simp
    | cons x l ih =>
      cases x with
      | key i r ks => simpa using ih.cons (.key i r ks)
      | virt ko => exact (ih.cons (.virt ko)).trans (List.perm_middle.symm)
  refine (split a).trans (.trans ?_ (split b).symm)
  rw [hk]
  exact (hv.map PressedInput.virt).append_left _

theorem filter_removeVirt (ko : KeyOutput) (l : List (PressedInput R KS)) :
    (removeVirt ko l).filter (fun | .key .. => true | .virt _ => false) =
      l.filter (fun | .key .. => true | .virt _ => false) := by
  induction l with
  | nil => rfl
  | cons x l ih =>
    cases x with
    | key i r ks => simp [removeVirt, ih]
    | virt ko' => by_cases h : ko' = ko <;> simp [removeVirt, h, ih]

/-- C48: `m` presses of a virtual key followed by `m` releases leave the pressed inputs as they were
(as a multiset), if nothing reacts to virtual events. -/
theorem C48_presses_releases {km : KM R Ev Ctx PKS KS} (hN : NoVirtualReaction C km.pressed) {n m : Nat}
    {ko : KeyOutput}
    (hp : km.pend = none) (hq : km.sched.pending = []) (hm : km.pressed.length + m ≤ maxPressedKeys) :
    ∃ ps, processAll C (n + 1) km (List.replicate m (.vpress ko) ++ List.replicate m (.vrelease ko)) =
      .ok { km with pressed := ps } ∧ ps.Perm km.pressed := by
  have h1 : ∀ (m : Nat) (ps : List (PressedInput R KS)), NoVirtualReaction C ps → ps.length + m ≤ maxPressedKeys →
      processAll C (n + 1) { km with pressed := ps } (List.replicate m (.vpress ko)) =
        .ok { km with pressed := ps ++ List.replicate m (.virt ko) } := by
    intro m
    induction m with
    | zero => intro ps _ _; simp [processAll]
    | succ m ih =>
      intro ps hN hl
      rw [List.replicate_succ, processAll,
        (processInputN_virtual (km := { km with pressed := ps }) hN hp hq).1 (by simp only; omega)]
      simp only [Res.ok_bind]
      rw [ih _ ⟨fun i r ks hm => hN.keys i r ks (by simpa using hm), hN.ctx⟩ (by simp; omega)]
      simp [List.replicate_succ]
  have h2 : ∀ (m : Nat) (ps : List (PressedInput R KS)), NoVirtualReaction C ps →
      ∃ ps', processAll C (n + 1) { km with pressed := ps } (List.replicate m (.vrelease ko)) =
        .ok { km with pressed := ps' } ∧ ps'.filter (fun | .key .. => true | .virt _ => false) =
          ps.filter (fun | .key .. => true | .virt _ => false) ∧
        ∀ x, (virtuals ps').count x = if x = ko then (virtuals ps).count x - m else (virtuals ps).count x := by
    intro m
    induction m with
    | zero => intro ps _; exact ⟨ps, rfl, rfl, by simp⟩
    | succ m ih =>
      intro ps hN
      rw [List.replicate_succ, processAll,
        (processInputN_virtual (km := { km with pressed := ps }) hN hp hq).2]
      simp only [Res.ok_bind]
      obtain ⟨ps', e, e1, e2⟩ := ih (removeVirt ko ps)
        ⟨fun i r ks hm => hN.keys i r ks ((removeVirt_sublist _ _).subset hm), hN.ctx⟩
      refine ⟨ps', e, e1.trans (filter_removeVirt _ _), fun x => ?_⟩
      rw [e2 x, virtuals_removeVirt]
      by_cases hx : x = ko
      · subst hx; simp only [if_true, List.count_erase_self]; omega
      · simp only [if_neg hx]
        exact List.count_erase_of_ne hx
  rw [processAll_append]
  have := h1 m km.pressed hN hm
  rw [this]
  simp only [Res.ok_bind]
  obtain ⟨ps', e, e1, e2⟩ := h2 m (km.pressed ++ List.replicate m (.virt ko))
    ⟨fun i r ks hm => hN.keys i r ks (by simpa using hm), hN.ctx⟩
  have hv : virtuals (List.replicate m (.virt ko) : List (PressedInput R KS)) = List.replicate m ko := by
    induction m with
    | zero => rfl
    | succ m ih => simp [virtuals]
  refine ⟨ps', e, keysVirt_perm ?_ ?_⟩
  · rw [List.perm_iff_count]
    intro x
    rw [e2 x]
    simp only [virtuals_append, hv, List.count_append, List.count_replicate]
    by_cases hx : x = ko
    · subst hx; simp
    · simp [hx, Ne.symm hx]
  · rw [e1, List.filter_append]
    simp

end

namespace Comp

/-- The aggregate key system does not react to virtual key events. -/
theorem noVirtualReaction (K : Keys) (refs : List Ref) (S : Search) {km : KM Ref Ev Ctx PKS KS} (h : KeysOk K km) :
    NoVirtualReaction (cfg K refs S) km.pressed :=
  ⟨fun i r ks hm c ko => keyOk_virtual (h i r ks hm) c i ko, fun c ko => ⟨rfl, rfl⟩⟩

/-- C48 for the aggregate key system, in every reachable state with no key undecided. -/
theorem C48_presses_releases (K : Keys) (refs : List Ref) (S : Search) {ctx : Ctx} {km : KM Ref Ev Ctx PKS KS}
    {n m : Nat} {ko : KeyOutput} (hr : Reachable (cfg K refs S) ctx km) (hp : km.pend = none)
    (hm : km.pressed.length + m ≤ maxPressedKeys) :
    ∃ ps, processAll (cfg K refs S) (n + 1) km (List.replicate m (.vpress ko) ++ List.replicate m (.vrelease ko)) =
      .ok { km with pressed := ps } ∧ ps.Perm km.pressed :=
  Verif.C48_presses_releases (noVirtualReaction K refs S ((keysOk_api K refs S).of_reachable (KeysOk.new K ctx) hr))
    hp hr.quiet.1 hm

/-- Three presses and two releases of a virtual key beside a held key leave one. -/
example : ((fun km => (indices km.pressed, (virtuals km.pressed).length)) <$>
    (run Ex.C 9 Ex.km0 [.input (.press 0)] >>= fun km => processAll Ex.C 9 km
      [.vpress (KeyOutput.fromKeyCode 4), .vpress (KeyOutput.fromKeyCode 4), .vrelease (KeyOutput.fromKeyCode 4),
       .vpress (KeyOutput.fromKeyCode 4), .vrelease (KeyOutput.fromKeyCode 4)])) = .ok ([0], 1) := by decide +kernel

end Comp

end Verif
