import Verif.Spec.BleKeyboard
import Verif.Lemmas.BleDeliver
import Verif.Lemmas.BleRuns

/-!
# C94: what the host of a ch58x keyboard takes for pressed
-/

namespace Verif.Ble

open Verif.Board (Queued Entry Cell)
open Verif.Keyboard (start Proper Has HeldOk held_nil held_count outputs_cells map_req plainCodes_req req codes)
open Hid

section

variable {K : Comp.Keys} {refs : List Comp.Ref} {S : Search} {layout : List Entry} {n : Nat} {row : Nat → Nat} {rows : Nat}
variable {c : Comp.Config} {count : Nat}

theorem moved_fresh {s : CState} (ht : Sized count s) : moved s = fresh s := by
  rw [moved, Firmware.C54_changes _ _ (ht.closed.trans ht.debounced.symm), fresh]
  suffices H : ∀ (ds cs : List Bool) (i : Nat), (changes i (List.zipWith (fun d r => if r = d then none else some r) ds cs)).length =
      ((ds.zip cs).filter fun p => p.1 != p.2).length from H _ _ _
  intro ds
  induction ds with
  | nil => intro cs i; rfl
  | cons d ds ih =>
    intro cs i
    cases cs with
    | nil => rfl
    | cons x cs =>
      rw [List.zipWith_cons_cons, List.zip_cons_cons, List.filter_cons]
      by_cases hx : x = d
      · subst hx
        simpa [changes] using ih cs (i + 1)
      · rw [if_neg hx, if_pos (by simpa using fun h => hx h.symm)]
        simpa [changes] using ih cs (i + 1)

theorem core_new (hp : Comp.Plain K refs c layout) (count : Nat) :
    Core K layout c count (State.new count (KM.new (Comp.Ctx.fromConfig c))) 0 (Queued.new c.layerCount) [] := by
  have h := Comp.SimQ.start (K := K) hp.chords
  refine ⟨⟨⟨⟨h.sim.1, h.sim.2, h.sim.3, h.sim.4, h.sim.5, h.sim.6, h.sim.7, h.sim.8, h.sim.9, h.sim.10, h.sim.11, h.sim.12, h.sim.13, h.sim.14⟩,
    h.inq, h.delay, h.scheduled, h.counter, h.idle, rfl, h.phys⟩, ⟨[], rfl, rfl⟩, by simp [Queued.new], by simp [Queued.new], Nat.le_refl _⟩,
    by simp, rfl, ⟨rfl, rfl⟩, fun _ => ⟨fun _ => rfl, fun _ => by simp [Queued.new], fun _ => ⟨rfl, ?_, zero, ⟨rfl, rfl⟩, (show zero.update [] = .ok zero by decide)⟩⟩⟩
  show min (Queued.new c.layerCount).board.outputs.length 17 ≤ _
  have : (Queued.new c.layerCount).board.outputs = [] := rfl
  rw [this]; simp

theorem core_run (hp : Comp.Plain K refs c layout) (hc : count ≤ layout.length) (hcount : count ≤ 255) (hr : ∀ k < count, row k < rows) {is : List Input} {s' : CState} :
    ∀ {s : CState} {t : Nat} {m : Queued} {evs : List CApi.CEvent} {p : Phase}, Core K layout c count s t m evs → Track count s → At p s →
    undisturbed ⟨Comp.system K, refs, S⟩ (n + 2) row rows s is = true → (∀ cl, Input.move cl ∈ is → cl.length = count) →
    roomy ⟨Comp.system K, refs, S⟩ (n + 2) row rows s is = true → s.run ⟨Comp.system K, refs, S⟩ (n + 2) row rows is = .ok s' →
    (∃ t' m' evs', Core K layout c count s' t' m' evs') ∧ Track count s' ∧ ∃ p', At p' s' := by
  induction is with
  | nil => intro s t m evs p h ht ha _ _ _ e; cases e; exact ⟨⟨t, m, evs, h⟩, ht, p, ha⟩
  | cons i is ih =>
    intro s t m evs p h ht ha hu hm hro e
    simp only [State.run] at e
    obtain ⟨s1, e1, e⟩ := Res.bind_eq_ok.1 e
    simp only [undisturbed, e1, Bool.and_eq_true] at hu
    simp only [roomy, e1, Bool.and_eq_true] at hro
    obtain ⟨p1, ha1⟩ := at_step ha e1
    have ht1 := track_step hcount hr ha ht (fun c hc => ⟨by subst hc; exact of_decide_eq_true hu.1, hm c (hc ▸ List.mem_cons_self)⟩) e1
    obtain ⟨_, ⟨t1, m1, evs1, h1, _⟩, _⟩ := step_core hp hc hcount h ht.sized ha (fun ok hok => by
      subst hok; rw [moved_fresh ht.sized]; exact of_decide_eq_true hro.1) e1
    exact ih h1 ht1 ha1 hu.2 (fun c hc => hm c (List.mem_cons_of_mem _ hc)) hro.2 e

theorem closed_run {C : Cfg Comp.Ref Comp.Ev Comp.Ctx Comp.PKS Comp.KS} {n : Nat} {is : List Input} {s' : CState} :
    ∀ {s : CState}, s.run C n row rows is = .ok s' → s'.closed = closedAfter s.closed is := by
  induction is with
  | nil => intro s e; cases e; rfl
  | cons i is ih =>
    intro s e
    simp only [State.run] at e
    obtain ⟨s1, e1, e⟩ := Res.bind_eq_ok.1 e
    rw [ih e]
    cases i with
    | move c =>
      simp only [State.step] at e1
      split at e1 <;> cases e1 <;> rfl
    | _ => rw [(step_matrix (by simp) e1).1]; rfl

theorem run_append_of {C : Cfg Comp.Ref Comp.Ev Comp.Ctx Comp.PKS Comp.KS} {n : Nat} {is js : List Input} : ∀ {s s1 : CState},
    s.run C n row rows is = .ok s1 → s.run C n row rows (is ++ js) = s1.run C n row rows js := by
  induction is with
  | nil => intro s s1 e; cases e; rfl
  | cons i is ih =>
    intro s s1 e
    simp only [State.run] at e
    obtain ⟨s2, e1, e⟩ := Res.bind_eq_ok.1 e
    simp only [List.cons_append, State.run, e1, Res.ok_bind]
    exact ih e

theorem roomy_append {C : Cfg Comp.Ref Comp.Ev Comp.Ctx Comp.PKS Comp.KS} {n : Nat} {is js : List Input} : ∀ {s s1 : CState},
    s.run C n row rows is = .ok s1 → roomy C n row rows s (is ++ js) = true → roomy C n row rows s is = true ∧ roomy C n row rows s1 js = true := by
  induction is with
  | nil => intro s s1 e h; cases e; exact ⟨rfl, h⟩
  | cons i is ih =>
    intro s s1 e h
    simp only [State.run] at e
    obtain ⟨s2, e1, e⟩ := Res.bind_eq_ok.1 e
    simp only [List.cons_append, roomy, e1, Bool.and_eq_true] at h ⊢
    exact ⟨⟨h.1, (ih e h.2).1⟩, (ih e h.2).2⟩

theorem undisturbed_noMove {C : Cfg Comp.Ref Comp.Ev Comp.Ctx Comp.PKS Comp.KS} {n : Nat} {is : List Input} : ∀ {s : CState}, (∀ i ∈ is, ∀ c, i ≠ .move c) →
    undisturbed C n row rows s is = true := by
  induction is with
  | nil => intro s _; rfl
  | cons i is ih =>
    intro s h
    simp only [undisturbed, Bool.and_eq_true]
    constructor
    · split
      · next c => exact absurd rfl (h _ List.mem_cons_self c)
      · rfl
    · split
      · exact ih fun j hj => h j (List.mem_cons_of_mem _ hj)
      · rfl

theorem undisturbed_append {C : Cfg Comp.Ref Comp.Ev Comp.Ctx Comp.PKS Comp.KS} {n : Nat} {is js : List Input} : ∀ {s s1 : CState},
    s.run C n row rows is = .ok s1 → undisturbed C n row rows s is = true → undisturbed C n row rows s1 js = true → undisturbed C n row rows s (is ++ js) = true := by
  induction is with
  | nil => intro s s1 e _ h; cases e; exact h
  | cons i is ih =>
    intro s s1 e h1 h2
    simp only [State.run] at e
    obtain ⟨s2, e1, e⟩ := Res.bind_eq_ok.1 e
    simp only [List.cons_append, undisturbed, e1, Bool.and_eq_true] at h1 ⊢
    exact ⟨h1.1, ih e h1.2 h2⟩

theorem accepted_rounds (k : Nat) : Accepted (List.replicate k round).flatten := by
  intro ok ho
  obtain ⟨l, h1, h2⟩ := List.mem_flatten.1 ho
  rw [(List.mem_replicate.1 h1).2] at h2
  simpa [round] using h2

theorem getLastD_of {α : Type} {a b : α} {l : List α} (h : (a :: l).getLast? = some b) : l.getLastD a = b := by
  cases l with
  | nil => simpa using h
  | cons x l =>
    rw [List.getLast?_cons_cons] at h
    rw [List.getLastD_eq_getLast?, h]; rfl

/-- The keyboard report of these outputs, read with the report map. -/
theorem showsBle {outs : List KeyOutput} (hp : ∀ o ∈ outs, Proper o) (hl : outs.length ≤ 16) {rep : CApi.HidReport} (hu : zero.update outs = .ok rep) :
    ∃ r, reading bleMap (bleBytes (.keyboard rep.keyboard)).1 (bleBytes (.keyboard rep.keyboard)).2 = some r ∧ ShowsBle outs r := by
  have hm := map_req hp
  obtain ⟨rep1, r, a1, a2, a3, a4, a5⟩ := Hid.C79_keyboard_partial (outs.map req) (by simpa [maxPressedKeys] using hl) zero rfl
  rw [hm, hu] at a1
  cases a1
  rw [plainCodes_req hp] at a4
  refine ⟨r, a2, fun i hi => (a3 i hi).trans ⟨?_, ?_⟩, a4, a5⟩
  · rintro ⟨q, hq, h⟩
    obtain ⟨o, ho, rfl⟩ := List.mem_map.1 hq
    rcases h with h | h
    · exact ⟨o, ho, h⟩
    · have := hp o ho _ h
      simp only [Spec.modCode, BitVec.toNat_ofNat] at this
      omega
  · rintro ⟨o, ho, h⟩
    exact ⟨req o, List.mem_map_of_mem ho, .inl h⟩

/-- The hypotheses of `C94_settles_partial`, as one: after a history `is` the switches do not move for `k` rounds. -/
structure Quiets (K : Comp.Keys) (refs : List Comp.Ref) (S : Search) (n : Nat) (row : Nat → Nat) (rows : Nat) (c : Comp.Config) (count : Nat)
    (is : List Input) (k : Nat) (s : CState) : Prop where
  long : 55 ≤ k
  size : count ≤ 255
  pins : ∀ i < count, row i < rows
  moves : ∀ cl, Input.move cl ∈ is → cl.length = count
  accepted : Accepted is
  undisturbed : undisturbed ⟨Comp.system K, refs, S⟩ (n + 2) row rows (State.new count (KM.new (Comp.Ctx.fromConfig c))) is = true
  roomy : roomy ⟨Comp.system K, refs, S⟩ (n + 2) row rows (State.new count (KM.new (Comp.Ctx.fromConfig c))) (is ++ (List.replicate k round).flatten) = true
  runs : (State.new count (KM.new (Comp.Ctx.fromConfig c))).run ⟨Comp.system K, refs, S⟩ (n + 2) row rows (is ++ (List.replicate k round).flatten) = .ok s

/-- C94. When the switches of a ch58x keyboard have not moved for 55 rounds (0.42 s), whatever was pressed before, then the host takes for pressed what
the keymap makes of the key events by which the switches got to where they are; and the keys that the keymap has for held are those whose switches are closed.
It holds if no switch moved in the moment in which the keyboard went to sleep (`C72_race_refuted`), the stack accepted every report
and there was room for the key events. -/
theorem C94_settles_partial (hp : Comp.Plain K refs c layout) (hpr : ∀ e ∈ layout, ∀ o, Has e (.out o) → Proper o) (hc : count ≤ layout.length)
    {is : List Input} {k : Nat} {s : CState} (h : Quiets K refs S n row rows c count is k s) :
    ∃ (evs : List CApi.CEvent) (b : Board.State), pressedAfter (List.replicate count false) evs = some (closedAfter (List.replicate count false) is) ∧
      b = (evs.map CApi.CEvent.toInput).foldl (Board.State.input layout) (start c) ∧
      (∀ i, b.holds i = true ↔ (closedAfter (List.replicate count false) is)[i]? = some true) ∧
      (∃ r, hostPressed s = some r ∧ ShowsBle b.outputs r) ∧
      ∃ rep, zero.update b.outputs = .ok rep ∧ lastKeyboard s = rep.keyboard ∧ lastMouse s = rep.mouse ∧ lastConsumer s = rep.consumer := by
  obtain ⟨hk, hcount, hr, hm, hac, hu, hro, hrun⟩ := h
  obtain ⟨j, rfl⟩ : ∃ j, k = 2 + j + 1 + 1 := ⟨k - 4, by omega⟩
  have hsplit : is ++ (List.replicate (2 + j + 1 + 1) round).flatten =
      (is ++ (List.replicate 2 round).flatten) ++ ((List.replicate j round).flatten ++ (round ++ round)) := by
    rw [Nat.add_assoc, Nat.add_assoc, List.replicate_append_replicate.symm, List.flatten_append, List.replicate_append_replicate.symm, List.flatten_append]
    simp [List.append_assoc]
  have htold := told_run (told_new count (KM.new (Comp.Ctx.fromConfig c))) hrun
  have hclosed := closed_run hrun
  have hnm : ∀ (is js : List Input) (cl : List Bool), (∀ i ∈ js, ∀ c, i ≠ .move c) → closedAfter cl (is ++ js) = closedAfter cl is := by
    intro is js
    induction is with
    | nil =>
      intro cl hj
      induction js with
      | nil => rfl
      | cons x js ih =>
        cases x with
        | move c => exact absurd rfl (hj _ List.mem_cons_self c)
        | _ => exact ih fun i hi => hj i (List.mem_cons_of_mem _ hi)
    | cons i is ih => intro cl hj; cases i <;> exact ih _ hj
  rw [hnm _ _ _ noMove_rounds] at hclosed
  rw [hsplit] at hrun hro
  obtain ⟨s1, e1, hrun⟩ := run_append hrun
  obtain ⟨s2, e2, hrun⟩ := run_append hrun
  obtain ⟨s3, e3, e4⟩ := run_append hrun
  have hro1 := (roomy_append e1 hro).1
  have hac1 : Accepted (is ++ (List.replicate 2 round).flatten) := hac.append (accepted_rounds 2)
  have hmv : ∀ cl, Input.move cl ∈ is ++ (List.replicate 2 round).flatten → cl.length = count := by
    intro cl hcl
    rcases List.mem_append.1 hcl with hcl | hcl
    · exact hm cl hcl
    · exact absurd rfl (noMove_rounds _ hcl cl)
  have hu1 : undisturbed ⟨Comp.system K, refs, S⟩ (n + 2) row rows (State.new count (KM.new (Comp.Ctx.fromConfig c))) (is ++ (List.replicate 2 round).flatten) = true := by
    obtain ⟨s0, e0, _⟩ := run_append e1
    exact undisturbed_append e0 hu (undisturbed_noMove noMove_rounds)
  obtain ⟨⟨t1, m1, evs, core1⟩, track1, p1, at1⟩ := core_run hp hc hcount hr (core_new hp count) (track_new count _) (at_new count _) hu1 hmv hro1 e1
  have settled1 : s1.matrix.debounced = s1.closed := by
    obtain ⟨s0, e0, e1⟩ := run_append e1
    obtain ⟨p0, at0, tr0⟩ := track_run hcount hr (at_new count _) (track_new count _) hu hm e0
    have h2 := (C72_seen_partial count _ is s0 s1 hcount hr hm hu e0 (by simpa using e1)).1
    rw [h2, (settled_run hcount hr at0 tr0 noMove_rounds e1).2.2.1]
  have known1 : Known K layout c count evs 0 s1 := ⟨track1, settled1, t1, m1, core1, (Level.of_at at1).mono (Nat.zero_le _)⟩
  have known2 : Known K layout c count evs 51 s2 := (known1.rounds hp hc hcount hr (by omega) e2).mono (by omega)
  have known3 := (known2.run hp hc hcount hr noMove_round e3).2
  have known4 := (known3.run hp hc hcount hr noMove_round e4).2
  have e02 := (run_append_of (js := (List.replicate j round).flatten) e1).trans e2
  have e03 := (run_append_of (js := round) e02).trans e3
  have so2 : Soon s2 := soon_run (s := State.new count _) (by intro t d hm; cases hm) e02
  have so3 : Soon s3 := soon_run so2 e3
  have hac3 : Accepted (is ++ (List.replicate 2 round).flatten ++ (List.replicate j round).flatten ++ round) :=
    (hac1.append (accepted_rounds j)).append (by simpa using accepted_rounds 1)
  have due3 := due_run (fun _ => due_new count (KM.new (Comp.Ctx.fromConfig c))) hac3 e03
  have idle3 := (known2.delivers hp hc hcount hr so2 e3).1
  obtain ⟨q1, q2, q3⟩ := (known3.delivers hp hc hcount hr so3 e4).2 idle3 (due3 idle3)
  obtain ⟨b, b1, b2, b3, b4, b5, b6⟩ := known4.report hc
  have l1 : lastKeyboard s = s.report.keyboard := by rw [← q1]; exact getLastD_of htold.lastKeyboard
  have l2 : lastMouse s = s.report.mouse := by rw [← q2]; exact getLastD_of htold.lastMouse
  have l3 : lastConsumer s = s.report.consumer := by rw [← q3]; exact getLastD_of htold.lastConsumer
  have hproper : ∀ o ∈ b.outputs, Proper o := by
    intro o ho
    obtain ⟨p, hp1, hp2⟩ := List.mem_filterMap.1 ho
    obtain ⟨e, he, hh⟩ := b4.has p hp1
    refine hpr e (List.mem_of_getElem? he) o ?_
    obtain ⟨i, x⟩ := p
    cases x <;> simp only [Cell.output, Option.some.injEq, reduceCtorEq] at hp2
    subst hp2
    exact hh
  have hcl : s.closed = closedAfter (List.replicate count false) is := hclosed
  refine ⟨evs, b, by rw [← hcl]; exact b6, b1, fun i => by rw [← hcl]; exact b5 i, ?_, s.report, b3, l1, l2, l3⟩
  rw [hostPressed, l1]
  exact showsBle hproper b2 b3

/-- C94. No key is stuck: when all the switches are open for 55 rounds, whatever was pressed before, then the last report of every kind says that nothing
is pressed. -/
theorem C94_no_stuck_keys_partial (hp : Comp.Plain K refs c layout) (hpr : ∀ e ∈ layout, ∀ o, Has e (.out o) → Proper o) (hc : count ≤ layout.length)
    {is : List Input} {k : Nat} {s : CState} (h : Quiets K refs S n row rows c count is k s)
    (hopen : ∀ i : Nat, (closedAfter (List.replicate count false) is)[i]? ≠ some true) :
    lastKeyboard s = List.replicate 8 0 ∧ lastMouse s = MouseOutput.none ∧ lastConsumer s = List.replicate 4 0 ∧
      ∃ r, hostPressed s = some r ∧ ∀ p u, 1 ≤ u → ¬ On r (p, u) := by
  obtain ⟨evs, b, _, _, h5, ⟨r, h1, h2⟩, rep, h3, l1, l2, l3⟩ := C94_settles_partial hp hpr hc h
  have hnil : b.outputs = [] := by
    rw [Board.State.outputs, held_nil]; rfl
    intro i
    cases hh : b.holds i with
    | false => rfl
    | true => exact absurd ((h5 i).1 hh) (hopen i)
  rw [hnil] at h2 h3
  have hz : zero.update [] = .ok zero := by decide
  rw [hz] at h3
  cases h3
  refine ⟨l1, l2, l3, r, h1, fun p u hu hon => ?_⟩
  obtain ⟨rfl, ho⟩ := h2.only p u hon
  rcases ho with ho | ⟨ho1, ho2⟩
  · have := h2.keys (BitVec.ofNat 8 u) (fun h0 => by have := congrArg BitVec.toNat h0; simp at this; omega) (by simp; omega)
    rw [show (BitVec.ofNat 8 u).toNat = u by rw [BitVec.toNat_ofNat, Nat.mod_eq_of_lt (by omega)]] at this
    simpa [codes] using this.1 hon
  · obtain ⟨j, rfl⟩ : ∃ j, u = 0xE0 + j := ⟨u - 0xE0, by omega⟩
    obtain ⟨o, ho, _⟩ := (h2.modifiers j (by omega)).1 hon
    cases ho

/-- C94. With a keymap of plain keys and modifiers, and six switches closed at most, the host takes for pressed exactly the keys (up to 101) and the
modifiers of the keys whose switches are closed. -/
theorem C94_keys_partial (hp : Comp.Plain K refs c layout) (hpr : ∀ e ∈ layout, ∀ o, Has e (.out o) → Proper o)
    (hcell : ∀ e ∈ layout, ∃ c, e = .cell c) (hc : count ≤ layout.length)
    {is : List Input} {k : Nat} {s : CState} (h : Quiets K refs S n row rows c count is k s)
    (h6 : (closedAfter (List.replicate count false) is).count true ≤ 6) :
    ∃ r, hostPressed s = some r ∧
      (∀ u, 1 ≤ u → u ≤ 101 → (On r (keyPage, u) ↔ ∃ (i : Nat) (o : KeyOutput), (closedAfter (List.replicate count false) is)[i]? = some true ∧
        layout[i]? = some (Entry.cell (.out o)) ∧ o.usage = .keyboard (BitVec.ofNat 8 u))) ∧
      (∀ j, j < 8 → (On r (keyPage, 0xE0 + j) ↔ ∃ (i : Nat) (o : KeyOutput), (closedAfter (List.replicate count false) is)[i]? = some true ∧
        layout[i]? = some (Entry.cell (.out o)) ∧ o.mods.getLsbD j = true)) := by
  obtain ⟨evs, b, _, h0, h5, ⟨r, h1, h2⟩, _⟩ := C94_settles_partial hp hpr hc h
  have hlen0 : (closedAfter (List.replicate count false) is).length ≤ layout.length := by
    suffices H : ∀ (is : List Input) (cl : List Bool), cl.length = count → (∀ c, Input.move c ∈ is → c.length = count) → (closedAfter cl is).length = count by
      rw [H is _ (by simp) h.moves]; exact hc
    intro is
    induction is with
    | nil => intro cl h _; exact h
    | cons i is ih =>
      intro cl hl hm
      cases i with
      | move c => exact ih c (hm c List.mem_cons_self) fun c hc => hm c (List.mem_cons_of_mem _ hc)
      | _ => exact ih cl hl fun c hc => hm c (List.mem_cons_of_mem _ hc)
  have hok : HeldOk layout b := by rw [h0]; exact Keyboard.heldOk_foldl _ (Keyboard.heldOk_start c)
  have hout := outputs_cells hcell hok h5 hlen0
  have hlen : (codes b.outputs).length ≤ 6 :=
    Nat.le_trans (List.length_filterMap_le _ _) (Nat.le_trans (List.length_filterMap_le _ _) (Nat.le_trans (held_count hok.nodup fun i hi => (h5 i).1 hi) h6))
  refine ⟨r, h1, fun u hu1 hu2 => ?_, fun j hj => (h2.modifiers j hj).trans ⟨?_, ?_⟩⟩
  · have hne : BitVec.ofNat 8 u ≠ 0 := fun h0 => by have := congrArg BitVec.toNat h0; simp at this; omega
    have hv : (BitVec.ofNat 8 u).toNat = u := by rw [BitVec.toNat_ofNat, Nat.mod_eq_of_lt (by omega)]
    have := h2.keys (BitVec.ofNat 8 u) hne (by rw [hv]; exact hu2)
    rw [hv, List.take_of_length_le hlen] at this
    rw [this, codes, List.mem_filterMap]
    constructor
    · rintro ⟨o, ho, hx⟩
      obtain ⟨i, a1, a2⟩ := (hout o).1 ho
      refine ⟨i, o, a1, a2, ?_⟩
      split at hx
      · next k he =>
        split at hx
        · cases hx
        · rw [he]; cases hx; rfl
      · cases hx
    · rintro ⟨i, o, a1, a2, a3⟩
      refine ⟨o, (hout o).2 ⟨i, a1, a2⟩, ?_⟩
      rw [a3]
      simp only
      rw [if_neg hne]
  · rintro ⟨o, ho, hx⟩
    obtain ⟨i, a1, a2⟩ := (hout o).1 ho
    exact ⟨i, o, a1, a2, hx⟩
  · rintro ⟨i, o, a1, a2, hx⟩
    exact ⟨o, (hout o).2 ⟨i, a1, a2⟩, hx⟩

end

section

variable {K : Comp.Keys} {refs : List Comp.Ref} {S : Search} {layout : List Entry} {n : Nat} {row : Nat → Nat} {rows : Nat}
variable {c : Comp.Config} {count : Nat}

/-- C94. A ch58x keyboard never stops, whatever its switches and the Bluetooth stack do and whenever its tasks run (also if a switch moves in the moment in which
it goes to sleep), as long as no more than sixteen keys are held at a time, there is room for the key events, and it has run for less than seven weeks. -/
theorem C94_runs (hp : Comp.Plain K refs c layout) (hpr : ∀ e ∈ layout, ∀ o, Has e (.out o) → Proper o) (hc : count ≤ layout.length) (hcount : count ≤ 255)
    {is : List Input} (hm : ∀ cl, Input.move cl ∈ is → cl.length = count)
    (hro : roomy ⟨Comp.system K, refs, S⟩ (n + 2) row rows (State.new count (KM.new (Comp.Ctx.fromConfig c))) is = true)
    (hfew : whenever few ⟨Comp.system K, refs, S⟩ (n + 2) row rows (State.new count (KM.new (Comp.Ctx.fromConfig c))) is = true)
    (hearly : whenever early ⟨Comp.system K, refs, S⟩ (n + 2) row rows (State.new count (KM.new (Comp.Ctx.fromConfig c))) is = true) :
    ∃ s, (State.new count (KM.new (Comp.Ctx.fromConfig c))).run ⟨Comp.system K, refs, S⟩ (n + 2) row rows is = .ok s := by
  suffices H : ∀ (is : List Input) (s : CState) (t : Nat) (m : Queued) (evs : List CApi.CEvent) (p : Phase), Core K layout c count s t m evs → Sized count s → At p s →
      (∀ e ∈ evs, Keyboard.Within count e.toInput) → Keyboard.AtMostSixteen layout (start c) (evs.map CApi.CEvent.toInput) →
      (∀ cl, Input.move cl ∈ is → cl.length = count) → roomy ⟨Comp.system K, refs, S⟩ (n + 2) row rows s is = true →
      whenever few ⟨Comp.system K, refs, S⟩ (n + 2) row rows s is = true → whenever early ⟨Comp.system K, refs, S⟩ (n + 2) row rows s is = true →
      ∃ s', s.run ⟨Comp.system K, refs, S⟩ (n + 2) row rows is = .ok s' from
    H is _ 0 _ [] .asleep (core_new hp count) (track_new count _).sized (at_new count _) (by simp) (fun first hf => by
      rw [List.map_nil, List.prefix_nil] at hf; subst hf; exact Nat.zero_le _) hm hro hfew hearly
  intro is
  induction is with
  | nil => intro s _ _ _ _ _ _ _ _ _ _ _ _ _; exact ⟨s, rfl⟩
  | cons i is ih =>
    intro s t m evs p h hz ha hw h16 hm hro hfew hearly
    have hw' : ∀ e ∈ evs ++ changes 0 (s.matrix.scan s.closed).2, Keyboard.Within count e.toInput := by
      intro e he
      rcases List.mem_append.1 he with he | he
      · exact hw e he
      · rw [Firmware.C54_changes _ _ (hz.closed.trans hz.debounced.symm)] at he
        exact changes_within (by rw [List.length_zipWith, hz.closed, hz.debounced]; omega) e he
    have hi : ∀ ok, i = .process ok → Keyboard.AtMostSixteen layout (start c) ((evs ++ changes 0 (s.matrix.scan s.closed).2).map CApi.CEvent.toInput) ∧
        s.km.inq.length + moved s ≤ 31 ∧ t + deltaMs s.clock s.updated + 8 * (moved s + 1) < u32Size := by
      intro ok hok
      subst hok
      simp only [roomy, Bool.and_eq_true] at hro
      simp only [whenever, Bool.and_eq_true] at hfew hearly
      refine ⟨sixteen_scan hc h hz hw' h16 (of_decide_eq_true hfew.1), by rw [moved_fresh hz]; exact of_decide_eq_true hro.1, ?_⟩
      have := of_decide_eq_true hearly.1
      rw [moved_fresh hz, u32Size, ← show s.km.sched.counter = t from h.keeps.sim.counter]
      exact this
    obtain ⟨s1, e1⟩ := step_ok (S := S) (n := n) (row := row) (rows := rows) (i := i) hp hpr hc h hw' hi
    simp only [roomy, e1, Bool.and_eq_true] at hro
    simp only [whenever, e1, Bool.and_eq_true] at hfew hearly
    obtain ⟨p1, ha1⟩ := at_step ha e1
    have hz1 := sized_step hz (fun c hc => hm c (hc ▸ List.mem_cons_self)) e1
    have htl : ∀ cl, Input.move cl ∈ is → cl.length = count := fun c hc => hm c (List.mem_cons_of_mem _ hc)
    have hrun : ∃ s', s1.run ⟨Comp.system K, refs, S⟩ (n + 2) row rows is = .ok s' := by
      by_cases hpr : ∃ ok, i = .process ok
      · obtain ⟨ok, hok⟩ := hpr
        obtain ⟨_, ⟨t1, m1, evs1, h1, hev, _⟩, _⟩ := step_core hp hc hcount h hz ha (fun ok hok => (hi ok hok).2.1) e1
        rcases hev with rfl | rfl
        · exact ih s1 t1 m1 _ p1 h1 hz1 ha1 hw h16 htl hro.2 hfew.2 hearly.2
        · exact ih s1 t1 m1 _ p1 h1 hz1 ha1 hw' (hi ok hok).1 htl hro.2 hfew.2 hearly.2
      · refine ih s1 t m evs p1 ?_ hz1 ha1 hw h16 htl hro.2 hfew.2 hearly.2
        cases i with
        | wait d => cases e1; exact h.frame rfl rfl rfl id
        | expire u =>
          simp only [State.step] at e1
          split at e1
          · split at e1 <;> cases e1 <;> exact h.frame rfl rfl rfl id
          · cases e1; exact h.frame rfl rfl rfl id
        | move cl =>
          simp only [State.step] at e1
          split at e1
          · cases e1
            refine h.frame rfl rfl rfl ?_
            rintro (ha | ha)
            · cases ha
            · exact Or.inr ha
          · cases e1; exact h.frame rfl rfl rfl id
        | process ok => exact absurd ⟨ok, rfl⟩ hpr
    obtain ⟨s', e⟩ := hrun
    exact ⟨s', by simp only [State.run, e1, Res.ok_bind]; exact e⟩

end

/-! ## Cases -/

namespace Demo

open Keyboard.Demo (K refs config layout plain proper cells)

/-- Key a is held, b is tapped. -/
def tap : List Input := .move [true, false] :: round ++ round ++ (.move [true, true] :: round) ++ [.move [true, false]]

/-- All that is to be computed, for a history and 55 rounds after it. -/
def check (is : List Input) (k : Nat) (f : CState → Bool) : Bool :=
  undisturbed ⟨Comp.system K, refs, Search.std⟩ 2 id 2 (State.new 2 (KM.new (Comp.Ctx.fromConfig config))) is &&
    match (State.new 2 (KM.new (Comp.Ctx.fromConfig config))).run ⟨Comp.system K, refs, Search.std⟩ 2 id 2 (is ++ (List.replicate k round).flatten) with
    | .ok s => f s
    | _ => false

set_option maxRecDepth 100000 in
/-- A history to which `C94_runs` applies. -/
example : roomy ⟨Comp.system K, refs, Search.std⟩ 2 id 2 (State.new 2 (KM.new (Comp.Ctx.fromConfig config))) tap = true ∧
    whenever few ⟨Comp.system K, refs, Search.std⟩ 2 id 2 (State.new 2 (KM.new (Comp.Ctx.fromConfig config))) tap = true ∧
    whenever early ⟨Comp.system K, refs, Search.std⟩ 2 id 2 (State.new 2 (KM.new (Comp.Ctx.fromConfig config))) tap = true := by decide +kernel

set_option maxRecDepth 100000 in
theorem tap_check : check tap 55 (fun _ => roomy ⟨Comp.system K, refs, Search.std⟩ 2 id 2 (State.new 2 (KM.new (Comp.Ctx.fromConfig config)))
    (tap ++ (List.replicate 55 round).flatten)) = true := by decide +kernel

/-- The switches of both keys bounce. -/
def bounce : Nat → List Input
  | 0 => []
  | k + 1 => (.move [true, true] :: round) ++ (.move [false, false] :: round) ++ bounce k

/-- They do so for a quarter of a second, and then the keys are up. -/
def chatter : List Input :=
  (.move [true, true] :: round) ++ round ++ bounce 16 ++ (.move [false, false] :: round) ++ (.move [true, true] :: round) ++ [.move [false, false]]

set_option maxRecDepth 100000 in
theorem chatter_check : check chatter 55 (fun s => decide (lastKeyboard s = [0, 0, 4, 5, 0, 0, 0, 0])) = true := by decide +kernel

/-- The host takes key a for pressed, and b not. -/
example : ∃ s r, Quiets K refs Search.std 0 id 2 config 2 tap 55 s ∧ hostPressed s = some r ∧ On r (keyPage, 4) ∧ ¬ On r (keyPage, 5) := by
  have h := tap_check
  rw [check, Bool.and_eq_true] at h
  obtain ⟨h1, h2⟩ := h
  split at h2
  · next s hs =>
    have q : Quiets K refs Search.std 0 id 2 config 2 tap 55 s :=
      ⟨by decide, by decide, fun i hi => hi, by intro cl hcl; simp [tap, round] at hcl; rcases hcl with rfl | rfl | rfl <;> rfl,
        by intro ok hok; simpa [tap, round] using hok, h1, h2, hs⟩
    have hcl : closedAfter (List.replicate 2 false) tap = [true, false] := by decide
    obtain ⟨r, a1, a2, _⟩ := C94_keys_partial plain proper cells (by decide) q (by rw [hcl]; decide)
    rw [hcl] at a2
    refine ⟨s, r, q, a1, (a2 4 (by decide) (by decide)).2 ⟨0, _, rfl, rfl, rfl⟩, fun ho => ?_⟩
    obtain ⟨i, o, b1, b2, b3⟩ := (a2 5 (by decide) (by decide)).1 ho
    rcases i with _ | _ | i
    · cases b2; cases b3
    · cases b1
    · simp at b1
  · cases h2

end Demo

/-- C94, without room for the events: the ch58x keyboard does not debounce its switches. If the switches of two keys bounce for a quarter of a second,
then events are lost, and a key whose release is lost is taken for pressed long after all the switches are open. -/
theorem C94_stuck_refuted : ∃ s r, undisturbed ⟨Comp.system Keyboard.Demo.K, Keyboard.Demo.refs, Search.std⟩ 2 id 2 (State.new 2 (KM.new (Comp.Ctx.fromConfig Keyboard.Demo.config))) Demo.chatter = true ∧
    (State.new 2 (KM.new (Comp.Ctx.fromConfig Keyboard.Demo.config))).run ⟨Comp.system Keyboard.Demo.K, Keyboard.Demo.refs, Search.std⟩ 2 id 2
      (Demo.chatter ++ (List.replicate 55 round).flatten) = .ok s ∧
    closedAfter [false, false] Demo.chatter = [false, false] ∧ hostPressed s = some r ∧ On r (keyPage, 4) := by
  have h := Demo.chatter_check
  rw [Demo.check, Bool.and_eq_true] at h
  obtain ⟨h1, h2⟩ := h
  split at h2
  · next s hs =>
    refine ⟨s, Hid.readMods 0 ++ Hid.readArray 7 101 [4, 5, 0, 0, 0, 0], h1, hs, by decide +kernel, ?_, ?_⟩
    · rw [hostPressed, of_decide_eq_true h2]
      exact Hid.reading_bleKeyboard 0 0 [4, 5, 0, 0, 0, 0] rfl
    · exact (Hid.on_keys (k := 4) (by decide) (by decide)).2 (by decide)
  · cases h2

end Verif.Ble
