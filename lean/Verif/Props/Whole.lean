import Verif.Lemmas.Whole
import Verif.Props.Usb

/-!
# What the host asks for and the reports: the ch32x035 firmware
-/

namespace Verif.Whole

open Usb (Ep Made)

/-- C81: as long as the host does not halt end-points (or clear their halt), what it asks for through end-point 0 has nothing to do with the reports, but that it
configures the device and resets the bus: what C66 and C67 say of the reports is so with any control transfers in between. -/
theorem C81_requests_partial (es : List Event) (h : ∀ e ∈ es, e.Plain) (s : State) (hs : State.run {} es = some s) :
    s.usb = Usb.State.new.run (es.flatMap seen) := (run_tied tied_new h hs).2

/-- C81: if the host configures the device only once after a bus reset, and asks for reports only after that, it accepts every report that is sent: the toggle bits
are those it expects. -/
theorem C81_toggles_partial (es : List Event) (h : Along Usual {} es) (s : State) (hs : State.run {} es = some s) (ep : Ep) : s.got ep = sent s.usb ep :=
  (inStep_new.run h hs).got ep

theorem usual_plain {es : List Event} : ∀ {s s' : State}, Along Usual s es → s.run es = some s' → ∀ e ∈ es, e.Plain := by
  induction es with
  | nil => intro _ _ _ _ e he; cases he
  | cons e es ih =>
    intro s s' h hs x hx
    simp only [State.run, Option.bind_eq_some_iff] at hs
    obtain ⟨t, ht, hs⟩ := hs
    cases hx with
    | head =>
      cases e with
      | control e => cases e with
        | setup r => exact h.1.1
        | _ => trivial
      | _ => trivial
    | tail _ hx => exact ih (h.2 t ht) hs x hx

/-- C81: so with any control transfers in between, the keyboard reports the host has accepted are the changes of the keyboard reports of the keymap, each once and in
their order, but for the last one (C66). -/
theorem C81_order_partial (es : List Event) (h : Along Usual {} es) (s : State) (hs : State.run {} es = some s)
    (hc : Usb.Along Usb.Calm .new (es.flatMap seen)) :
    ∃ rest, s.got .keyboard ++ rest = Usb.changes (List.replicate 8 0) (s.usb.made.map (·.keyboard)) ∧ rest.length ≤ 1 := by
  have hu := C81_requests_partial es (usual_plain h hs) s hs
  have := (Usb.C66_order_partial (es.flatMap seen) hc).1
  rw [← hu] at this
  rw [C81_toggles_partial es h s hs]
  exact this

/-- `A` is pressed. -/
def downA : Made := ⟨[0, 0, 4, 0, 0, 0, 0, 0], [0, 0, 0, 0], [0, 0, 0, 0]⟩

/-- Nothing is pressed. -/
def upA : Made := ⟨[0, 0, 0, 0, 0, 0, 0, 0], [0, 0, 0, 0], [0, 0, 0, 0]⟩

/-- The host configures the device. -/
def configure : List Event := [.control (.setup (Control.setConfiguration 1)), .control .«in»]

/-- The host clears the halt of the keyboard's end-point. -/
def clearHalt : List Event := [.control (.setup ⟨0x02, 0x01, 0, 0x81, 0⟩), .control .«in»]

instance (s : State) (e : Event) : Decidable (Usual s e) := by
  cases e with
  | control e => cases e <;> unfold Usual <;> infer_instance
  | _ => unfold Usual; infer_instance

/-- The host asks for a descriptor while a report is on its way. -/
def busyHost : List Event :=
  configure ++ [.timer downA] ++ List.replicate 20 .main ++
  [.control (.setup (Control.getDescriptor 1 0 0 18)), .poll .keyboard, .control .«in», .control (.out true [])] ++ List.replicate 40 .main

example : ((State.run {} busyHost).map fun s => (s.got .keyboard, s.usb.sent)) = some ([[0, 0, 4, 0, 0, 0, 0, 0]], true) := by decide +kernel

/-- Decides `Along`. -/
def alongB (s : State) : List Event → Bool
  | [] => true
  | e :: es => decide (Usual s e) && (match s.step e with
    | some s' => alongB s' es
    | none => true)

theorem alongB_sound {es : List Event} : ∀ {s : State}, alongB s es = true → Along Usual s es := by
  induction es with
  | nil => intro _ _; trivial
  | cons e es ih =>
    intro s h
    simp only [alongB, Bool.and_eq_true, decide_eq_true_eq] at h
    refine ⟨h.1, fun s' hs => ih ?_⟩
    rw [hs] at h
    exact h.2

example : Along Usual {} busyHost := alongB_sound (by decide +kernel)

/-! ## Where it goes wrong -/

/-- Nothing that happens at end-point 0 makes another end-point ready to send. -/
theorem step_not_ack {s c : Control.State} {e : Control.Event} (he : e ≠ .reset) (h : s.step e = some c) (i : Nat)
    (hn : (s.eps.getD i (false, .nak)).2 ≠ .ack) : (c.eps.getD i (false, .nak)).2 ≠ .ack := by
  have same : c.eps = s.eps → (c.eps.getD i (false, .nak)).2 ≠ .ack := fun h => by rw [h]; exact hn
  cases e with
  | setup r =>
    cases hf : isFeature r with
    | false => exact same (congrArg Prod.fst (Control.setup_shared h hf))
    | true =>
      simp only [isFeature, Bool.and_eq_true, Bool.or_eq_true, decide_eq_true_eq] at hf
      obtain ⟨⟨ht, hq⟩, _⟩ := hf
      simp only [Control.State.step, Control.State.onSetup, Option.map_eq_some_iff] at h
      obtain ⟨x, hx, rfl⟩ := h
      rw [Control.request_std ht] at hx
      have ha : ∀ (t : Control.State) (b : Bool), (t.answer b).eps = t.eps := fun t b => congrArg Prod.fst (Control.answer_shared t b)
      rw [ha]
      have hcode : (s.receive r).code = r.request := rfl
      have heps : (s.receive r).eps = s.eps := rfl
      generalize s.receive r = t at *
      rcases hq with hq | hq
      · rw [Control.State.standard, hcode, hq] at hx
        have hx : t.clearFeature = x := by simpa using hx
        subst hx
        simp only [Control.State.clearFeature]
        split
        · split <;> (simp only [heps]; exact hn)
        · split
          · split
            · simp only [heps, List.getD_eq_getElem?_getD, List.getElem?_set]
              rw [List.getD_eq_getElem?_getD] at hn
              split
              · split <;> simp
              · exact hn
            · simp only [heps]; exact hn
          · simp only [heps]; exact hn
        · simp only [heps]; exact hn
      · rw [Control.State.standard, hcode, hq] at hx
        have hx : t.setFeature = x := by simpa using hx
        subst hx
        simp only [Control.State.setFeature]
        split
        · split <;> (try split) <;> (simp only [heps]; exact hn)
        · split
          · split
            · simp only [heps, List.getD_eq_getElem?_getD, List.getElem?_modify]
              rw [List.getD_eq_getElem?_getD] at hn
              cases hg : s.eps[i]? with
              | none => simp
              | some e => rw [hg] at hn; simp only [Option.getD_some] at hn; by_cases hij : ‹Nat› = i <;> simp_all
            · simp only [heps]; exact hn
          · simp only [heps]; exact hn
        · simp only [heps]; exact hn
  | «in» =>
    simp only [Control.State.step] at h
    split at h
    · exact same (congrArg Prod.fst (Control.onIn_shared h))
    · cases h; exact hn
  | out tog data =>
    simp only [Control.State.step, Option.some.injEq] at h
    subst h
    split
    · rw [show ((s.onOut tog data).eps) = s.eps from congrArg Prod.fst (Control.onOut_shared _ _ _)]; exact hn
    · exact hn
  | reset => exact absurd rfl he

/-- The keyboard's end-point is marked as busy, and its answer to the host is not `ACK`. -/
structure Stuck (s : State) : Prop where
  dead : Usb.Dead s.usb
  reg : (s.reg .keyboard).2 ≠ .ack

theorem Stuck.after {s : State} (h : Stuck s) {e : Usb.Event} (he : e ≠ .reset) :
    Stuck (s.after (s.usb.step e)) ∧ (s.usb.step e).keyboard = s.usb.keyboard ∧ (s.usb.step e).made = s.usb.made := by
  obtain ⟨h1, h2, h3⟩ := h.dead.step he
  refine ⟨⟨h1, ?_⟩, h2, h3⟩
  rw [after_reg, show ready (s.usb.step e) .keyboard = ready s.usb .keyboard from congrArg Usb.Chan.ack h2, register, if_pos rfl]
  exact h.reg

theorem Stuck.step {s s' : State} {e : Event} (h : Stuck s) (he : e ≠ .control .reset) (hs : s.step e = some s') :
    Stuck s' ∧ s'.usb.keyboard = s.usb.keyboard ∧ s'.usb.made = s.usb.made ∧ s'.got .keyboard = s.got .keyboard := by
  cases e with
  | main => cases hs; obtain ⟨a, b, c⟩ := h.after (e := .main) (by simp); exact ⟨a, b, c, rfl⟩
  | timer r => cases hs; obtain ⟨a, b, c⟩ := h.after (e := .timer r) (by simp); exact ⟨a, b, c, rfl⟩
  | poll ep =>
    cases hs
    obtain ⟨a, b, c⟩ := h.after (e := .poll ep) (by simp)
    split
    · rename_i hr
      have hk : Ep.keyboard ≠ ep := fun hk => by
        subst hk
        rw [show ready s.usb .keyboard = false from h.dead.2.2.2.1] at hr
        cases hr
      obtain ⟨f1, f2⟩ := receive_frame (s.after (s.usb.step (.poll ep))) ep (s.reg ep).1 (buffer s.usb ep)
      refine ⟨⟨by rw [f1]; exact a.dead, by rw [State.reg, f2]; exact a.reg⟩, by rw [f1]; exact b, by rw [f1]; exact c, ?_⟩
      rw [State.receive]
      split
      · simp only [if_neg hk]; rfl
      · rfl
    · exact ⟨a, b, c, rfl⟩
  | control e =>
    simp only [State.step, Option.map_eq_some_iff] at hs
    obtain ⟨c, hc, rfl⟩ := hs
    have hr : e ≠ .reset := fun h => he (by rw [h])
    have hn := step_not_ack hr hc 0 h.reg
    have hk : (s.tell e c).keyboard = s.usb.keyboard ∧ (s.tell e c).pc = s.usb.pc ∧ (s.tell e c).made = s.usb.made := by
      have : decide ((c.eps.getD (slot .keyboard) (false, .nak)).2 = .ack) = s.usb.keyboard.ack := by
        rw [h.dead.2.2.2.1]; exact decide_eq_false hn
      cases e with
      | reset => exact absurd rfl hr
      | _ => refine ⟨?_, rfl, rfl⟩; simp only [State.tell, this]
    obtain ⟨k1, k2, k3⟩ := hk
    exact ⟨⟨by unfold Usb.Dead; simp only [k1, k2]; exact h.dead, hn⟩, k1, k3, rfl⟩

theorem Stuck.run {fs : List Event} : ∀ {s s' : State}, Stuck s → Event.control .reset ∉ fs → s.run fs = some s' →
    s'.usb.keyboard = s.usb.keyboard ∧ s'.usb.made = s.usb.made ∧ s'.got .keyboard = s.got .keyboard := by
  induction fs with
  | nil => intro s s' _ _ hs; cases hs; exact ⟨rfl, rfl, rfl⟩
  | cons e fs ih =>
    intro s s' h hf hs
    simp only [State.run, Option.bind_eq_some_iff] at hs
    obtain ⟨t, ht, hs⟩ := hs
    obtain ⟨h1, h2, h3, h4⟩ := h.step (fun he => hf (by simp [he])) ht
    obtain ⟨g1, g2, g3⟩ := ih h1 (fun h => hf (List.mem_cons_of_mem _ h)) hs
    exact ⟨g1.trans h2, g2.trans h3, g3.trans h4⟩

theorem whole_append (es fs : List Event) : ∀ (s : State), s.run (es ++ fs) = (s.run es).bind (·.run fs) := by
  induction es with
  | nil => intro s; rfl
  | cons e es ih =>
    intro s
    simp only [List.cons_append, State.run]
    cases s.step e with
    | none => rfl
    | some t => exact ih t

/-- C81 does not hold if the host clears the halt of the keyboard's end-point while a report waits there: the report is dropped, but the end-point is still marked
as busy. Whatever happens later, until a reset of the bus: no keyboard report is sent, and the keymap is not ticked. -/
theorem C81_halt_refuted (fs : List Event) (hf : Event.control .reset ∉ fs) (s : State)
    (hs : State.run {} (configure ++ [.timer downA] ++ List.replicate 20 .main ++ clearHalt ++ fs) = some s) :
    s.got .keyboard = [] ∧ s.usb.made = [downA] ∧ s.usb.sent = false := by
  rw [whole_append] at hs
  have hx : ((State.run {} (configure ++ [.timer downA] ++ List.replicate 20 .main ++ clearHalt)).map fun s =>
      (decide (Usb.Dead s.usb), decide ((s.reg .keyboard).2 ≠ .ack), s.got .keyboard, s.usb.made)) = some (true, true, [], [downA]) := by decide +kernel
  cases ht : State.run {} (configure ++ [.timer downA] ++ List.replicate 20 .main ++ clearHalt) with
  | none => rw [ht] at hx; cases hx
  | some t =>
    rw [ht] at hx hs
    simp only [Option.map_some, Option.some.injEq, Prod.mk.injEq, decide_eq_true_eq] at hx
    obtain ⟨x1, x2, x3, x4⟩ := hx
    obtain ⟨h1, h2, h3⟩ := Stuck.run ⟨x1, x2⟩ hf hs
    refine ⟨h3.trans x3, h2.trans x4, ?_⟩
    have hne : s.usb.keyboard.pack ≠ s.usb.keyboard.prev := by rw [h1]; exact x1.1
    simp [Usb.State.sent, hne]

/-- C81 does not hold if the host configures the device again: its toggle bits start again, the device's do not, so that the host takes the report for one that it has
already received. `A` is pressed and its report received; the device is configured again; `A` is released. The release has been sent, but the host does
not have it. -/
theorem C81_reconfigure_refuted :
    ((State.run {} (configure ++ [.timer downA] ++ List.replicate 20 .main ++ [.poll .keyboard] ++ List.replicate 40 .main ++ configure ++ [.timer upA] ++
      List.replicate 40 .main ++ [.poll .keyboard] ++ List.replicate 40 .main)).map fun s => (s.got .keyboard, sent s.usb .keyboard, s.usb.sent)) =
    some ([downA.keyboard], [downA.keyboard, upA.keyboard], true) := by decide +kernel

end Verif.Whole
