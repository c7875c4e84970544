import Verif.Spec.Whole
import Verif.Lemmas.Control

/-!
# Reports and control transfers
-/

namespace Verif.Control

open Whole (isFeature isConfigure clears)

/-- What `Usb` and `Control` share. -/
def State.shared (s : State) : List (Bool × Resp) × Bool := (s.eps, s.enumerated)

theorem load_shared {s s' : State} {src : List Byte} {n : Nat} (h : s.load src n = some s') : s'.shared = s.shared := by
  rw [State.load] at h
  split at h <;> cases h
  rfl

theorem answer_shared (s : State) (e : Bool) : (s.answer e).shared = s.shared := by
  simp only [State.answer]; split <;> (try split) <;> (try split) <;> rfl

theorem getDescriptor_shared {s : State} {x : State × Bool} (h : s.getDescriptor = some x) : x.1.shared = s.shared := by
  rw [State.getDescriptor] at h
  cases hl : lookup s.value s.index with
  | none =>
    simp only [hl] at h
    split at h <;>
    · simp only [Option.bind_eq_bind, Option.bind_eq_some_iff, Option.pure_def, Option.some.injEq] at h
      obtain ⟨t, ht, rfl⟩ := h
      have hx := load_shared ht
      exact hx
  | some dn =>
    obtain ⟨d, n⟩ := dn
    simp only [hl] at h
    split at h <;>
    · simp only [Option.bind_eq_bind, Option.bind_eq_some_iff, Option.pure_def, Option.some.injEq] at h
      obtain ⟨t, ht, rfl⟩ := h
      have hx := load_shared ht
      exact hx

theorem getStatus_shared (s : State) : s.getStatus.1.shared = s.shared := by
  simp only [State.getStatus]
  split <;> (try split) <;> (try split) <;> (try split) <;> rfl

theorem classRequest_shared (s : State) : s.classRequest.1.shared = s.shared := by
  simp only [State.classRequest]; split <;> (try split) <;> rfl

theorem recipient {b : Byte} (h : (b &&& 0x1F).toNat = 2) : b &&& 0x1F = 0x02 := BitVec.eq_of_toNat_eq h

theorem clearFeature_shared {s : State} (h : s.type &&& 0x1F ≠ 0x02) : s.clearFeature.1.shared = s.shared := by
  simp only [State.clearFeature]
  split
  · split <;> rfl
  · exact absurd (recipient (by assumption)) h
  · rfl

theorem setFeature_shared {s : State} (h : s.type &&& 0x1F ≠ 0x02) : s.setFeature.1.shared = s.shared := by
  simp only [State.setFeature]
  split
  · split <;> (try split) <;> rfl
  · exact absurd (recipient (by assumption)) h
  · rfl

theorem byteEq {b : Byte} {n : Nat} (h : b.toNat = n) (hn : n < 256 := by decide) : b = BitVec.ofNat 8 n := by
  apply BitVec.eq_of_toNat_eq
  rw [h, BitVec.toNat_ofNat, Nat.mod_eq_of_lt hn]

theorem setup_shared {s c : State} {r : Setup} (h : s.onSetup r = some c) (hf : isFeature r = false) :
    c.shared = (s.eps, isConfigure r || s.enumerated) := by
  have e0 : (s.receive r).shared = (s.eps, s.enumerated) := rfl
  have et : (s.receive r).type = r.type := rfl
  have ec : (s.receive r).code = r.request := rfl
  simp only [State.onSetup, Option.map_eq_some_iff] at h
  obtain ⟨x, hx, rfl⟩ := h
  rw [answer_shared]
  by_cases ht : r.type &&& 0x60 = 0
  · rw [request_std ht, State.standard] at hx
    simp only [isFeature, ht, decide_true, Bool.true_and] at hf
    simp only [isConfigure, ht, decide_true, Bool.true_and]
    split at hx
    case h_4 hc =>
      cases hx
      rw [ec] at hc
      rw [byteEq hc]; rfl
    case h_5 hc =>
      cases hx
      rw [ec] at hc
      have hc' := byteEq hc
      rw [hc'] at hf ⊢
      rw [clearFeature_shared (by rw [et]; simpa using hf), e0]; rfl
    case h_6 hc =>
      cases hx
      rw [ec] at hc
      have hc' := byteEq hc
      rw [hc'] at hf ⊢
      rw [setFeature_shared (by rw [et]; simpa using hf), e0]; rfl
    case h_10 h1 h2 h3 h9 h5 h6 h7 h8 h10 =>
      cases hx
      rw [ec] at h9
      have : r.request ≠ 0x09 := fun h => h9 (by rw [h]; rfl)
      simp only [this, decide_false, Bool.false_or]
      exact e0
    case h_1 hc =>
      rw [ec] at hc
      rw [byteEq hc, getDescriptor_shared hx, e0]; rfl
    case h_2 hc => cases hx; rw [ec] at hc; rw [byteEq hc]; rfl
    case h_3 hc =>
      cases hx; rw [ec] at hc; rw [byteEq hc]
      simp only []; split <;> rfl
    case h_7 hc =>
      cases hx; rw [ec] at hc; rw [byteEq hc]
      simp only []; split <;> rfl
    case h_8 hc => cases hx; rw [ec] at hc; rw [byteEq hc]; rfl
    case h_9 hc => cases hx; rw [ec] at hc; rw [byteEq hc, getStatus_shared, e0]; rfl
  · have hi : isConfigure r = false := by simp only [isConfigure, decide_eq_false ht, Bool.false_and]
    rw [hi, Bool.false_or]
    rw [State.request, if_pos (show (s.receive r).type &&& 0x60 ≠ 0 from ht)] at hx
    split at hx
    · cases hx; rw [classRequest_shared, e0]
    · cases hx; exact e0

theorem onIn_shared {s c : State} (h : s.onIn = some c) : c.shared = s.shared := by
  have ha : s.atEnd.shared = s.shared := by rw [State.atEnd]; split <;> rfl
  rw [State.onIn] at h
  generalize s.atEnd = t at h ha
  simp only [] at h
  split at h
  · cases h; exact ha
  · split at h
    · simp only [Option.bind_eq_bind, Option.bind_eq_some_iff, Option.pure_def, Option.some.injEq] at h
      obtain ⟨u, hu, rfl⟩ := h
      exact (load_shared hu).trans ha
    · cases h; exact ha
    · cases h; exact ha

theorem onOut_shared (s : State) (tog : Bool) (data : List Byte) : (s.onOut tog data).shared = s.shared := by
  simp only [State.onOut]
  split <;> split <;> rfl

end Verif.Control

namespace Verif.Whole

open Usb (Ep)

/-- The two halves agree. -/
structure Tied (s : State) : Prop where
  len : s.ctl.eps.length = 3
  ack : ∀ ep, (s.reg ep).2 = .ack ↔ ready s.usb ep = true
  conf : s.ctl.enumerated = s.usb.configured

theorem after_reg (s : State) (u : Usb.State) (ep : Ep) : (s.after u).reg ep = register (ready s.usb ep) (ready u ep) (s.reg ep) := by
  cases ep <;> rfl

theorem main_configured (s : Usb.State) : s.main.configured = s.configured := by
  unfold Usb.State.main
  split
  · split <;> rfl
  all_goals rfl

theorem step_configured (s : Usb.State) (e : Usb.Event) (h1 : e ≠ .configure) (h2 : e ≠ .reset) : (s.step e).configured = s.configured := by
  cases e with
  | main => exact main_configured s
  | timer r => simp only [Usb.State.step, Usb.State.timer]; split <;> rfl
  | poll ep => cases ep <;> rfl
  | configure => exact absurd rfl h1
  | reset => exact absurd rfl h2

theorem Tied.after {s : State} (h : Tied s) {u : Usb.State} (hu : u.configured = s.usb.configured) : Tied (s.after u) := by
  refine ⟨rfl, fun ep => ?_, h.conf.trans hu.symm⟩
  rw [after_reg, register]
  show _ ↔ ready u ep = true
  have := h.ack ep
  by_cases he : ready s.usb ep = ready u ep
  · rw [if_pos he, this, he]
  · rw [if_neg he]
    cases hr : ready u ep <;> simp

theorem receive_frame (s : State) (ep : Ep) (t : Bool) (r : List Byte) : (s.receive ep t r).usb = s.usb ∧ (s.receive ep t r).ctl = s.ctl := by
  rw [State.receive]; split <;> exact ⟨rfl, rfl⟩

theorem Tied.congr {s t : State} (h : Tied s) (hu : t.usb = s.usb) (hc : t.ctl = s.ctl) : Tied t :=
  ⟨by rw [hc]; exact h.len, fun ep => by rw [State.reg, hc, hu]; exact h.ack ep, by rw [hc, hu]; exact h.conf⟩

theorem ext3 {u v : Usb.State} (hk : u.keyboard = v.keyboard) (hm : u.mouse = v.mouse) (hc : u.consumer = v.consumer) (hp : u.pc = v.pc)
    (hcf : u.configured = v.configured) (hmd : u.made = v.made) : u = v := by
  cases u; cases v; simp_all

/-- End-point 0 has left the registers of the other end-points alone. -/
theorem Tied.tell {s : State} (h : Tied s) {e : Control.Event} (hr : e ≠ .reset) {c : Control.State} (he : c.eps = s.ctl.eps) (ex : Ep → Bool) :
    s.tell e c = { s.usb with configured := c.enumerated } ∧ Tied { s with ctl := c, usb := s.tell e c, expect := ex } := by
  have hd : ∀ ep, decide ((s.reg ep).2 = .ack) = ready s.usb ep := fun ep => by
    have := h.ack ep
    cases hb : ready s.usb ep <;> simp_all
  have ht : s.tell e c = { s.usb with configured := c.enumerated } := by
    cases e with
    | reset => exact absurd rfl hr
    | _ =>
      simp only [State.tell, he]
      refine ext3 ?_ ?_ ?_ rfl rfl rfl
      · simp only []; rw [show decide ((s.ctl.eps.getD (slot .keyboard) (false, .nak)).2 = .ack) = s.usb.keyboard.ack from hd .keyboard]
      · simp only []; rw [show decide ((s.ctl.eps.getD (slot .mouse) (false, .nak)).2 = .ack) = s.usb.mouse.ack from hd .mouse]
      · simp only []; rw [show decide ((s.ctl.eps.getD (slot .consumer) (false, .nak)).2 = .ack) = s.usb.consumer.ack from hd .consumer]
  refine ⟨ht, ?_⟩
  rw [ht]
  refine ⟨by simp only [he]; exact h.len, fun ep => ?_, rfl⟩
  simp only [State.reg, he]
  rw [show (s.ctl.eps.getD (slot ep) (false, .nak)) = s.reg ep from rfl, h.ack ep]
  cases ep <;> rfl

theorem step_tied {s s' : State} {e : Event} (h : Tied s) (hp : e.Plain) (hs : s.step e = some s') : Tied s' ∧ s'.usb = s.usb.run (seen e) := by
  cases e with
  | main => cases hs; exact ⟨h.after (step_configured _ _ (by simp) (by simp)), rfl⟩
  | timer r => cases hs; exact ⟨h.after (step_configured _ _ (by simp) (by simp)), rfl⟩
  | poll ep =>
    cases hs
    have ha := h.after (step_configured s.usb (.poll ep) (by simp) (by simp))
    split
    · obtain ⟨f1, f2⟩ := receive_frame (s.after (s.usb.step (.poll ep))) ep (s.reg ep).1 (buffer s.usb ep)
      exact ⟨ha.congr f1 f2, f1⟩
    · exact ⟨ha, rfl⟩
  | control e =>
    simp only [State.step, Option.map_eq_some_iff] at hs
    obtain ⟨c, hc, rfl⟩ := hs
    have keep : ∀ e' : Control.Event, e' ≠ .reset → c.shared = s.ctl.shared →
        s.tell e' c = s.usb ∧ Tied { s with ctl := c, usb := s.tell e' c, expect := toggles s.expect e } := by
      intro e' hr hsh
      simp only [Control.State.shared, Prod.mk.injEq] at hsh
      obtain ⟨t1, t2⟩ := h.tell hr hsh.1 (toggles s.expect e)
      refine ⟨t1.trans ?_, t2⟩
      rw [hsh.2, h.conf]
    cases e with
    | setup r =>
      have hsh := Control.setup_shared hc hp
      simp only [Control.State.shared, Prod.mk.injEq] at hsh
      obtain ⟨t1, t2⟩ := h.tell (e := .setup r) (by simp) hsh.1 (toggles s.expect (.setup r))
      refine ⟨t2, t1.trans ?_⟩
      rw [seen, hsh.2]
      cases hi : isConfigure r
      · simp only [Bool.false_or, h.conf]; rfl
      · rfl
    | «in» =>
      have : c.shared = s.ctl.shared := by
        simp only [Control.State.step] at hc
        split at hc
        · exact Control.onIn_shared hc
        · cases hc; rfl
      obtain ⟨k1, k2⟩ := keep .«in» (by simp) this
      exact ⟨k2, k1⟩
    | out tog data =>
      have : c.shared = s.ctl.shared := by
        simp only [Control.State.step, Option.some.injEq] at hc
        subst hc
        split
        · exact Control.onOut_shared _ _ _
        · rfl
      obtain ⟨k1, k2⟩ := keep (.out tog data) (by simp) this
      exact ⟨k2, k1⟩
    | reset =>
      cases hc
      exact ⟨⟨rfl, fun ep => by cases ep <;> exact ⟨fun h => (by cases h), fun h => (by cases h)⟩, rfl⟩, rfl⟩

theorem tied_new : Tied {} := ⟨rfl, fun ep => by cases ep <;> decide, rfl⟩

theorem usb_run_append (s : Usb.State) (a b : List Usb.Event) : s.run (a ++ b) = (s.run a).run b := by simp [Usb.State.run]

theorem run_tied {es : List Event} : ∀ {s s' : State}, Tied s → (∀ e ∈ es, e.Plain) → s.run es = some s' → Tied s' ∧ s'.usb = s.usb.run (es.flatMap seen) := by
  induction es with
  | nil => intro s s' h _ hs; cases hs; exact ⟨h, rfl⟩
  | cons e es ih =>
    intro s s' h hp hs
    simp only [State.run, Option.bind_eq_some_iff] at hs
    obtain ⟨t, ht, hs⟩ := hs
    obtain ⟨h1, h2⟩ := step_tied h (hp e (.head _)) ht
    obtain ⟨h3, h4⟩ := ih h1 (fun x hx => hp x (.tail _ hx)) hs
    exact ⟨h3, by rw [h4, h2, List.flatMap_cons, usb_run_append]⟩

/-! ## Toggle bits -/

/-- The host has accepted every report, and expects the toggle bits of the next ones. -/
structure InStep (s : State) : Prop where
  tied : Tied s
  tog : ∀ ep, (s.reg ep).1 = s.expect ep
  start : s.usb.configured = false → ∀ ep, (s.reg ep).1 = false
  got : ∀ ep, s.got ep = sent s.usb ep

theorem chan_step_ack (b : Bool) (c : Usb.Chan) (st : Usb.Stage) (h : c.ack = true) : (c.step b st).1.ack = true := by
  cases st <;> simp only [Usb.Chan.step] <;> (try split) <;> (try split) <;> first | exact h | rfl

theorem chan_step_host (b : Bool) (c : Usb.Chan) (st : Usb.Stage) : (c.step b st).1.host = c.host := by
  cases st <;> simp only [Usb.Chan.step] <;> (try split) <;> (try split) <;> rfl

theorem main_ready (u : Usb.State) (ep : Ep) (h : ready u ep = true) : ready (u.step .main) ep = true := by
  show ready u.main ep = true
  unfold Usb.State.main
  split
  · split <;> exact h
  · cases ep <;> first | exact chan_step_ack _ _ _ h | exact h
  · cases ep <;> first | exact chan_step_ack _ _ _ h | exact h
  · cases ep <;> first | exact chan_step_ack _ _ _ h | exact h

theorem main_sent (u : Usb.State) (ep : Ep) : sent (u.step .main) ep = sent u ep := by
  show sent u.main ep = _
  unfold Usb.State.main
  split
  · split <;> rfl
  · cases ep <;> first | exact chan_step_host _ _ _ | rfl
  · cases ep <;> first | exact chan_step_host _ _ _ | rfl
  · cases ep <;> first | exact chan_step_host _ _ _ | rfl

theorem register_fst {a b : Bool} {e : Bool × Control.Resp} (h : a = true → b = true) : (register a b e).1 = e.1 := by
  unfold register
  split
  · rfl
  · cases a <;> cases b <;> simp_all

theorem timer_ready (u : Usb.State) (r : Usb.Made) (ep : Ep) : ready (u.step (.timer r)) ep = ready u ep ∧ sent (u.step (.timer r)) ep = sent u ep := by
  show ready (u.timer r) ep = _ ∧ sent (u.timer r) ep = _
  unfold Usb.State.timer
  split <;> cases ep <;> exact ⟨rfl, rfl⟩

theorem InStep.after {s : State} (h : InStep s) {u : Usb.State} (hc : u.configured = s.usb.configured)
    (hr : ∀ ep, ready s.usb ep = true → ready u ep = true) (hs : ∀ ep, sent u ep = sent s.usb ep) : InStep (s.after u) := by
  have hf : ∀ ep, ((s.after u).reg ep).1 = (s.reg ep).1 := fun ep => by rw [after_reg, register_fst (hr ep)]
  exact ⟨h.tied.after hc, fun ep => (hf ep).trans (h.tog ep), fun hn ep => (hf ep).trans (h.start (hc ▸ hn) ep), fun ep => (h.got ep).trans (hs ep).symm⟩

theorem poll_other {u : Usb.State} {ep : Ep} (e : Ep) (h : ready u ep = false ∨ e ≠ ep) :
    ready (u.step (.poll ep)) e = ready u e ∧ sent (u.step (.poll ep)) e = sent u e := by
  rcases h with h | h
  · cases ep <;> cases e <;> first | exact ⟨rfl, rfl⟩ | (
      simp only [ready] at h
      simp only [ready, sent, Usb.State.step, Usb.Chan.poll, h, Bool.false_eq_true, if_false, and_self])
  · cases ep <;> cases e <;> first | exact ⟨rfl, rfl⟩ | exact absurd rfl h

theorem poll_self {u : Usb.State} {ep : Ep} (h : ready u ep = true) :
    ready (u.step (.poll ep)) ep = false ∧ sent (u.step (.poll ep)) ep = sent u ep ++ [buffer u ep] := by
  cases ep <;> (simp only [ready] at h; simp only [ready, sent, buffer, Usb.State.step, Usb.Chan.poll, h, if_true, and_self])

theorem InStep.step {s s' : State} {e : Event} (h : InStep s) (hu : Usual s e) (hs : s.step e = some s') : InStep s' := by
  cases e with
  | main =>
    cases hs
    exact h.after (step_configured _ _ (by simp) (by simp)) (main_ready s.usb) (main_sent s.usb)
  | timer r =>
    cases hs
    exact h.after (step_configured _ _ (by simp) (by simp)) (fun ep hr => by rw [(timer_ready _ _ _).1]; exact hr) (fun ep => (timer_ready _ _ _).2)
  | poll ep =>
    cases hs
    have hcf : (s.usb.step (.poll ep)).configured = s.usb.configured := step_configured _ _ (by simp) (by simp)
    cases hr : ready s.usb ep with
    | false =>
      rw [if_neg (by simp)]
      exact h.after hcf (fun e he => by rw [(poll_other e (.inl hr)).1]; exact he) (fun e => (poll_other e (.inl hr)).2)
    | true =>
      rw [if_pos rfl]
      have he : (s.reg ep).1 = (s.after (s.usb.step (.poll ep))).expect ep := h.tog ep
      rw [State.receive, if_pos he]
      obtain ⟨p1, p2⟩ := poll_self hr
      have hreg : ∀ e, ((s.after (s.usb.step (.poll ep))).reg e).1 = if e = ep then !(s.reg ep).1 else s.expect e := by
        intro e
        rw [after_reg]
        by_cases hee : e = ep
        · subst hee
          rw [if_pos rfl, hr, p1]; rfl
        · rw [if_neg hee, (poll_other e (.inr hee)).1, register, if_pos rfl, h.tog]
      refine ⟨(h.tied.after hcf).congr rfl rfl, hreg, fun hn => ?_, fun e => ?_⟩
      · exact absurd (hcf.symm.trans hn) (by rw [show s.usb.configured = true from hu]; decide)
      · show (if e = ep then s.got e ++ [buffer s.usb ep] else s.got e) = sent (s.usb.step (.poll ep)) e
        by_cases hee : e = ep
        · subst hee
          rw [if_pos rfl, p2, h.got]
        · rw [if_neg hee, (poll_other e (.inr hee)).2, h.got]
  | control e =>
    have hp : Event.Plain (.control e) := by
      cases e with
      | setup r => exact hu.1
      | _ => trivial
    obtain ⟨h1, h2⟩ := step_tied h.tied hp hs
    simp only [State.step, Option.map_eq_some_iff] at hs
    obtain ⟨c, hc, rfl⟩ := hs
    have hsent : ∀ ep, s.got ep = sent (s.tell e c) ep := fun ep => by
      rw [show s.tell e c = s.usb.run (seen (.control e)) from h2, h.got ep]
      cases e with
      | setup r => rw [seen]; split <;> cases ep <;> rfl
      | reset => cases ep <;> rfl
      | _ => rfl
    cases e with
    | setup r =>
      have hsh := Control.setup_shared hc hp
      simp only [Control.State.shared, Prod.mk.injEq] at hsh
      have hreg : ∀ ep, (c.eps.getD (slot ep) (false, .nak)) = s.reg ep := fun ep => by rw [hsh.1]; rfl
      have hcl : clears r = none := by rw [clears, show isFeature r = false from hp]; rfl
      refine ⟨h1, fun ep => ?_, fun hn ep => ?_, hsent⟩
      · show (c.eps.getD (slot ep) (false, .nak)).1 = toggles s.expect (.setup r) ep
        rw [hreg, toggles, hcl]
        cases hi : isConfigure r
        · exact h.tog ep
        · exact h.start (hu.2 hi) ep
      · show (c.eps.getD (slot ep) (false, .nak)).1 = false
        rw [hreg]
        refine h.start ?_ ep
        have : (s.tell (.setup r) c).configured = c.enumerated := rfl
        rw [this, hsh.2] at hn
        rw [← h.tied.conf]
        cases hi : s.ctl.enumerated <;> simp_all
    | «in» =>
      have : c.shared = s.ctl.shared := by
        simp only [Control.State.step] at hc
        split at hc
        · exact Control.onIn_shared hc
        · cases hc; rfl
      simp only [Control.State.shared, Prod.mk.injEq] at this
      have hreg : ∀ ep, (c.eps.getD (slot ep) (false, .nak)) = s.reg ep := fun ep => by rw [this.1]; rfl
      refine ⟨h1, fun ep => (congrArg Prod.fst (hreg ep)).trans (h.tog ep), fun hn ep => (congrArg Prod.fst (hreg ep)).trans (h.start ?_ ep), hsent⟩
      rw [← h.tied.conf, ← this.2]; exact hn
    | out tog data =>
      have : c.shared = s.ctl.shared := by
        simp only [Control.State.step, Option.some.injEq] at hc
        subst hc
        split
        · exact Control.onOut_shared _ _ _
        · rfl
      simp only [Control.State.shared, Prod.mk.injEq] at this
      have hreg : ∀ ep, (c.eps.getD (slot ep) (false, .nak)) = s.reg ep := fun ep => by rw [this.1]; rfl
      refine ⟨h1, fun ep => (congrArg Prod.fst (hreg ep)).trans (h.tog ep), fun hn ep => (congrArg Prod.fst (hreg ep)).trans (h.start ?_ ep), hsent⟩
      rw [← h.tied.conf, ← this.2]; exact hn
    | reset =>
      cases hc
      exact ⟨h1, fun ep => by cases ep <;> rfl, fun _ ep => by cases ep <;> rfl, hsent⟩

theorem inStep_new : InStep {} := ⟨tied_new, fun ep => by cases ep <;> rfl, fun _ ep => by cases ep <;> rfl, fun ep => by cases ep <;> rfl⟩

theorem InStep.run {es : List Event} : ∀ {s s' : State}, InStep s → Along Usual s es → s.run es = some s' → InStep s' := by
  induction es with
  | nil => intro s s' h _ hs; cases hs; exact h
  | cons e es ih =>
    intro s s' h hp hs
    simp only [State.run, Option.bind_eq_some_iff] at hs
    obtain ⟨t, ht, hs⟩ := hs
    exact ih (h.step hp.1 ht) (hp.2 t ht) hs

end Verif.Whole
