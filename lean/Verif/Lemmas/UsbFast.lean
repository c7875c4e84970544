import Verif.Props.Device
import Verif.Spec.Keyboard

/-!
# Checking histories of a keyboard

`main` as a function which the kernel computes quickly, for the examples.
-/

namespace Verif.Keyboard

open Usb (Chan State Stage Ep)

def eqB : List Byte → List Byte → Bool
  | [], [] => true
  | a :: as, b :: bs => match Nat.beq a.toNat b.toNat with
    | true => eqB as bs
    | false => false
  | _, _ => false

def zeroB : List Byte → Bool
  | [] => true
  | a :: as => match Nat.beq a.toNat 0 with
    | true => zeroB as
    | false => false

theorem eqB_iff (as bs : List Byte) : eqB as bs = true ↔ as = bs := by
  induction as generalizing bs with
  | nil => cases bs <;> simp [eqB]
  | cons a as ih =>
    cases bs with
    | nil => simp [eqB]
    | cons b bs =>
      simp only [eqB, List.cons.injEq]
      split
      · next h => rw [ih, ← BitVec.toNat_inj, Nat.eq_of_beq_eq_true h]; simp
      · next h => rw [← BitVec.toNat_inj]; simp [Nat.ne_of_beq_eq_false h]

theorem zeroB_iff (as : List Byte) : zeroB as = true ↔ ∀ b ∈ as, b = 0 := by
  induction as with
  | nil => simp [zeroB]
  | cons a as ih =>
    simp only [zeroB, List.mem_cons, forall_eq_or_imp]
    split
    · next h =>
      have : a = 0 := BitVec.toNat_inj.1 (by simpa using Nat.eq_of_beq_eq_true h)
      rw [ih]; simp [this]
    · next h =>
      have : a ≠ 0 := fun h0 => Nat.ne_of_beq_eq_false h (by rw [h0]; rfl)
      exact ⟨fun h => (by cases h), fun h => absurd h.1 this⟩

/-- `Chan.step`, fast. -/
def stepF (resend : Bool) (c : Chan) : Stage → Chan × Option Stage
  | .test => match eqB c.pack c.prev with
    | false => (c, some .choose)
    | true => match resend with
      | false => (c, none)
      | true => match zeroB c.pack with
        | true => (c, none)
        | false => (c, some .choose)
  | st => c.step resend st

theorem stepF_eq (resend : Bool) (c : Chan) (st : Stage) : stepF resend c st = c.step resend st := by
  cases st with
  | test =>
    simp only [stepF, Chan.step]
    split
    · next h =>
      have : c.pack ≠ c.prev := fun he => by rw [(eqB_iff _ _).2 he] at h; cases h
      rw [if_pos (.inl this)]
    · next h =>
      have he := (eqB_iff _ _).1 h
      split
      · rw [if_neg (by simp [he])]
      · split
        · next hz =>
          have := (zeroB_iff _).1 hz
          rw [if_neg]
          rintro (h | ⟨_, b, hb, hn⟩)
          · exact h he
          · exact hn (this b hb)
        · next hz =>
          rw [if_pos]
          refine .inr ⟨rfl, ?_⟩
          apply Classical.byContradiction
          intro hall
          have : zeroB c.pack = true := (zeroB_iff _).2 fun b hb => Classical.byContradiction fun hn => hall ⟨b, hb, hn⟩
          rw [this] at hz; cases hz
  | _ => rfl

/-- `State.main`, fast. -/
def mainF (s : State) : State :=
  match s.pc with
  | .top => match s.configured with
    | true => { s with pc := .at .keyboard .test }
    | false => s
  | .at .keyboard st => match stepF false s.keyboard st with | (a, b) => { s with keyboard := a, pc := Ep.after .keyboard b }
  | .at .mouse st => match stepF true s.mouse st with | (a, b) => { s with mouse := a, pc := Ep.after .mouse b }
  | .at .consumer st => match stepF false s.consumer st with | (a, b) => { s with consumer := a, pc := Ep.after .consumer b }

theorem mainF_eq (s : State) : mainF s = s.main := by
  unfold mainF State.main
  split
  · next h => simp only [h]; cases s.configured <;> rfl
  · next h => simp only [h, stepF_eq]
  · next h => simp only [h, stepF_eq]
  · next h => simp only [h, stepF_eq]

variable {R Ev Ctx PKS KS : Type}

/-- A check of a whole history. -/
def check (C : Cfg R Ev Ctx PKS KS) (n : Nat) (room : Bool) (p : Device R Ev Ctx PKS KS → Bool) (d : Device R Ev Ctx PKS KS) : List Device.Event → Bool
  | [] => p d
  | .main :: es => check C n room p { d with usb := mainF d.usb } es
  | e :: es => (match e with
      | .timer raw => (match d.usb.pc with
        | .at _ (.copy _) => false
        | _ => !room || decide (d.km.inq.length + (Firmware.scan d.keys raw).2.length ≤ 31))
      | .reset => d.usb.configured = false
      | .poll ep => d.usb.pc ≠ .at ep .busy
      | _ => true) && match Device.step C n d e with
    | .ok d' => check C n room p d' es
    | _ => false

theorem check_sound {C : Cfg R Ev Ctx PKS KS} {n : Nat} {room : Bool} {p : Device R Ev Ctx PKS KS → Bool} : ∀ {es : List Device.Event} {d : Device R Ev Ctx PKS KS},
    check C n room p d es = true →
      (∃ d', Device.run C n d es = .ok d' ∧ p d' = true) ∧ Device.Along C n d es ∧ (room = true → Roomy C n d es)
  | [], d, h => ⟨⟨d, rfl, h⟩, trivial, fun _ => trivial⟩
  | e :: es, d, h => by
    by_cases hm : e = .main
    · subst hm
      simp only [check] at h
      rw [mainF_eq] at h
      obtain ⟨⟨d', a1, a2⟩, a3, a4⟩ := check_sound h
      refine ⟨⟨d', ?_, a2⟩, ⟨trivial, fun d1 h1 => ?_⟩, fun hr => ⟨fun raw h => (by cases h), fun d1 h1 => ?_⟩⟩
      · exact a1
      · cases h1; exact a3
      · cases h1; exact a4 hr
    · have hc : check C n room p d (e :: es) = ((match e with
          | .timer raw => (match d.usb.pc with
            | .at _ (.copy _) => false
            | _ => !room || decide (d.km.inq.length + (Firmware.scan d.keys raw).2.length ≤ 31))
          | .reset => d.usb.configured = false
          | .poll ep => d.usb.pc ≠ .at ep .busy
          | _ => true) && match Device.step C n d e with
        | .ok d' => check C n room p d' es
        | _ => false) := by
        cases e <;> first | exact absurd rfl hm | simp only [check]
      rw [hc, Bool.and_eq_true] at h
      obtain ⟨h1, h2⟩ := h
      cases hs : Device.step C n d e with
      | panic => rw [hs] at h2; cases h2
      | fuel => rw [hs] at h2; cases h2
      | ok d1 =>
        rw [hs] at h2
        obtain ⟨⟨d', a1, a2⟩, a3, a4⟩ := check_sound (d := d1) h2
        refine ⟨⟨d', by simp only [Device.run, hs, Res.ok_bind]; exact a1, a2⟩, ⟨?_, fun d2 hd => ?_⟩, fun hr => ⟨fun raw he => ?_, fun d2 hd => ?_⟩⟩
        · cases e with
          | main => trivial
          | timer raw =>
            intro ep i hp
            simp only [hp] at h1
            cases h1
          | poll ep => simpa [Device.Prompt] using h1
          | configure => trivial
          | reset => simpa [Device.Prompt] using h1
        · rw [hs] at hd; cases hd; exact a3
        · subst he
          simp only at h1
          split at h1
          · cases h1
          · simpa [hr] using h1
        · rw [hs] at hd; cases hd; exact a4 hr

end Verif.Keyboard
