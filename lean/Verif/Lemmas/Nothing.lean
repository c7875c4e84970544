import Verif.Lemmas.Down
import Verif.Lemmas.CtxInv

/-! # What becomes of the virtual keys

In a keymap without sticky modifiers, virtual keys come from caps-word and from macros. Every press of one is paid for: by a release that is scheduled, or
by caps-word being active. So once nothing is scheduled, the only virtual key that may be left is the shift of caps-word. -/

namespace Verif.Nothing

open Comp
open _root_.Verif.Spec (virtuals)

/-! ## Events -/

/-- An event of a key. -/
def isKey {E : Type} : Event E → Bool
  | .key _ _ => true
  | _ => false

def AllKey {E : Type} (es : KeyEvents E) : Prop := ∀ e ∈ es, isKey e.event = true

/-- Neither caps-word's nor a sticky modifier's. -/
def plain : Ev → Bool
  | .capsWord _ | .sticky _ => false
  | _ => true

/-- Events that no virtual key comes from: not input events, those of caps-word, of sticky modifiers, nor that a key is resolved. -/
def tame : Event Ev → Bool
  | .input _ => false
  | .key _ e => plain e
  | .keymap (.resolved _ _) => false
  | .keymap _ => true

def AllTame (es : KeyEvents Ev) : Prop := ∀ e ∈ es, tame e.event = true

theorem AllKey.nil {E : Type} : AllKey ([] : KeyEvents E) := by simp [AllKey]
theorem AllTame.nil : AllTame [] := by simp [AllTame]

theorem AllKey.mapEv {E : Type} (f : E → Ev) (hf : ∀ e, plain (f e) = true) {es : KeyEvents E} (h : AllKey es) : AllTame (es.mapEv f) := by
  intro e he
  simp only [KeyEvents.mapEv, List.mem_map] at he
  obtain ⟨x, hx, rfl⟩ := he
  have := h x hx
  rcases x with ⟨_, _ | _ | _⟩ <;> simp_all [isKey, SchEv.map, Event.map, tame]

theorem state_calm {K : Keys} (hk : K.sticky = []) {ks ks' : KS} {r : Ref} {c : Ctx} {idx : Nat} {ev : Event Ev} {es : KeyEvents Ev}
    (h : updateState K ks r c idx ev = .ok (ks', es)) : AllTame es := by
  unfold updateState at h
  split at h
  · split at h
    · simp only [Res.bind_eq_ok, Res.pure_eq, Res.ok.injEq, Prod.mk.injEq] at h
      obtain ⟨es1, h1, _, rfl⟩ := h
      refine AllKey.mapEv _ (fun _ => rfl) ?_
      unfold Automation.sysUpdateState at h1
      split at h1
      · split at h1
        · simp only [Res.bind_eq_ok, Res.pure_eq, Res.ok.injEq] at h1
          obtain ⟨_, _, rfl⟩ := h1
          simp [AllKey, SchEv.imm, isKey]
        · simp only [Res.ok.injEq] at h1; rw [← h1]; exact .nil
      · split at h1
        · simp only [Res.bind_eq_ok, Res.pure_eq, Res.ok.injEq] at h1
          obtain ⟨_, _, rfl⟩ := h1
          simp [AllKey, SchEv.imm, isKey]
        · simp only [Res.ok.injEq] at h1; rw [← h1]; exact .nil
      · simp only [Res.ok.injEq] at h1; rw [← h1]; exact .nil
    · simp only [Res.ok.injEq, Prod.mk.injEq] at h; rw [← h.2]; exact .nil
  · split at h
    · simp only [Res.bind_eq_ok, Res.pure_eq, Res.ok.injEq, Prod.mk.injEq] at h
      obtain ⟨⟨b, es1⟩, h1, _, rfl⟩ := h
      refine AllKey.mapEv _ (fun _ => rfl) ?_
      unfold Layered.sysUpdateState at h1
      split at h1
      · simp only [Res.bind_eq_ok, Res.pure_eq, Res.ok.injEq, Prod.mk.injEq] at h1
        obtain ⟨_, _, _, rfl⟩ := h1
        split <;> simp [AllKey, SchEv.imm, isKey]
      · simp only [Res.ok.injEq, Prod.mk.injEq] at h1; rw [← h1.2]; exact .nil
    · simp only [Res.ok.injEq, Prod.mk.injEq] at h; rw [← h.2]; exact .nil
  · split at h
    · simp only [Res.bind_eq_ok, Res.pure_eq, Res.ok.injEq, Prod.mk.injEq] at h
      obtain ⟨⟨b, es1⟩, h1, _⟩ := h
      simp [Sticky.sysUpdateState, Res.index, hk] at h1
    · simp only [Res.ok.injEq, Prod.mk.injEq] at h; rw [← h.2]; exact .nil
  · simp only [Res.ok.injEq, Prod.mk.injEq] at h; rw [← h.2]; exact .nil

theorem pend_calm {K : Keys} {p p' : PKS} {r : Ref} {c : Ctx} {idx : Nat} {ev : Event Ev} {o : Option (NPK Ref)}
    {es : KeyEvents Ev} (h : Comp.updatePending K p idx c r ev = .ok (p', o, es)) : AllTame es := by
  unfold Comp.updatePending at h
  split at h
  · split at h
    · simp only [Res.bind_eq_ok, Res.pure_eq, Res.ok.injEq, Prod.mk.injEq] at h
      obtain ⟨⟨q, n, es1⟩, h1, _, _, rfl⟩ := h
      refine AllKey.mapEv _ (fun _ => rfl) ?_
      unfold Chorded.sysUpdatePending at h1
      split at h1
      · simp only [Chorded.Key.updatePending, Res.bind_eq_ok] at h1
        obtain ⟨_, _, ⟨q1, r1⟩, _, h1⟩ := h1
        split at h1
        · simp only [Res.bind_eq_ok, Res.pure_eq, Res.ok.injEq, Prod.mk.injEq] at h1
          obtain ⟨_, _, _, _, rfl⟩ := h1
          simp [AllKey, SchEv.imm, isKey]
        · simp only [Res.pure_eq, Res.ok.injEq, Prod.mk.injEq] at h1; rw [← h1.2.2]; exact .nil
      · simp only [Chorded.auxUpdatePending, Res.bind_eq_ok] at h1
        obtain ⟨_, _, ⟨q1, r1⟩, _, h1⟩ := h1
        split at h1
        · simp only [Res.pure_eq, Res.ok.injEq, Prod.mk.injEq] at h1
          obtain ⟨_, _, rfl⟩ := h1
          simp [AllKey, SchEv.imm, isKey]
        · simp only [Res.pure_eq, Res.ok.injEq, Prod.mk.injEq] at h1; rw [← h1.2.2]; exact .nil
    · simp only [Res.ok.injEq, Prod.mk.injEq] at h; rw [← h.2.2]; exact .nil
  · split at h
    · simp only [Res.bind_eq_ok, Res.pure_eq, Res.ok.injEq, Prod.mk.injEq] at h
      obtain ⟨⟨q, n, es1⟩, h1, _, _, rfl⟩ := h
      refine AllKey.mapEv _ (fun _ => rfl) ?_
      simp only [TapDance.updatePending, Res.bind_eq_ok] at h1
      obtain ⟨k, _, ⟨q1, r1, es2⟩, h2, h1⟩ := h1
      have hes : AllKey es2 := by
        unfold TapDance.PKS.handleEvent at h2
        split at h2
        · split at h2 <;> (simp only [Res.ok.injEq, Prod.mk.injEq] at h2; rw [← h2.2.2]; exact .nil)
        · split at h2
          · split at h2
            · simp only [Res.ok.injEq, Prod.mk.injEq] at h2; rw [← h2.2.2]; simp [AllKey, SchEv.after, isKey]
            · simp at h2
          · simp only [Res.ok.injEq, Prod.mk.injEq] at h2; rw [← h2.2.2]; exact .nil
        · simp only [Res.ok.injEq, Prod.mk.injEq] at h2; rw [← h2.2.2]; exact .nil
      have : es1 = es2 := by
        split at h1
        · simp only [Res.bind_eq_ok, Res.pure_eq, Res.ok.injEq, Prod.mk.injEq] at h1
          obtain ⟨_, _, _, _, _, _, rfl⟩ := h1; rfl
        · split at h1
          · simp at h1
          · split at h1
            · simp only [Res.bind_eq_ok, Res.pure_eq, Res.ok.injEq, Prod.mk.injEq] at h1
              obtain ⟨_, _, _, _, _, _, rfl⟩ := h1; rfl
            · simp only [Res.ok.injEq, Prod.mk.injEq] at h1; exact h1.2.2.symm
      rw [this]; exact hes
    · simp only [Res.ok.injEq, Prod.mk.injEq] at h; rw [← h.2.2]; exact .nil
  · split at h
    · simp only [Res.bind_eq_ok, Res.pure_eq, Res.ok.injEq, Prod.mk.injEq] at h
      obtain ⟨⟨q, n, es1⟩, h1, _, _, rfl⟩ := h
      refine AllKey.mapEv _ (fun _ => rfl) ?_
      unfold TapHold.updatePending at h1
      simp only at h1
      split at h1
      · simp only [Res.bind_eq_ok, Res.pure_eq, Res.ok.injEq, Prod.mk.injEq] at h1
        obtain ⟨_, _, _, _, rfl⟩ := h1; exact .nil
      · simp only [Res.ok.injEq, Prod.mk.injEq] at h1; rw [← h1.2.2]; exact .nil
    · simp only [Res.ok.injEq, Prod.mk.injEq] at h; rw [← h.2.2]; exact .nil
  · simp at h

/-- Pressing a key that is not the caps-word key. -/
theorem npk_calm {K : Keys} {idx : Nat} {c : Ctx} {r : Ref} {x : PKR Ref PKS KS} {es : KeyEvents Ev}
    (hr : r ≠ .capsWord) (h : newPressedKey K idx c r = .ok (x, es)) : AllTame es := by
  unfold newPressedKey at h
  split at h
  · simp only [Res.bind_eq_ok, Res.pure_eq, Res.ok.injEq, Prod.mk.injEq] at h
    obtain ⟨es1, h1, _, rfl⟩ := h
    refine AllKey.mapEv _ (fun _ => rfl) ?_
    simp only [Automation.sysNewPressedKey, Res.bind_eq_ok, Res.pure_eq, Res.ok.injEq] at h1
    obtain ⟨_, _, rfl⟩ := h1
    simp [AllKey, SchEv.imm, isKey]
  · simp only [CallbackKey.newPressedKey, Res.bind_eq_ok, Res.pure_eq, Res.ok.injEq, Prod.mk.injEq] at h
    obtain ⟨_, ⟨cb, hc, rfl⟩, _, rfl⟩ := h
    simp [AllTame, SchEv.imm, tame]
  · exact absurd rfl hr
  · simp only [Res.bind_eq_ok, Res.pure_eq, Res.ok.injEq, Prod.mk.injEq] at h
    obtain ⟨⟨p, es1⟩, h1, _, rfl⟩ := h
    refine AllKey.mapEv _ (fun _ => rfl) ?_
    unfold Chorded.sysNewPressedKey at h1
    split at h1
    · simp only [Chorded.Key.newPressedKey, Res.bind_eq_ok] at h1
      obtain ⟨_, _, rp, _, h1⟩ := h1
      split at h1
      · simp only [Res.bind_eq_ok, Res.pure_eq, Res.ok.injEq, Prod.mk.injEq] at h1
        obtain ⟨_, _, _, rfl⟩ := h1; exact .nil
      · simp only [Res.pure_eq, Res.ok.injEq, Prod.mk.injEq] at h1
        rw [← h1.2]; simp [Chorded.timeoutEvents, AllKey, SchEv.after, isKey]
    · simp only [Chorded.auxNewPressedKey, Res.bind_eq_ok] at h1
      obtain ⟨_, _, rp, _, h1⟩ := h1
      split at h1
      · simp only [Res.pure_eq, Res.ok.injEq, Prod.mk.injEq] at h1
        rw [← h1.2]; exact .nil
      · simp only [Res.pure_eq, Res.ok.injEq, Prod.mk.injEq] at h1
        rw [← h1.2]; simp [Chorded.timeoutEvents, AllKey, SchEv.after, isKey]
  · simp only [Res.ok.injEq, Prod.mk.injEq] at h; rw [← h.2]; exact .nil
  · simp only [Res.ok.injEq, Prod.mk.injEq] at h; rw [← h.2]; exact .nil
  · simp only [Res.ok.injEq, Prod.mk.injEq] at h; rw [← h.2]; exact .nil
  · simp only [Res.bind_eq_ok, Res.pure_eq, Res.ok.injEq, Prod.mk.injEq] at h
    obtain ⟨⟨p, es1⟩, h1, _, rfl⟩ := h
    refine AllKey.mapEv _ (fun _ => rfl) ?_
    unfold Layered.sysNewPressedKey at h1
    split at h1
    · simp only [Res.bind_eq_ok, Res.pure_eq, Res.ok.injEq, Prod.mk.injEq] at h1
      obtain ⟨_, _, _, rfl⟩ := h1
      simp [AllKey, SchEv.imm, isKey]
    · simp only [Res.bind_eq_ok, Res.pure_eq, Res.ok.injEq, Prod.mk.injEq] at h1
      obtain ⟨_, _, _, _, _, rfl⟩ := h1
      exact .nil
  · simp only [Res.ok.injEq, Prod.mk.injEq] at h; rw [← h.2]; exact .nil
  · simp only [Res.bind_eq_ok, Res.pure_eq, Res.ok.injEq, Prod.mk.injEq] at h
    obtain ⟨_, _, _, rfl⟩ := h; exact .nil
  · simp only [Res.ok.injEq, Prod.mk.injEq] at h
    rw [← h.2]
    refine AllKey.mapEv _ (fun _ => rfl) ?_
    simp [TapDance.newPressedKey, AllKey, SchEv.after, isKey]
  · simp only [Res.bind_eq_ok, Res.pure_eq, Res.ok.injEq, Prod.mk.injEq] at h
    obtain ⟨⟨p, es1⟩, h1, _, rfl⟩ := h
    refine AllKey.mapEv _ (fun _ => rfl) ?_
    unfold TapHold.newPressedKey at h1
    split at h1
    · split at h1
      · simp only [Res.ok.injEq, Prod.mk.injEq] at h1
        rw [← h1.2]; simp [TapHold.newPending, AllKey, SchEv.after, isKey]
      · simp only [Res.bind_eq_ok, Res.pure_eq, Res.ok.injEq, Prod.mk.injEq] at h1
        obtain ⟨_, _, _, rfl⟩ := h1; exact .nil
    · simp only [Res.ok.injEq, Prod.mk.injEq] at h1
      rw [← h1.2]; simp [TapHold.newPending, AllKey, SchEv.after, isKey]


/-- Without sticky modifiers and without macros that do other than tap keys: a press of a virtual key comes with a release after a while, or with caps-word
becoming active. -/
inductive Emitted (loud : Prop) : Bool → Bool → Event Ev → KeyEvents Ev → Prop where
  | tame {a : Bool} {ev : Event Ev} {es : KeyEvents Ev} (h : AllTame es) : Emitted loud a a ev es
  | on {a : Bool} (i : Nat) : Emitted loud a true (.key i (.capsWord .enable)) [SchEv.imm (.input (.vpress CapsWord.shift))]
  | off {a : Bool} {ev : Event Ev} (h : tame ev = false) (hi : ∀ ie, ev ≠ .input ie) (he : ∀ i, ev ≠ .key i (.capsWord .enable)) :
      Emitted loud a false ev [SchEv.imm (.input (.vrelease CapsWord.shift))]
  | tap {a : Bool} {ev : Event Ev} {rest : KeyEvents Ev} (ko : KeyOutput) (d : Nat) (hl : loud) (h : tame ev = true) (hr : AllTame rest) :
      Emitted loud a a ev (SchEv.imm (.input (.vpress ko)) :: SchEv.after d (.input (.vrelease ko)) :: rest)

/-- The macros do nothing but wait, or tap keys. -/
def Macros (loud : Prop) (A : List Automation.Instruction) : Prop :=
  ∀ i ∈ A, i = .noOp ∨ (∃ t, i = .wait t) ∨ (loud ∧ ∃ ko, i = .tap ko)

theorem keyEventsFor_emits {loud : Prop} {c : Automation.Config} (hA : Macros loud c.instructions) {idx : Nat} {e : Automation.Execution}
    {es : KeyEvents Automation.Ev} (h : Automation.keyEventsFor c idx e = .ok es) :
    AllKey es ∨ ∃ ko d rest, loud ∧ AllKey rest ∧ es = SchEv.imm (.input (.vpress ko)) :: SchEv.after d (.input (.vrelease ko)) :: rest := by
  simp only [Automation.keyEventsFor, Res.bind_eq_ok, Res.pure_eq, Res.ok.injEq] at h
  obtain ⟨i, hi, rfl⟩ := h
  have hm : i ∈ c.instructions := List.mem_of_getElem? (Res.index_eq_ok.1 hi)
  rcases hA i hm with rfl | ⟨t, rfl⟩ | ⟨hl, ko, rfl⟩
  · left; simp [AllKey, SchEv.after, isKey]
  · left; simp [AllKey, SchEv.after, isKey]
  · right; exact ⟨ko, c.duration, _, hl, by simp [AllKey, SchEv.after, isKey], rfl⟩

theorem executeHead_emits {loud : Prop} {c c' : Automation.Ctx} (hA : Macros loud c.config.instructions) {idx : Nat}
    {es : KeyEvents Automation.Ev} (h : c.executeHead idx = .ok (c', es)) : c'.config = c.config ∧
    (AllKey es ∨ ∃ ko d rest, loud ∧ AllKey rest ∧ es = SchEv.imm (.input (.vpress ko)) :: SchEv.after d (.input (.vrelease ko)) :: rest) := by
  simp only [Automation.Ctx.executeHead, Res.bind_eq_ok] at h
  obtain ⟨head, _, es1, h1, head', _, h⟩ := h
  have k := keyEventsFor_emits hA h1
  split at h
  · simp only [Res.bind_eq_ok] at h
    obtain ⟨nx, _, h⟩ := h
    split at h
    · simp only [Res.pure_eq, Res.ok.injEq, Prod.mk.injEq] at h
      obtain ⟨rfl, rfl⟩ := h
      exact ⟨rfl, k⟩
    · simp only [Res.bind_eq_ok, Res.pure_eq, Res.ok.injEq, Prod.mk.injEq] at h
      obtain ⟨es2, h2, rfl, rfl⟩ := h
      obtain ⟨_, rfl⟩ := KeyEvents.push_eq_ok.1 h2
      refine ⟨rfl, ?_⟩
      have one : AllKey [SchEv.after (E := Automation.Ev) c.config.duration (.key idx .nextInstruction)] := by simp [AllKey, SchEv.after, isKey]
      have app : ∀ {x y : KeyEvents Automation.Ev}, AllKey x → AllKey y → AllKey (x ++ y) := by
        intro x y hx hy e he
        rcases List.mem_append.1 he with he | he
        · exact hx e he
        · exact hy e he
      rcases k with k | ⟨ko, d, rest, hl, hr, rfl⟩
      · exact .inl (app k one)
      · exact .inr ⟨ko, d, rest ++ _, hl, app hr one, rfl⟩
  · simp only [Res.pure_eq, Res.ok.injEq, Prod.mk.injEq] at h
    obtain ⟨rfl, rfl⟩ := h
    exact ⟨rfl, k⟩

theorem automation_emits {loud : Prop} {c c' : Automation.Ctx} (hA : Macros loud c.config.instructions) {ev : Event Automation.Ev}
    {es : KeyEvents Automation.Ev} (h : c.handleEvent ev = .ok (c', es)) : c'.config = c.config ∧
    (AllKey es ∨ ∃ ko d rest, loud ∧ AllKey rest ∧ es = SchEv.imm (.input (.vpress ko)) :: SchEv.after d (.input (.vrelease ko)) :: rest) := by
  unfold Automation.Ctx.handleEvent at h
  split at h
  · split at h
    · simp only [Res.ok.injEq, Prod.mk.injEq] at h
      obtain ⟨rfl, rfl⟩ := h
      exact ⟨rfl, .inl .nil⟩
    · simp only [Res.bind_eq_ok] at h
      obtain ⟨hd, _, h⟩ := h
      have e0 : ∀ e, (c.enqueue e).config = c.config := by intro e; unfold Automation.Ctx.enqueue; split <;> rfl
      split at h
      · have := executeHead_emits (by rw [e0]; exact hA) h
        exact ⟨this.1.trans (e0 _), this.2⟩
      · simp only [Res.pure_eq, Res.ok.injEq, Prod.mk.injEq] at h
        obtain ⟨rfl, rfl⟩ := h
        exact ⟨e0 _, .inl .nil⟩
  · simp only [Res.bind_eq_ok] at h
    obtain ⟨hd, _, h⟩ := h
    split at h
    · simp only [Res.pure_eq, Res.ok.injEq, Prod.mk.injEq] at h
      obtain ⟨rfl, rfl⟩ := h
      exact ⟨rfl, .inl .nil⟩
    · exact executeHead_emits hA h
  · simp only [Res.ok.injEq, Prod.mk.injEq] at h
    obtain ⟨rfl, rfl⟩ := h
    exact ⟨rfl, .inl .nil⟩

/-- Not an event of a physical key, nor of a sticky modifier. -/
def calm : Event Ev → Bool
  | .input (.press _) | .input (.release _) => false
  | .key _ (.sticky _) => false
  | _ => true

theorem tame_calm {e : Event Ev} (h : tame e = true) : calm e = true := by
  rcases e with _ | ⟨_, _ | _ | _ | _ | _ | _ | _⟩ | _ <;> simp_all [tame, calm, plain]

theorem sticky_idle {c c' : Sticky.Ctx} {ev : Event Sticky.Ev} {es : KeyEvents Sticky.Ev} (hs : c.active = [])
    (hev : ∀ i e, ev ≠ .key i e) (h : c.handleEvent ev = .ok (c', es)) : c'.active = [] ∧ es = [] := by
  unfold Sticky.Ctx.handleEvent at h
  split at h
  · exact absurd rfl (hev _ _)
  · simp [hs] at h; obtain ⟨rfl, rfl⟩ := h; exact ⟨hs, rfl⟩
  · simp [hs] at h; obtain ⟨rfl, rfl⟩ := h; exact ⟨hs, rfl⟩
  · split at h
    · simp only [hs, Sticky.releaseAll, Res.bind_eq_ok, Res.pure_eq, Res.ok.injEq, Prod.mk.injEq] at h
      obtain ⟨_, rfl, rfl, rfl⟩ := h; exact ⟨rfl, rfl⟩
    · simp at h; obtain ⟨rfl, rfl⟩ := h; exact ⟨hs, rfl⟩
  · simp at h; obtain ⟨rfl, rfl⟩ := h; exact ⟨hs, rfl⟩

theorem map_nil {E C : Type} {x : Res C} {c : C} {es : KeyEvents E} (h : (·, ([] : KeyEvents E)) <$> x = .ok (c, es)) : es = [] := by
  cases x <;> simp_all

theorem ctx_emits {loud : Prop} {c c' : Ctx} {ev : Event Ev} {es : KeyEvents Ev} (hs : c.sticky.active = []) (hA : Macros loud c.automation.config.instructions)
    (hev : ∀ i e, ev ≠ .key i (.sticky e)) (h : c.handleEvent ev = .ok (c', es)) :
    Emitted loud c.capsWord.active c'.capsWord.active ev es ∧ c'.sticky.active = [] ∧ c'.automation.config = c.automation.config := by
  obtain ⟨p1, p2, p3, p4, h1, h2, h3, h4, h5, _⟩ := handleEvent_parts h
  -- the sticky modifiers
  have s5 : c'.sticky.active = [] ∧ es = p4 := by
    rcases sub_spec h5 with ⟨_, e1, e2⟩ | ⟨e, es1, e1, e2, e3⟩
    · exact ⟨by rw [e1, hs], e2⟩
    · have := sticky_idle hs (by
        intro i e' he
        subst he
        rcases ev with _ | ⟨j, x⟩ | _ <;> simp [Event.tryInto] at e1
        cases x <;> simp [Ev.toSticky?] at e1
        exact hev _ _ rfl) e2
      obtain ⟨_, rfl⟩ := KeyEvents.extend_eq_ok.1 e3
      exact ⟨this.1, by rw [this.2]; simp [KeyEvents.mapEv]⟩
  have s4 : p4 = p3 := by
    rcases sub_spec h4 with ⟨_, e1, e2⟩ | ⟨e, es1, e1, e2, e3⟩
    · exact e2
    · obtain ⟨_, rfl⟩ := KeyEvents.extend_eq_ok.1 e3
      rw [map_nil e2]; simp [KeyEvents.mapEv]
  have s3 : p3 = p2 := by
    rcases sub_spec h3 with ⟨_, e1, e2⟩ | ⟨e, es1, e1, e2, e3⟩
    · exact e2
    · obtain ⟨_, rfl⟩ := KeyEvents.extend_eq_ok.1 e3
      rw [map_nil e2]; simp [KeyEvents.mapEv]
  obtain ⟨s5, rfl⟩ := s5
  subst s4 s3
  have s1 : c'.automation.config = c.automation.config ∧ (p1 = [] ∨ ((∃ i e, ev = .key i (.automation e)) ∧ ((∃ es1, AllKey es1 ∧ p1 = KeyEvents.mapEv .automation es1) ∨
      ∃ ko d rest, loud ∧ AllKey rest ∧ p1 = SchEv.imm (.input (.vpress ko)) :: SchEv.after d (.input (.vrelease ko)) :: KeyEvents.mapEv .automation rest))) := by
    rcases sub_spec h1 with ⟨_, e1, e2⟩ | ⟨e, es1, e1, e2, e3⟩
    · exact ⟨by rw [e1], .inl e2⟩
    · have k := automation_emits hA e2
      obtain ⟨_, rfl⟩ := KeyEvents.extend_eq_ok.1 e3
      refine ⟨k.1, ?_⟩
      by_cases hk : ∃ i e, ev = .key i (.automation e)
      · refine .inr ⟨hk, ?_⟩
        rcases k.2 with k | ⟨ko, d, rest, hl, hr, rfl⟩
        · exact .inl ⟨es1, k, rfl⟩
        · exact .inr ⟨ko, d, rest, hl, hr, rfl⟩
      · left
        rcases ev with ie | ⟨j, x⟩ | ke
        · simp only [Event.tryInto, Option.some.injEq] at e1; subst e1
          simp only [Automation.Ctx.handleEvent, Res.ok.injEq, Prod.mk.injEq] at e2
          rw [← e2.2]; rfl
        · cases x <;> simp [Event.tryInto, Ev.toAutomation?] at e1
          exact absurd ⟨_, _, rfl⟩ hk
        · simp only [Event.tryInto, Option.some.injEq] at e1; subst e1
          simp only [Automation.Ctx.handleEvent, Res.ok.injEq, Prod.mk.injEq] at e2
          rw [← e2.2]; rfl
  refine ⟨?_, s5, s1.1⟩
  -- caps-word
  rcases sub_spec h2 with ⟨e1, e2, e3⟩ | ⟨e, es1, e1, e2, e3⟩
  · rw [e2, e3]
    rcases s1.2 with rfl | ⟨⟨i, e, rfl⟩, ⟨es1, hk, rfl⟩ | ⟨ko, d, rest, hl, hr, rfl⟩⟩
    · exact .tame .nil
    · exact .tame (hk.mapEv _ (fun _ => rfl))
    · exact .tap ko d hl rfl (hr.mapEv _ (fun _ => rfl))
  · have p1n : p1 = [] := by
      rcases s1.2 with h | ⟨⟨i, e, rfl⟩, _⟩
      · exact h
      · simp [Event.tryInto, Ev.toCapsWord?] at e1
    subst p1n
    obtain ⟨_, rfl⟩ := KeyEvents.extend_eq_ok.1 e3
    simp only [Res.ok.injEq] at e2
    simp only [List.nil_append]
    unfold CapsWord.Ctx.handleEvent at e2
    split at e2
    · split at e2
      · split at e2
        · simp only [Prod.mk.injEq] at e2
          obtain ⟨e4, rfl⟩ := e2
          rw [← e4]
          refine .off ?_ ?_ ?_ <;> rcases ev with ie | ⟨j, x⟩ | ke <;> simp_all [Event.tryInto, tame]
        · simp only [Prod.mk.injEq] at e2; rw [← e2.1, ← e2.2]; exact .tame .nil
      · simp only [Prod.mk.injEq] at e2; rw [← e2.1, ← e2.2]; exact .tame .nil
    · simp only [Prod.mk.injEq] at e2
      obtain ⟨e4, rfl⟩ := e2
      rw [← e4]
      rcases ev with ie | ⟨j, x⟩ | ke <;> simp [Event.tryInto] at e1
      cases x <;> simp [Ev.toCapsWord?] at e1
      obtain ⟨rfl, rfl⟩ := e1
      exact .on _
    · simp only [Prod.mk.injEq] at e2
      obtain ⟨e4, rfl⟩ := e2
      rw [← e4]
      rcases ev with ie | ⟨j, x⟩ | ke <;> simp [Event.tryInto] at e1
      cases x <;> simp [Ev.toCapsWord?] at e1
      obtain ⟨rfl, rfl⟩ := e1
      exact .off rfl (by simp) (by simp)
    · simp only [Prod.mk.injEq] at e2; rw [← e2.1, ← e2.2]; exact .tame .nil

end Verif.Nothing
