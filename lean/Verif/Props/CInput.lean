import Verif.Props.Keymap
import Verif.Props.Callback
import Verif.CApi

/-!
# C05, C19: giving events and callbacks to the keymap through the C library
-/

namespace Verif.Comp
open Spec
variable {K : Keys} {refs : List Ref} {S : Search} {ctx : Ctx}

theorem pressedOutputs_append {R Ev Ctx PKS KS : Type} (sys : System R Ev Ctx PKS KS) (ps : List (PressedInput R KS)) (ko : KeyOutput) :
    pressedOutputs sys (ps ++ [.virt ko]) = (· ++ [ko]) <$> pressedOutputs sys ps := by
  induction ps with
  | nil => rfl
  | cons p ps ih =>
    cases p with
    | key i r ks =>
      simp only [List.cons_append, pressedOutputs, ih]
      cases sys.keyOutput r ks <;> cases pressedOutputs sys ps <;> simp
    | virt k =>
      simp only [List.cons_append, pressedOutputs, ih]
      cases pressedOutputs sys ps <;> simp

theorem run_then {R Ev Ctx PKS KS : Type} {C : Cfg R Ev Ctx PKS KS} {n : Nat} {a b c : KM R Ev Ctx PKS KS} {xs ys : List Op}
    (h1 : run C n a xs = .ok b) (h2 : run C n b ys = .ok c) : run C n a (xs ++ ys) = .ok c := by
  induction xs generalizing a with
  | nil => cases h1; exact h2
  | cons x xs ih =>
    obtain ⟨a', h3, h4⟩ := Res.bind_eq_ok.1 h1
    exact Res.bind_eq_ok.2 ⟨a', h3, ih h4⟩

/-- C05: `keymap_register_input_event` with a virtual press of key code `v`, when nothing is undecided or
waiting and there is room, makes the keymap hold that key beside what it holds; with a virtual release, it
lets go of one such virtual key, if there is one. -/
theorem C05_c_virtual {km : KM Ref Ev Ctx PKS KS} {n v : Nat} (hr : Reachable (cfg K refs S) ctx km) (hp : km.pend = none)
    (hq : km.inq = []) (hd : km.delay = 0) :
    (km.pressed.length < maxPressedKeys →
      ∃ km', CApi.registerInputEvent (cfg K refs S) (n + 1) km ⟨.virtualPress, v⟩ = .ok km' ∧
        km'.pressedKeys (cfg K refs S) =
          (· ++ [KeyOutput.fromKeyCode (BitVec.ofNat 8 v)]) <$> km.pressedKeys (cfg K refs S)) ∧
    ∃ km', CApi.registerInputEvent (cfg K refs S) (n + 1) km ⟨.virtualRelease, v⟩ = .ok km' ∧
      keys km'.pressed = keys km.pressed ∧
      virtuals km'.pressed = (virtuals km.pressed).erase (KeyOutput.fromKeyCode (BitVec.ofNat 8 v)) := by
  have hN := noVirtualReaction K refs S ((keysOk_api K refs S).of_reachable (KeysOk.new K ctx) hr)
  have hs := hr.quiet.1
  have key := fun ev => processInputN_virtual (C := cfg K refs S)
    (km := { km with idle := 0, inq := [], delay := 0, log := km.log ++ [ev] })
    hN (n := n) (ko := KeyOutput.fromKeyCode (BitVec.ofNat 8 v)) hp hs
  unfold CApi.registerInputEvent handleInput
  simp only [hq, List.nil_append, hd, if_true, List.length_nil, inputCap]
  constructor
  · intro hl
    refine ⟨_, by rw [if_neg (by omega), show CApi.CEvent.toInput ⟨.virtualPress, v⟩ = .vpress (KeyOutput.fromKeyCode (BitVec.ofNat 8 v)) from rfl,
      (key _).1 hl]; rfl, ?_⟩
    exact pressedOutputs_append _ _ _
  · refine ⟨_, by rw [if_neg (by omega), show CApi.CEvent.toInput ⟨.virtualRelease, v⟩ = .vrelease (KeyOutput.fromKeyCode (BitVec.ofNat 8 v)) from rfl,
      (key _).2]; rfl, ?_, ?_⟩
    · exact keys_removeVirt _ _
    · exact virtuals_removeVirt _ _

/-- The states of the example keymap meet the hypotheses: a virtual press and release beside a held key. -/
example : ((fun km => (indices km.pressed, (virtuals km.pressed).length, km.pend.isNone, km.inq, km.delay)) <$>
    (run Ex.C 9 Ex.km0 [.input (.press 0), .tick] >>= fun km =>
      CApi.registerInputEvent Ex.C 9 km ⟨.virtualPress, 7⟩ >>= fun km => tick Ex.C 9 km)) = .ok ([0], 1, true, [], 0) := by
  decide +kernel

/-- C19 through the C library: a function registered with number 0 is the one a `reset` key calls, one
registered with number 1 the one a `reset to bootloader` key calls; registering with another number does
nothing. -/
theorem C19_c_callback {km : KM Ref Ev Ctx PKS KS} {id f : Nat} :
    (2 ≤ id → CApi.registerCallback km id f = .ok km) ∧
    ∀ {cb : Callback}, id = 0 ∧ cb = .reset ∨ id = 1 ∧ cb = .resetToBootloader →
    ∀ {km1 km' : KM Ref Ev Ctx PKS KS} {n idx j : Nat}, Reachable (cfg K refs S) ctx km → km.pend = none → km.inq = [] →
      km.delay = 0 → idx ∉ indices km.pressed → refs[idx]? = some (.callback j) → K.callback[j]? = some cb →
      CApi.registerCallback km id f = .ok km1 →
      CApi.registerKeypress (cfg K refs S) n km1 idx = .ok km' → km'.fired = km.fired ++ [(cb, f)] := by
  constructor
  · intro h
    obtain ⟨k, rfl⟩ : ∃ k, id = k + 2 := ⟨id - 2, by omega⟩
    rfl
  · intro cb hid km1 km' n idx j hr hp hq hd hi hk hj h1 h2
    have hs : km.setCallback cb f = .ok km1 := by
      rcases hid with ⟨rfl, rfl⟩ | ⟨rfl, rfl⟩ <;> exact h1
    have hr1 : Reachable (cfg K refs S) ctx km1 := by
      obtain ⟨m, ops, ho⟩ := hr
      refine ⟨m, ops ++ [.setCallback cb f], ?_⟩
      exact run_then ho (by
        show (step (cfg K refs S) m km (.setCallback cb f) >>= fun km => run (cfg K refs S) m km []) = _
        rw [show step (cfg K refs S) m km (.setCallback cb f) = .ok km1 from hs]
        rfl)
    have inv := C19_registered_last hs cb
    have eqs : km1.pend = km.pend ∧ km1.inq = km.inq ∧ km1.delay = km.delay ∧ km1.pressed = km.pressed ∧ km1.fired = km.fired := by
      unfold KM.setCallback at hs
      simp only at hs
      split at hs
      · cases hs; exact ⟨rfl, rfl, rfl, rfl, rfl⟩
      · cases hs
    obtain ⟨e1, e2, e3, e4, e5⟩ := eqs
    have := (C19_handle_input hr1 (by rw [e1, hp]) (by rw [e2, hq]) (by rw [e3, hd]) (by rw [e4]; exact hi) hk hj h2).1
    rw [this, e5, inv, if_pos rfl]

/-- The callback key of the example (index 6) is a `reset` key. -/
example : ((fun km => km.fired) <$> (CApi.registerCallback Ex.km0 0 5 >>= fun km =>
    CApi.registerCallback km 1 8 >>= fun km => CApi.registerKeypress Ex.C 9 km 6)) = .ok [(.reset, 5)] := by decide +kernel

end Verif.Comp
