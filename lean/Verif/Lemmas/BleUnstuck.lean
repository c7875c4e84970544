import Verif.Spec.BleUnstuck
import Verif.Spec.Nothing
import Verif.Lemmas.Unstuck
import Verif.Props.BleKeyboard

/-!
# The calls that the ch58x firmware makes, and what its reports show
-/

namespace Verif.Ble

open _root_.Verif.Spec (evDown opDown keyDown)
open Unstuck (run_app heard_app register_run down_inputs report_take evDown_changed DownBy)

theorem told_changed (i : Nat) (b : Bool) : (if b then InputEvent.press i else .release i) = Firmware.stateChanged i b := by cases b <;> rfl

theorem cEvent_told (i : Nat) (b : Bool) : (cEvent i b).toInput = (if b then InputEvent.press i else .release i) := by cases b <;> rfl

theorem told_keysOnly {es : List (Option Bool)} : ∀ {i : Nat}, ∀ e ∈ told i es, (∃ j, e = .press j) ∨ ∃ j, e = .release j := by
  induction es with
  | nil => intro i e h; cases h
  | cons x es ih =>
    intro i e h
    cases x with
    | none => exact ih e h
    | some b =>
      rcases List.mem_cons.1 h with rfl | h
      · cases b
        · exact .inr ⟨i, rfl⟩
        · exact .inl ⟨i, rfl⟩
      · exact ih e h

/-- Which keys are down after a scan. -/
theorem down_scan58 (ds : List Bool) : ∀ (i : Nat) (rs : List Bool) (m : BitVec 8) (f : Nat → Bool), (∀ k (h : k < ds.length), f (i + k) = ds[k]) →
    (Firmware.scanLoop58 ds rs m).1.length = ds.length ∧
    (∀ k (h : k < (Firmware.scanLoop58 ds rs m).1.length), (told i (Firmware.scanLoop58 ds rs m).2.2).foldl (evDown (i + k)) (f (i + k)) = (Firmware.scanLoop58 ds rs m).1[k]) ∧
    ∀ j, (j < i ∨ i + ds.length ≤ j) → (told i (Firmware.scanLoop58 ds rs m).2.2).foldl (evDown j) (f j) = f j := by
  induction ds with
  | nil => intro i rs m f h; cases rs <;> exact ⟨rfl, (fun k hk => absurd hk (Nat.not_lt_zero k)), fun _ _ => rfl⟩
  | cons d ds ih =>
    intro i rs m f h
    cases rs with
    | nil => exact ⟨rfl, h, fun _ _ => rfl⟩
    | cons r rs =>
      have h0 : f i = d := h 0 (by simp)
      have hrest : ∀ (g : Nat → Bool), (∀ j, j ≠ i → g j = f j) → ∀ k (hk : k < ds.length), g (i + 1 + k) = ds[k] := by
        intro g hg k hk
        rw [hg _ (by omega), show i + 1 + k = i + (k + 1) by omega]
        exact h (k + 1) (Nat.succ_lt_succ hk)
      simp only [Firmware.scanLoop58]
      split
      · next hr =>
        obtain ⟨g0, g1, g2⟩ := ih (i + 1) rs m f (hrest f fun _ _ => rfl)
        refine ⟨by simpa using g0, fun k hk => ?_, fun j hj => g2 j (by simp only [List.length_cons] at hj; omega)⟩
        cases k with
        | zero => exact (g2 i (.inl (by omega))).trans h0
        | succ k =>
          rw [show i + (k + 1) = i + 1 + k by omega]
          simpa [told] using g1 k (by simpa using hk)
      · next hr =>
        obtain ⟨g0, g1, g2⟩ := ih (i + 1) rs (m + if r = true then 1 else -1) (fun j => if j = i then r else f j) (hrest _ fun j hj => if_neg hj)
        simp only [told, List.foldl_cons, told_changed, evDown_changed]
        refine ⟨by simpa using g0, fun k hk => ?_, fun j hj => ?_⟩
        · cases k with
          | zero =>
            have := g2 i (.inl (by omega))
            simpa using this
          | succ k =>
            rw [show i + (k + 1) = i + 1 + k by omega]
            have := g1 k (by simpa using hk)
            simpa using this
        · simp only [List.length_cons] at hj
          exact (g2 j (by omega)).trans (if_neg (by omega))

section

variable {R Ev Ctx PKS KS : Type} {C : Cfg R Ev Ctx PKS KS} {n : Nat} {row : Nat → Nat} {rows : Nat}

/-- The report shows what is pressed. -/
def Shown (C : Cfg R Ev Ctx PKS KS) (s : State R Ev Ctx PKS KS) : Prop :=
  Device.Sizes s.report ∧ ∃ outs m, s.km.pressedKeys C = .ok outs ∧ zero.update (outs.take m) = .ok s.report

theorem reportOutput_run {km km' : KM R Ev Ctx PKS KS} {out : KeymapOutput} (h : reportOutput C km = .ok (km', out)) :
    Verif.run C n km [.report] = .ok km' ∧ ∃ outs m, km'.pressedKeys C = .ok outs ∧ out = outs.take m := by
  refine ⟨by simp only [Verif.run, Verif.step, h]; rfl, ?_⟩
  obtain ⟨outs, h1, h2⟩ := Res.bind_eq_ok.1 h
  cases h2
  obtain ⟨m, hm⟩ := report_take km.rep outs
  exact ⟨outs, m, h1, hm⟩

theorem shown_of {km km' : KM R Ev Ctx PKS KS} {out : KeymapOutput} {r r' : CApi.HidReport} (hs : Device.Sizes r) (h : reportOutput C km = .ok (km', out))
    (hu : r.update out = .ok r') : Device.Sizes r' ∧ ∃ outs m, km'.pressedKeys C = .ok outs ∧ zero.update (outs.take m) = .ok r' := by
  obtain ⟨_, outs, m, h1, h2⟩ := reportOutput_run (n := 0) h
  subst h2
  exact ⟨Keyboard.update_size hs hu, outs, m, h1, by rw [← update_zero hs]; exact hu⟩

theorem register_ops {es : List (Option Bool)} : ∀ {i : Nat} {km km' : KM R Ev Ctx PKS KS}, Ble.register C n i km es = .ok km' →
    Verif.run C n km ((told i es).map .input) = .ok km' := by
  induction es with
  | nil => intro i km km' h; cases h; rfl
  | cons x es ih =>
    intro i km km' h
    cases x with
    | none => exact ih h
    | some b =>
      obtain ⟨k, h1, h2⟩ := Res.bind_eq_ok.1 h
      unfold CApi.registerInputEvent at h1
      rw [cEvent_told] at h1
      exact Res.bind_eq_ok.2 ⟨k, h1, ih h2⟩

theorem registerAfter_ops {es : List (Option Bool)} : ∀ {i next next' : Nat} {s s' : State R Ev Ctx PKS KS}, Shown C s →
    Ble.registerAfter C n i s next es = .ok (s', next') →
    Verif.run C n s.km (after (deltaMs s.clock s.updated) (told i es)) = .ok s'.km ∧ Shown C s' ∧ s'.matrix = s.matrix := by
  induction es with
  | nil => intro i next next' s s' hs h; cases h; exact ⟨rfl, hs, rfl⟩
  | cons x es ih =>
    intro i next next' s s' hs e
    cases x with
    | none => exact ih hs e
    | some v =>
      simp only [Ble.registerAfter] at e
      obtain ⟨⟨km1, r, nx⟩, e1, e2⟩ := Res.bind_eq_ok.1 e
      simp only [CApi.registerInputAfterMs] at e1
      obtain ⟨⟨km2, nx2⟩, a1, e1⟩ := Res.bind_eq_ok.1 e1
      obtain ⟨⟨km3, out⟩, a2, e1⟩ := Res.bind_eq_ok.1 e1
      obtain ⟨r1, a3, e1⟩ := Res.bind_eq_ok.1 e1
      obtain ⟨tt, a4, e1⟩ := Res.bind_eq_ok.1 e1
      cases e1
      rw [cEvent_told] at a1
      obtain ⟨f1, f2, f3⟩ := ih (s := { s.make km3 r with updated := s.clock }) (show Shown C _ from shown_of hs.1 a2 a3) e2
      have h0 : deltaMs s.clock s.clock = 0 := by simp [deltaMs]
      refine ⟨?_, f2, f3⟩
      simp only [told, after]
      refine Res.bind_eq_ok.2 ⟨km2, by simp only [Verif.step, a1]; rfl, Res.bind_eq_ok.2 ⟨km3, by simp only [Verif.step, a2]; rfl, ?_⟩⟩
      rw [← h0]
      exact f1

/-- The calls, what they say about the keys, and that the report is that of what is pressed then. -/
structure Heeds (C : Cfg R Ev Ctx PKS KS) (n : Nat) (km0 : KM R Ev Ctx PKS KS) (s : State R Ev Ctx PKS KS) (ops : List Op) : Prop where
  run : Verif.run C n km0 ops = .ok s.km
  heard : Verif.heard C n km0 ops = true
  keys : ∀ op ∈ ops, Nothing.keysOnly op = true
  down : ∀ k (h : k < s.matrix.debounced.length), keyDown k ops = s.matrix.debounced[k]
  other : ∀ k, s.matrix.debounced.length ≤ k → keyDown k ops = false
  shown : Shown C s

theorem Heeds.same {km0 : KM R Ev Ctx PKS KS} {s s' : State R Ev Ctx PKS KS} {ops : List Op} (h : Heeds C n km0 s ops)
    (e : (s'.km, s'.report, s'.matrix) = (s.km, s.report, s.matrix)) : Heeds C n km0 s' ops := by
  obtain ⟨e1, e2⟩ := Prod.mk.inj e
  obtain ⟨e2, e3⟩ := Prod.mk.inj e2
  refine ⟨by rw [e1]; exact h.run, h.heard, h.keys, by rw [e3]; exact h.down, by rw [e3]; exact h.other, ?_⟩
  unfold Shown
  rw [e1, e2]
  exact h.shown

theorem same_compare (s : State R Ev Ctx PKS KS) : (s.compare.km, s.compare.report, s.compare.matrix) = (s.km, s.report, s.matrix) := by
  obtain ⟨ts, hcm, _⟩ := compare_frame s
  rw [hcm]

theorem down_after (i : Nat) (evs : List InputEvent) : ∀ (d : Nat) (b : Bool), (after d evs).foldl (opDown i) b = evs.foldl (evDown i) b := by
  induction evs with
  | nil => intro d b; rfl
  | cons e es ih => intro d b; exact ih 0 _

theorem keys_after {evs : List InputEvent} (h : ∀ e ∈ evs, (∃ j, e = .press j) ∨ ∃ j, e = .release j) : ∀ (d : Nat), ∀ op ∈ after d evs, Nothing.keysOnly op = true := by
  induction evs with
  | nil => intro d op ho; cases ho
  | cons e es ih =>
    intro d op ho
    rcases List.mem_cons.1 ho with rfl | ho
    · rcases h e (by simp) with ⟨j, rfl⟩ | ⟨j, rfl⟩ <;> rfl
    · rcases List.mem_cons.1 ho with rfl | ho
      · rfl
      · exact ih (fun e he => h e (by simp [he])) 0 op ho

theorem keys_inputs {evs : List InputEvent} (h : ∀ e ∈ evs, (∃ j, e = .press j) ∨ ∃ j, e = .release j) : ∀ op ∈ evs.map Op.input, Nothing.keysOnly op = true := by
  intro op ho
  obtain ⟨e, he, rfl⟩ := List.mem_map.1 ho
  rcases h e he with ⟨j, rfl⟩ | ⟨j, rfl⟩ <;> rfl

/-- Calls after which the switches are known as they were. -/
theorem Heeds.other_calls {km0 : KM R Ev Ctx PKS KS} {s s' : State R Ev Ctx PKS KS} {ops more : List Op} (h : Heeds C n km0 s ops)
    (hr : Verif.run C n s.km more = .ok s'.km) (hh : Verif.heard C n s.km more = true) (hm : more = [] ∨ more = [.tickToNext, .report])
    (h1 : s'.matrix = s.matrix) (h2 : Shown C s') : Heeds C n km0 s' (ops ++ more) := by
  have hd : ∀ i, keyDown i (ops ++ more) = keyDown i ops := by
    intro i
    rcases hm with rfl | rfl <;> simp [keyDown, opDown]
  refine ⟨by rw [run_app, h.run]; exact hr, heard_app h.heard h.run hh, fun op ho => ?_, ?_, ?_, h2⟩
  · rcases List.mem_append.1 ho with ho | ho
    · exact h.keys op ho
    · rcases hm with rfl | rfl
      · cases ho
      · simp at ho; rcases ho with rfl | rfl <;> rfl
  · rw [h1]; intro k hk; rw [hd]; exact h.down k hk
  · rw [h1]; intro k hk; rw [hd]; exact h.other k hk

/-- Calls for a scan. -/
theorem Heeds.scan_calls {km0 : KM R Ev Ctx PKS KS} {s s' : State R Ev Ctx PKS KS} {ops more : List Op} (h : Heeds C n km0 s ops)
    (hr : Verif.run C n s.km more = .ok s'.km) (hh : Verif.heard C n s.km more = true)
    (hk : ∀ op ∈ more, Nothing.keysOnly op = true)
    (hm : ∀ i b, more.foldl (opDown i) b = (told 0 (s.matrix.scan s.closed).2).foldl (evDown i) b)
    (h1 : s'.matrix = (s.matrix.scan s.closed).1) (h2 : Shown C s') : Heeds C n km0 s' (ops ++ more) := by
  obtain ⟨d0, d1, d2⟩ := down_scan58 s.matrix.debounced 0 s.closed s.matrix.pressed (fun i => keyDown i ops) (fun k hk => by simpa using h.down k hk)
  have hd : ∀ i, keyDown i (ops ++ more) = (told 0 (s.matrix.scan s.closed).2).foldl (evDown i) (keyDown i ops) := by
    intro i; rw [keyDown, List.foldl_append, hm]; rfl
  refine ⟨by rw [run_app, h.run]; exact hr, heard_app h.heard h.run hh, fun op ho => ?_, ?_, ?_, h2⟩
  · rcases List.mem_append.1 ho with ho | ho
    · exact h.keys op ho
    · exact hk op ho
  · rw [h1]; intro k hk
    rw [hd]
    have := d1 k hk
    rw [Nat.zero_add] at this
    exact this
  · rw [h1]; intro k hk
    rw [hd]
    have hlen : s.matrix.debounced.length ≤ k := by
      have : (s.matrix.scan s.closed).1.debounced.length = s.matrix.debounced.length := d0
      omega
    exact (d2 k (.inr (by omega))).trans (h.other k hlen)

theorem Heeds.process {km0 : KM R Ev Ctx PKS KS} {s s' : State R Ev Ctx PKS KS} {ops : List Op} {ok : Bool} (h : Heeds C n km0 s ops)
    (hh : Verif.heard C n s.km (nextOps s) = true) (e : s.process C n ok = .ok s') : ∃ ops', Heeds C n km0 s' ops' := by
  have quiet : ∀ {s' : State R Ev Ctx PKS KS}, s'.km = s.km → s'.report = s.report → s'.matrix = s.matrix → ∃ ops', Heeds C n km0 s' ops' := by
    intro s' q1 q2 q3
    exact ⟨_, h.other_calls (more := []) (by rw [q1]; rfl) rfl (.inl rfl) q3 (by unfold Shown; rw [q1, q2]; exact h.shown)⟩
  unfold State.process at e
  unfold nextOps at hh
  split at e
  · next hpc =>
    cases e
    obtain ⟨ts, hcm, _⟩ := compare_frame ({ s with pc := .idle, irq := true } : State R Ev Ctx PKS KS)
    unfold State.armed
    rw [hcm]
    exact quiet rfl rfl rfl
  · next hpc =>
    rw [if_neg hpc] at hh
    split at e
    · cases e; exact quiet rfl rfl rfl
    · next hw =>
      rw [if_neg hw] at hh
      split at e
      · next hs =>
        rw [if_pos hs] at hh
        unfold State.onScan at e
        obtain ⟨⟨s1, next⟩, e1, e⟩ := Res.bind_eq_ok.1 e
        cases e
        obtain ⟨a1, a2, a3⟩ := registerAfter_ops (s := { s with matrix := (s.matrix.scan s.closed).1 }) (show Shown C _ from h.shown) e1
        have hH := h.scan_calls (s' := s1) a1 hh (keys_after (fun e he => told_keysOnly e he) _) (fun i b => down_after i _ _ b) a3 a2
        refine ⟨_, hH.same (Eq.trans (same_compare _) ?_)⟩
        split <;> rfl
      · next hs =>
        rw [if_neg hs] at hh
        split at e
        · next hx =>
          rw [if_pos hx] at hh
          unfold State.onTimeout at e
          obtain ⟨⟨km1, r, next⟩, e1, e⟩ := Res.bind_eq_ok.1 e
          cases e
          simp only [CApi.nextEventTimeout] at e1
          obtain ⟨⟨km2, nx2⟩, a1, e1⟩ := Res.bind_eq_ok.1 e1
          obtain ⟨⟨km3, out⟩, a2, e1⟩ := Res.bind_eq_ok.1 e1
          obtain ⟨r1, a3, e1⟩ := Res.bind_eq_ok.1 e1
          obtain ⟨tt, a4, e1⟩ := Res.bind_eq_ok.1 e1
          cases e1
          have hH := h.other_calls (s' := { s.make km3 r with updated := s.clock }) (more := [.tickToNext, .report])
            (Res.bind_eq_ok.2 ⟨km2, by simp only [Verif.step, a1]; rfl, Res.bind_eq_ok.2 ⟨km3, by simp only [Verif.step, a2]; rfl, rfl⟩⟩) hh (.inr rfl) rfl
            (shown_of h.shown.1 a2 a3)
          refine ⟨_, hH.same (Eq.trans (same_compare _) ?_)⟩
          split <;> rfl
        · next hx =>
          rw [if_neg hx] at hh
          split at e
          · cases e; cases ok <;> exact quiet rfl rfl rfl
          · next hk =>
            split at e
            · cases e; cases ok <;> exact quiet rfl rfl rfl
            · next hm =>
              split at e
              · cases e; cases ok <;> exact quiet rfl rfl rfl
              · next hcn =>
                rw [if_neg (by simp [hk, hm, hcn])] at hh
                split at e
                · next htk =>
                  rw [if_pos htk] at hh
                  unfold State.onTick at e
                  obtain ⟨km, e1, e⟩ := Res.bind_eq_ok.1 e
                  obtain ⟨⟨km1, r⟩, e2, e⟩ := Res.bind_eq_ok.1 e
                  have a0 : Verif.run C n s.km ((told 0 (s.matrix.scan s.closed).2).map .input) = .ok km := register_ops e1
                  simp only [CApi.keymapTick] at e2
                  obtain ⟨km2, a1, e2⟩ := Res.bind_eq_ok.1 e2
                  obtain ⟨⟨km3, out⟩, a2, e2⟩ := Res.bind_eq_ok.1 e2
                  obtain ⟨r1, a3, e2⟩ := Res.bind_eq_ok.1 e2
                  cases e2
                  have hsh := shown_of h.shown.1 a2 a3
                  have hrun : Verif.run C n s.km ((told 0 (s.matrix.scan s.closed).2).map .input ++ [.tick, .report]) = .ok km3 := by
                    rw [run_app, a0]
                    show Verif.run C n km [.tick, .report] = .ok km3
                    refine Res.bind_eq_ok.2 ⟨km2, by simp only [Verif.step, a1], Res.bind_eq_ok.2 ⟨km3, by simp only [Verif.step, a2]; rfl, rfl⟩⟩
                  have hkeys : ∀ op ∈ (told 0 (s.matrix.scan s.closed).2).map Op.input ++ [.tick, .report], Nothing.keysOnly op = true := by
                    intro op ho
                    rcases List.mem_append.1 ho with ho | ho
                    · exact keys_inputs (fun e he => told_keysOnly e he) op ho
                    · simp at ho; rcases ho with rfl | rfl <;> rfl
                  have hfold : ∀ i b, ((told 0 (s.matrix.scan s.closed).2).map Op.input ++ [Op.tick, Op.report]).foldl (opDown i) b =
                      (told 0 (s.matrix.scan s.closed).2).foldl (evDown i) b := by
                    intro i b; rw [List.foldl_append, down_inputs]; rfl
                  have hH := h.scan_calls (s' := { s.make km3 r with matrix := (s.matrix.scan s.closed).1 }) hrun hh hkeys hfold rfl hsh
                  simp only at e
                  split at e
                  · cases e; exact ⟨_, hH.same (same_compare _)⟩
                  · cases e; exact ⟨_, hH.same rfl⟩
                · cases e; exact quiet rfl rfl rfl

theorem Heeds.step {km0 : KM R Ev Ctx PKS KS} {s s' : State R Ev Ctx PKS KS} {ops : List Op} {i : Input} (h : Heeds C n km0 s ops)
    (hh : ∀ ok, i = .process ok → Verif.heard C n s.km (nextOps s) = true) (e : s.step C n row rows i = .ok s') : ∃ ops', Heeds C n km0 s' ops' := by
  have quiet : ∀ {s' : State R Ev Ctx PKS KS}, s'.km = s.km → s'.report = s.report → s'.matrix = s.matrix → ∃ ops', Heeds C n km0 s' ops' := by
    intro s' q1 q2 q3
    exact ⟨_, h.other_calls (more := []) (by rw [q1]; rfl) rfl (.inl rfl) q3 (by unfold Shown; rw [q1, q2]; exact h.shown)⟩
  cases i with
  | wait d => cases e; exact quiet rfl rfl rfl
  | expire t =>
    simp only [State.step] at e
    split at e
    · split at e <;> cases e <;> exact quiet rfl rfl rfl
    · cases e; exact quiet rfl rfl rfl
  | move c =>
    simp only [State.step] at e
    split at e <;> cases e <;> exact quiet rfl rfl rfl
  | process ok => exact h.process (hh ok rfl) e

theorem Heeds.run_all {km0 : KM R Ev Ctx PKS KS} {is : List Input} : ∀ {s s' : State R Ev Ctx PKS KS} {ops : List Op}, Heeds C n km0 s ops →
    hears C n row rows s is = true → s.run C n row rows is = .ok s' → ∃ ops', Heeds C n km0 s' ops' := by
  induction is with
  | nil => intro s s' ops h _ e; cases e; exact ⟨ops, h⟩
  | cons i is ih =>
    intro s s' ops h hh e
    simp only [State.run] at e
    obtain ⟨s1, e1, e⟩ := Res.bind_eq_ok.1 e
    simp only [hears, whenever, e1, Bool.and_eq_true] at hh
    obtain ⟨ops1, h1⟩ := h.step (fun ok hok => by subst hok; exact hh.1) e1
    exact ih h1 hh.2 e

end

end Verif.Ble
