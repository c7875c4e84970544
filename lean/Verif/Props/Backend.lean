import Verif.Backend
import Verif.Example

/-!
# C50, C55: the keyboard backend and the switch matrix of the Rust firmwares
-/

namespace Verif.Backend

section
variable {R Ev Ctx PKS KS : Type} (C : Cfg R Ev Ctx PKS KS)

/-- The calls of the backend. -/
inductive Call where
  | event (e : InputEvent)
  | tick

/-- The backend, and what the host last received when only outputs flagged as changed are sent. -/
def run (n : Nat) (b : Keyboard R Ev Ctx PKS KS) (host : KeymapOutput) : List Call → Res (Keyboard R Ev Ctx PKS KS × KeymapOutput)
  | [] => .ok (b, host)
  | .event e :: cs => do
    let b ← b.event C n e
    run n b host cs
  | .tick :: cs => do
    let (b, changed) ← b.tick C n
    run n b (if changed then b.out else host) cs

/-- The calls of the keymap: a tick also asks for the report. -/
def Call.ops : Call → List Op
  | .event e => [.input e]
  | .tick => [.tick, .report]

/-- The last report among the calls, if any. -/
def lastReport (n : Nat) (km : KM R Ev Ctx PKS KS) (last : KeymapOutput) : List Op → Res KeymapOutput
  | [] => .ok last
  | .report :: ops => do
    let (km, out) ← reportOutput C km
    lastReport n km out ops
  | op :: ops => do
    let km ← step C n km op
    lastReport n km last ops

/-- C50: sending only the outputs flagged as changed loses nothing: after any calls, the host knows the
current output, which is the keymap's report of the last tick; and the keymap received exactly the events
and ticks. -/
theorem C50_host (n : Nat) (km : KM R Ev Ctx PKS KS) (cs : List Call) {b : Keyboard R Ev Ctx PKS KS} {host : KeymapOutput}
    (h : run C n (Keyboard.new km) [] cs = .ok (b, host)) :
    host = b.out ∧ Verif.run C n km (cs.flatMap Call.ops) = .ok b.km ∧ lastReport C n km [] (cs.flatMap Call.ops) = .ok b.out := by
  suffices hs : ∀ (cs : List Call) (b0 : Keyboard R Ev Ctx PKS KS), run C n b0 b0.out cs = .ok (b, host) →
      host = b.out ∧ Verif.run C n b0.km (cs.flatMap Call.ops) = .ok b.km ∧ lastReport C n b0.km b0.out (cs.flatMap Call.ops) = .ok b.out from
    hs cs (Keyboard.new km) h
  clear h cs
  intro cs
  induction cs with
  | nil => intro b0 h; cases h; exact ⟨rfl, rfl, rfl⟩
  | cons c cs ih =>
    intro b0 h
    cases c with
    | event e =>
      obtain ⟨b1, h1, h2⟩ := Res.bind_eq_ok.1 h
      unfold Keyboard.event at h1
      obtain ⟨km1, h3, h4⟩ := Res.bind_eq_ok.1 h1
      cases h4
      obtain ⟨i1, i2, i3⟩ := ih _ h2
      refine ⟨i1, ?_, ?_⟩
      · simp only [List.flatMap_cons, Call.ops, List.cons_append, List.nil_append, Verif.run, step, h3, Res.ok_bind]; exact i2
      · simp only [List.flatMap_cons, Call.ops, List.cons_append, List.nil_append, lastReport, step, h3, Res.ok_bind]; exact i3
    | tick =>
      obtain ⟨⟨b1, ch⟩, h1, h2⟩ := Res.bind_eq_ok.1 h
      unfold Keyboard.tick at h1
      obtain ⟨km1, h3, h4⟩ := Res.bind_eq_ok.1 h1
      obtain ⟨⟨km2, out⟩, h5, h6⟩ := Res.bind_eq_ok.1 h4
      cases h6
      have hh : (if decide (b0.out ≠ out) = true then out else b0.out) = out := by
        by_cases he : b0.out = out
        · rw [he]; simp
        · rw [if_pos (by simpa using he)]
      simp only [hh] at h2
      obtain ⟨i1, i2, i3⟩ := ih ⟨km2, out⟩ h2
      refine ⟨i1, ?_, ?_⟩
      · simp only [List.flatMap_cons, Call.ops, List.cons_append, List.nil_append, Verif.run, step, h3, h5, Res.ok_bind]; exact i2
      · simp only [List.flatMap_cons, Call.ops, List.cons_append, List.nil_append, lastReport, step, h3, h5, Res.ok_bind]; exact i3

/-- C50: a tick reports a change exactly when the output differs from the output of the tick before. -/
theorem C50_changed (n : Nat) (b b' : Keyboard R Ev Ctx PKS KS) (changed : Bool) (h : b.tick C n = .ok (b', changed)) :
    changed = true ↔ b'.out ≠ b.out := by
  unfold Keyboard.tick at h
  obtain ⟨km1, h3, h4⟩ := Res.bind_eq_ok.1 h
  obtain ⟨⟨km2, out⟩, h5, h6⟩ := Res.bind_eq_ok.1 h4
  cases h6
  rw [decide_eq_true_eq]
  exact ⟨fun h => Ne.symm h, fun h => Ne.symm h⟩

end

/-- The position of the layout holds this (or no) keymap index. -/
def Holds (indices : List (List (Option Nat))) (r c : Nat) (i : Option Nat) : Prop :=
  ∃ row, indices[r]? = some row ∧ row[c]? = some i

/-- C50: every position of the layout gives the events of its key, or none; a position outside of the
layout, which the debouncer of the same dimensions never reports, panics. -/
theorem C50_layout (indices : List (List (Option Nat))) (r c : Nat) :
    (∀ i, Holds indices r c (some i) → keymapIndexOf indices (.press r c) = .ok (some (.press i)) ∧
      keymapIndexOf indices (.release r c) = .ok (some (.release i))) ∧
    (Holds indices r c none → keymapIndexOf indices (.press r c) = .ok none ∧ keymapIndexOf indices (.release r c) = .ok none) ∧
    ((∀ x, ¬ Holds indices r c x) → keymapIndexOf indices (.press r c) = .panic .index ∧ keymapIndexOf indices (.release r c) = .panic .index) := by
  have hat : ∀ x, Holds indices r c x → at' indices r c = .ok x := by
    rintro x ⟨row, h1, h2⟩
    simp only [at', h1, h2]
  refine ⟨fun i hi => ?_, fun hi => ?_, fun hn => ?_⟩
  · simp only [keymapIndexOf, hat _ hi, Res.ok_bind]; exact ⟨rfl, rfl⟩
  · simp only [keymapIndexOf, hat _ hi, Res.ok_bind]; exact ⟨rfl, rfl⟩
  · have : at' indices r c = .panic .index := by
      unfold at'
      cases h1 : indices[r]? with
      | none => rfl
      | some row =>
        cases h2 : row[c]? with
        | none => simp only [h2]
        | some x => exact absurd ⟨row, h1, h2⟩ (hn x)
    simp only [keymapIndexOf, this]; exact ⟨rfl, rfl⟩

/-- The tap-hold key of the example: its press changes nothing, its release shows the tap. -/
example : (fun p => (p.1.out, p.2)) <$> run Ex.C 9 (Keyboard.new Ex.km0) [] [.event (.press 2), .tick, .event (.release 2), .tick] =
    .ok ([KeyOutput.fromKeyCode 14], [KeyOutput.fromKeyCode 14]) := by decide +kernel

/-! ## The switch matrix -/

theorem columnLow_single (closed : Nat → Nat → Bool) (low : List Bool) (hlow : ∀ r, low.getD r false = false) (ri c : Nat) (hr : ri < low.length) :
    columnLow closed (low.set ri true) c = closed ri c := by
  unfold columnLow
  have hg : ∀ r, r < low.length → (low.set ri true).getD r false = decide (r = ri) := by
    intro r h
    rw [List.getD_eq_getElem?_getD, List.getElem?_set]
    by_cases he : ri = r
    · subst he; simp [hr]
    · rw [if_neg he]
      have := hlow r
      rw [List.getD_eq_getElem?_getD] at this
      rw [this]
      simp [Ne.symm he]
  rw [Bool.eq_iff_iff, List.any_eq_true]
  simp only [List.length_set, List.mem_range, Bool.and_eq_true]
  constructor
  · rintro ⟨r, h1, h2, h3⟩
    rw [hg r h1, decide_eq_true_eq] at h2
    rw [← h2]; exact h3
  · intro h
    exact ⟨ri, hr, by rw [hg ri hr]; simp, h⟩

theorem scan_spec (closed : Nat → Nat → Bool) (p : Pins) (hlow : ∀ r, p.low.getD r false = false) (left ri : Nat) (h : ri + left = p.low.length) :
    p.scan closed left ri = (p, (List.range left).map fun r => (List.range p.cols).map fun c => closed (ri + r) c) := by
  induction left generalizing ri with
  | zero => simp [Pins.scan]
  | succ left ih =>
    have hset : (p.low.set ri true).set ri false = p.low := by
      rw [List.set_set]
      apply List.ext_getElem?
      intro r
      rw [List.getElem?_set]
      by_cases he : ri = r
      · subst he
        have hx := hlow ri
        rw [List.getD_eq_getElem?_getD] at hx
        simp only [if_true]
        rw [if_pos (by omega)]
        rw [List.getElem?_eq_getElem (by omega)] at hx ⊢
        simp only [Option.getD_some] at hx
        rw [hx]
      · rw [if_neg he]
    simp only [Pins.scan, hset]
    rw [show (⟨p.low, p.cols⟩ : Pins) = p from rfl, ih (ri + 1) (by omega)]
    simp only [List.range_succ_eq_map, List.map_cons, List.map_map]
    congr 2
    · apply List.map_congr_left
      intro c _
      rw [columnLow_single closed p.low hlow ri c (by omega)]
      rfl
    · apply List.map_congr_left
      intro r _
      simp only [Function.comp]
      apply List.map_congr_left
      intro c _
      rw [show ri + 1 + r = ri + (r + 1) by omega]

/-- C55: a scan of the matrix finds exactly the closed switches, however many are closed, and leaves all
rows high; so does the next scan. -/
theorem C55_scan (closed : Nat → Nat → Bool) (p : Pins) :
    let p := p.clear
    p.get closed = (p, (List.range p.low.length).map fun r => (List.range p.cols).map fun c => closed r c) := by
  have hlow : ∀ r, p.clear.low.getD r false = false := by
    intro r
    simp only [Pins.clear, List.getD_eq_getElem?_getD, List.getElem?_map]
    cases p.low[r]? <;> rfl
  have := scan_spec closed p.clear hlow p.clear.low.length 0 (by omega)
  simp only [Nat.zero_add] at this
  exact this

/-- C55: the boot key test reads the first switch and leaves all rows high. -/
theorem C55_boot_key (closed : Nat → Nat → Bool) (p : Pins) (h : 0 < p.low.length) : p.clear.bootKey closed = (p.clear, closed 0 0) := by
  have hlow : ∀ r, p.clear.low.getD r false = false := by
    intro r
    simp only [Pins.clear, List.getD_eq_getElem?_getD, List.getElem?_map]
    cases p.low[r]? <;> rfl
  have hl : 0 < p.clear.low.length := by simpa [Pins.clear] using h
  unfold Pins.bootKey
  simp only
  rw [columnLow_single closed p.clear.low hlow 0 0 hl]
  congr 1
  obtain ⟨low, cols⟩ := p
  cases low with
  | nil => simp at h
  | cons x xs => simp [Pins.clear]

example : (Pins.clear ⟨[true, false], 3⟩).get (fun r c => decide (r + c = 2)) = (⟨[false, false], 3⟩, [[false, false, true], [false, true, false]]) := by
  rw [C55_scan]; rfl

end Verif.Backend
