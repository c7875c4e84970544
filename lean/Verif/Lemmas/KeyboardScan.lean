import Verif.Lemmas.Keyboard

/-!
# The debounced switches and the held keys
-/

namespace Verif.Keyboard

open Board (Entry)

theorem scans_append (ks : List Firmware.Key) (xs ys : List (List Bool)) :
    Firmware.scans ks (xs ++ ys) =
      ((Firmware.scans (Firmware.scans ks xs).1 ys).1, (Firmware.scans ks xs).2 ++ (Firmware.scans (Firmware.scans ks xs).1 ys).2) := by
  induction xs generalizing ks with
  | nil => rfl
  | cons x xs ih => simp only [List.cons_append, Firmware.scans, ih, List.append_assoc]

theorem scans_one (ks : List Firmware.Key) (raw : List Bool) : Firmware.scans ks [raw] = Firmware.scan ks raw := by
  simp [Firmware.scans]

theorem scanFrom_length (i : Nat) (ks : List Firmware.Key) (raw : List Bool) : (Firmware.scanFrom i ks raw).1.length = ks.length := by
  induction ks generalizing i raw with
  | nil => cases raw <;> rfl
  | cons k ks ih =>
    cases raw with
    | nil => rfl
    | cons r rs => simp [Firmware.scanFrom, ih]

theorem scans_length (ks : List Firmware.Key) (raws : List (List Bool)) : (Firmware.scans ks raws).1.length = ks.length := by
  induction raws generalizing ks with
  | nil => rfl
  | cons r rs ih => simp only [Firmware.scans]; rw [ih]; exact scanFrom_length 0 ks r

/-- The debounced switches are as they are read. -/
def Settled (ks : List Firmware.Key) (raw : List Bool) : Prop := ks.map (·.debounced) = raw

theorem settled_scanFrom (i : Nat) {ks : List Firmware.Key} {raw : List Bool} (h : Settled ks raw) :
    (Firmware.scanFrom i ks raw).2 = [] ∧ Settled (Firmware.scanFrom i ks raw).1 raw := by
  induction ks generalizing i raw with
  | nil => cases h; exact ⟨rfl, rfl⟩
  | cons k ks ih =>
    cases h
    obtain ⟨h1, h2⟩ := ih (i + 1) rfl
    simp only [Settled, List.map_cons, Firmware.scanFrom, Firmware.Key.scan, if_true, Option.map_none, Option.toList_none, List.nil_append]
    exact ⟨h1, by rw [show _ = _ from h2]⟩

theorem settled_scan {ks : List Firmware.Key} {raw : List Bool} (h : Settled ks raw) :
    (Firmware.scan ks raw).2 = [] ∧ Settled (Firmware.scan ks raw).1 raw := settled_scanFrom 0 h

theorem stable_six (r : Bool) (h : List Bool) : Firmware.stable (List.replicate 6 r ++ h) = r := by
  show (if _ then r else _) = r
  rw [if_pos (by simp [List.replicate])]

theorem stable_more (r : Bool) (k : Nat) (hk : 6 ≤ k) (h : List Bool) : Firmware.stable (List.replicate k r ++ h) = r := by
  obtain ⟨j, rfl⟩ : ∃ j, k = 6 + j := ⟨k - 6, by omega⟩
  rw [← List.replicate_append_replicate, List.append_assoc]; exact stable_six r _

/-- Six scans are enough. -/
theorem settles {count : Nat} {raws : List (List Bool)} {raw : List Bool} {k : Nat} (hk : 6 ≤ k) (hl : ∀ r ∈ raws, r.length = count) (hr : raw.length = count) :
    Settled (Firmware.scans (List.replicate count Firmware.Key.new) (raws ++ List.replicate k raw)).1 raw := by
  apply List.ext_getElem?
  intro j
  by_cases hj : j < count
  · have hall : ∀ r ∈ raws ++ List.replicate k raw, r.length = count := by
      intro r h
      rcases List.mem_append.1 h with h | h
      · exact hl r h
      · rw [List.eq_of_mem_replicate h]; exact hr
    rw [List.getElem?_map, Firmware.C53_scans count _ hall j hj]
    have hd := (Firmware.C53_debounce ((raws ++ List.replicate k raw).map fun r => r.getD j false) false).1
    rw [List.map_append, List.map_replicate, List.reverse_append, List.reverse_replicate] at hd
    simp only [Option.map_some]
    rw [List.map_append, List.map_replicate, hd, stable_more _ k hk]
    rw [List.getD_eq_getElem?_getD, List.getElem?_eq_getElem (by omega)]; rfl
  · rw [List.getElem?_eq_none (by simp [scans_length]; omega), List.getElem?_eq_none (by omega)]

theorem press_held (s : Board.State) (c : Board.Cell) : (c.press s).held = s.held := by cases c <;> rfl

theorem release_held (s : Board.State) (c : Board.Cell) : (c.release s).held = s.held := by cases c <;> rfl

theorem input_holds {layout : List Entry} (s : Board.State) {i : Nat} (hi : i < layout.length) (b : Bool) (j : Nat) :
    (s.input layout (Firmware.stateChanged i b)).holds j = if j = i then b else s.holds j := by
  cases b with
  | true =>
    simp only [Firmware.stateChanged, if_true, Board.State.input]
    by_cases hh : s.holds i = true
    · rw [if_pos hh]
      split
      · next h => rw [h, hh]
      · rfl
    · rw [if_neg hh, List.getElem?_eq_getElem hi]
      simp only [Board.State.holds, press_held, List.any_append, List.any_cons, List.any_nil, Bool.or_false]
      by_cases hji : j = i
      · subst hji; simp
      · rw [if_neg hji]
        have : (i == j) = false := by simpa using fun h => hji h.symm
        rw [this, Bool.or_false]
  | false =>
    simp only [Firmware.stateChanged, Bool.false_eq_true, if_false, Board.State.input]
    cases hf : s.held.find? (fun p => p.1 == i) with
    | none =>
      simp only
      by_cases hji : j = i
      · subst hji
        rw [if_pos rfl]
        rw [List.find?_eq_none] at hf
        simp only [Board.State.holds, List.any_eq_false]
        exact hf
      · rw [if_neg hji]
    | some p =>
      simp only [Board.State.holds, release_held]
      by_cases hji : j = i
      · subst hji
        rw [if_pos rfl, List.any_eq_false]
        intro x hx
        have := (List.mem_filter.1 hx).2
        simp only [bne_iff_ne, ne_eq] at this
        simpa using this
      · rw [if_neg hji, List.any_filter]
        congr 1
        funext x
        by_cases hx : x.1 = j
        · subst hx; simp [hji]
        · simp [hx]

theorem key_scan (k : Firmware.Key) (r : Bool) :
    ((k.scan r).2 = none ∧ (k.scan r).1.debounced = k.debounced) ∨ ((k.scan r).2 = some (k.scan r).1.debounced) := by
  unfold Firmware.Key.scan
  split
  · exact .inl ⟨rfl, rfl⟩
  · generalize (if r ≠ k.previous then 0 else k.counter + 1) = x
    by_cases hx : x ≥ 5
    · simp [hx]
    · simp [hx]

/-- The held keys are the keys which are down for the debouncing. -/
def HeldBy (s : Board.State) (i : Nat) (ks : List Firmware.Key) : Prop := ∀ j (hj : j < ks.length), s.holds (i + j) = ks[j].debounced

theorem held_scanFrom {layout : List Entry} (ks : List Firmware.Key) : ∀ (i : Nat) (raw : List Bool) (s : Board.State), i + ks.length ≤ layout.length → HeldBy s i ks →
    HeldBy ((Firmware.scanFrom i ks raw).2.foldl (Board.State.input layout) s) i (Firmware.scanFrom i ks raw).1 ∧
      ∀ j, (j < i ∨ i + ks.length ≤ j) → ((Firmware.scanFrom i ks raw).2.foldl (Board.State.input layout) s).holds j = s.holds j := by
  induction ks with
  | nil => intro i raw s _ h; cases raw <;> exact ⟨h, fun _ _ => rfl⟩
  | cons k ks ih =>
    intro i raw s hl h
    cases raw with
    | nil => exact ⟨h, fun _ _ => rfl⟩
    | cons r rs =>
      simp only [List.length_cons] at hl
      simp only [Firmware.scanFrom, List.foldl_append, List.length_cons]
      generalize hs' : ((k.scan r).2.map (Firmware.stateChanged i)).toList.foldl (Board.State.input layout) s = s'
      have hh : ∀ j, s'.holds j = if j = i then (k.scan r).1.debounced else s.holds j := by
        intro j
        rcases key_scan k r with ⟨h1, h2⟩ | h1
        · rw [h1] at hs'
          subst hs'
          simp only [Option.map_none, Option.toList_none, List.foldl_nil]
          split
          · next hji => subst hji; rw [h2]; exact h 0 (by simp)
          · rfl
        · rw [h1] at hs'
          subst hs'
          simp only [Option.map_some, Option.toList_some, List.foldl_cons, List.foldl_nil]
          exact input_holds s (by omega) _ j
      obtain ⟨g1, g2⟩ := ih (i + 1) rs s' (by omega) (by
        intro j hj
        rw [hh, if_neg (by omega)]
        have := h (j + 1) (by simp; omega)
        rw [show i + 1 + j = i + (j + 1) by omega]
        simpa using this)
      refine ⟨?_, ?_⟩
      · intro j hj
        cases j with
        | zero =>
          have := g2 i (.inl (by omega))
          rw [hh, if_pos rfl] at this
          exact this
        | succ j =>
          simp only [List.length_cons] at hj
          have := g1 j (by omega)
          rw [show i + (j + 1) = i + 1 + j by omega]
          simpa using this
      · intro j hj
        rw [g2 j (by omega), hh, if_neg (by omega)]

theorem held_scans {layout : List Entry} (raws : List (List Bool)) : ∀ (ks : List Firmware.Key) (s : Board.State), ks.length ≤ layout.length → HeldBy s 0 ks →
    HeldBy ((Firmware.scans ks raws).2.foldl (Board.State.input layout) s) 0 (Firmware.scans ks raws).1 ∧
      ∀ j, ks.length ≤ j → ((Firmware.scans ks raws).2.foldl (Board.State.input layout) s).holds j = s.holds j := by
  induction raws with
  | nil => exact fun ks s _ h => ⟨h, fun _ _ => rfl⟩
  | cons r rs ih =>
    intro ks s hl h
    simp only [Firmware.scans, List.foldl_append]
    obtain ⟨h1, h2⟩ := held_scanFrom (layout := layout) ks 0 r s (by omega) h
    have hlen : (Firmware.scan ks r).1.length = ks.length := scanFrom_length 0 ks r
    obtain ⟨g1, g2⟩ := ih (Firmware.scan ks r).1 ((Firmware.scan ks r).2.foldl (Board.State.input layout) s) (by omega) h1
    exact ⟨g1, fun j hj => by rw [g2 j (by omega)]; exact h2 j (.inr (by omega))⟩

end Verif.Keyboard
