import Verif.Spec.Layout
import Verif.Props.Layered

/-!
# Layers of the board and of the layer context
-/

namespace Verif.Layered

open Board

/-- The state of a layer that is not sticky. -/
def act (b : Bool) : Activity := if b then .regular else .inactive

theorem act_active (b : Bool) : (act b).isActive = b := by cases b <;> rfl

theorem act_noSticky {c : Ctx} {on : List Bool} (h : c.layers = on.map act) : c.stickyLayer = none := by
  apply noSticky
  intro l' hl
  rw [h, List.getElem?_map] at hl
  cases ho : on[l']? with
  | none => rw [ho] at hl; simp at hl
  | some b => rw [ho] at hl; cases b <;> simp [act] at hl

section
variable {R : Type}

theorem firstActive_append (xs : List (Option R)) (l1 l2 : List Nat) :
    firstActive xs (l1 ++ l2) = (firstActive xs l1 >>= fun o => match o with | some r => .ok (some r) | none => firstActive xs l2) := by
  induction l1 with
  | nil => rfl
  | cons l l1 ih =>
    simp only [List.cons_append, firstActive]
    cases Res.index xs (l - 1) with
    | ok o => cases o with
      | none => simp only [Res.ok_bind]; exact ih
      | some r => rfl
    | panic p => rfl
    | fuel => rfl

theorem firstActive_from (xs : List (Option R)) (on : List Bool) (i : Nat) (h : xs.length = i + on.length) :
    firstActive xs (activeLayersFrom i (on.map act)) = .ok (highest on (xs.drop i)) := by
  induction on generalizing i with
  | nil => rfl
  | cons b on ih =>
    simp only [List.length_cons] at h
    have hd : xs.drop i = xs[i]'(by omega) :: xs.drop (i + 1) := by rw [List.drop_eq_getElem_cons]
    simp only [List.map_cons, activeLayersFrom]
    rw [firstActive_append, ih (i + 1) (by omega), hd]
    simp only [Res.ok_bind, highest]
    cases highest on (xs.drop (i + 1)) with
    | some c => rfl
    | none =>
      simp only [act_active]
      cases b with
      | false => rfl
      | true =>
        simp only [if_true, firstActive, Nat.add_sub_cancel]
        have : Res.index xs i = .ok xs[i] := by simp
        rw [this]
        simp only [Res.ok_bind]
        cases xs[i] <;> rfl

/-- The key of a layered key is the one the board picks. -/
theorem newPressedKey_lookup {k : LayeredKey R} {c : Ctx} {on : List Bool} (hl : c.layers = on.map act) (hk : k.layered.length = on.length)
    (hd : ∀ d, c.defaultLayer = some d → 0 < d ∧ d ≤ on.length) :
    k.newPressedKey c = .ok (lookup on c.defaultLayer k.base k.layered) := by
  unfold LayeredKey.newPressedKey highestActiveKey activeLayers lookup
  rw [hl, firstActive_from k.layered on 0 (by omega)]
  simp only [Res.ok_bind, List.drop_zero]
  cases highest on k.layered with
  | some r => rfl
  | none =>
    simp only
    cases hdd : c.defaultLayer with
    | none => rfl
    | some d =>
      have := hd d hdd
      have hi : Res.index k.layered (d - 1) = .ok (k.layered[d - 1]'(by omega)) := by simp
      have hi2 : k.layered[d - 1]? = some (k.layered[d - 1]'(by omega)) := by rw [List.getElem?_eq_getElem]
      simp only [hi, Res.ok_bind, Res.pure_eq, Option.bind_some, hi2, Option.join_some]

end

theorem bit_iff (s : LayerBitset) (l : Nat) (hl : l < 32) : (s &&& (1#32 <<< l) ≠ 0) ↔ s.getLsbD l = true := by
  constructor
  · intro hne
    apply Classical.byContradiction
    intro hb
    apply hne
    apply BitVec.eq_of_getLsbD_eq
    intro j hj
    simp only [BitVec.getLsbD_and, BitVec.getLsbD_shiftLeft, BitVec.getLsbD_one, BitVec.ofNat_eq_ofNat, BitVec.getLsbD_zero]
    by_cases hj2 : j = l
    · subst hj2; simp [hb]
    · by_cases hj3 : j < l
      · simp [hj3]
      · simp [show ¬ (j - l = 0) by omega]
  · intro hb h0
    have := congrArg (fun v => v.getLsbD l) h0
    simp only [BitVec.getLsbD_and, BitVec.getLsbD_shiftLeft, BitVec.getLsbD_one, BitVec.ofNat_eq_ofNat, BitVec.getLsbD_zero] at this
    rw [hb] at this
    simp [hl] at this

theorem setLayers_board (s : LayerBitset) (n i : Nat) (on : List Bool) (h : i + n ≤ on.length) (h2 : i + n ≤ 31) :
    setLayers s (on.map act) (List.range' (i + 1) n) =
      .ok ((on.mapIdx fun j x => if i ≤ j ∧ j < i + n then s.getLsbD (j + 1) else x).map act) := by
  induction n generalizing i on with
  | zero =>
    have : (on.mapIdx fun j x => if i ≤ j ∧ j < i + 0 then s.getLsbD (j + 1) else x) = on := by
      apply List.ext_getElem
      · simp
      · intro k h1 h2
        simp only [List.getElem_mapIdx]
        rw [if_neg (by omega)]
    simp only [List.range'_zero, setLayers, this]
  | succ n ih =>
    have hbit := bit_iff s (i + 1) (by omega)
    have hav : (if s &&& (1#32 <<< (i + 1)) ≠ 0 then Activity.regular else .inactive) = act (s.getLsbD (i + 1)) := by
      by_cases hb : s.getLsbD (i + 1) = true
      · rw [if_pos (hbit.2 hb), hb]; rfl
      · rw [if_neg (fun h => hb (hbit.1 h))]
        rw [Bool.not_eq_true] at hb
        rw [hb]; rfl
    have hs := setLayer_ok (on.map act) (act (s.getLsbD (i + 1))) (l := i + 1) (by omega) (by simp; omega)
    rw [List.range'_succ, setLayers, hav, hs]
    simp only [Res.ok_bind, Nat.add_sub_cancel]
    rw [← List.map_set, ih (i + 1) _ (by simp; omega) (by omega)]
    congr 2
    apply List.ext_getElem
    · simp
    · intro k h1 h2
      simp only [List.getElem_mapIdx, List.getElem_set]
      by_cases hk : i = k
      · subst hk
        rw [if_neg (by omega), if_pos rfl, if_pos (by omega)]
      · simp only [hk, if_false]
        by_cases hk2 : i + 1 ≤ k ∧ k < i + 1 + n
        · rw [if_pos hk2, if_pos (by omega)]
        · rw [if_neg hk2, if_neg (by omega)]

/-- What pressing a layer key does. -/
theorem event_press {m : ModifierKey} {cell : Cell} {c : Ctx} {s : State} (hl : c.layers = s.on.map act) (hd : c.defaultLayer = s.dflt)
    (hm : (m = .hold l ∧ cell = .hold l) ∨ (m = .toggle l ∧ cell = .toggle l) ∨ (m = .setActiveLayers b ∧ cell = .setLayers b) ∨
      (m = .default l ∧ cell = .default l)) (hf : cell.Fits s.on.length) :
    ∃ c', c.handleLayerEvent m.newPressedKey.2 = .ok c' ∧ c'.layers = (cell.press s).on.map act ∧ c'.defaultLayer = (cell.press s).dflt := by
  rcases hm with ⟨rfl, rfl⟩ | ⟨rfl, rfl⟩ | ⟨rfl, rfl⟩ | ⟨rfl, rfl⟩
  · have hs := setLayer_ok c.layers .regular hf.1 (by rw [hl]; simpa using hf.2)
    refine ⟨{ c with layers := c.layers.set (l - 1) .regular }, by simp only [ModifierKey.newPressedKey, Ctx.handleLayerEvent, hs]; rfl, ?_, hd⟩
    simp only [hl, Cell.press, List.map_set]; rfl
  · have h0 := hf.1
    have h1 := hf.2
    have hg : s.on[l - 1]? = some (s.on[l - 1]'(by omega)) := by rw [List.getElem?_eq_getElem]
    have hi : Res.index c.layers (l - 1) = .ok (act (s.on[l - 1]'(by omega))) := by
      rw [Res.index_eq_ok, hl, List.getElem?_map, hg]; rfl
    have hs := setLayer_ok c.layers (if (act (s.on[l - 1]'(by omega))).isActive then .inactive else .regular) h0 (by rw [hl]; simpa using h1)
    refine ⟨{ c with layers := c.layers.set (l - 1) (if (act (s.on[l - 1]'(by omega))).isActive then .inactive else .regular) }, ?_, ?_, hd⟩
    · simp only [ModifierKey.newPressedKey, Ctx.handleLayerEvent]
      rw [if_neg (by omega), hi]
      simp only [Res.ok_bind, hs, Res.pure_eq]
    · simp only [hl, Cell.press, List.map_set, act_active]
      congr 1
      rw [List.getD_eq_getElem?_getD, hg]
      cases s.on[l - 1]'(by omega) <;> rfl
  · refine ⟨{ c with layers := (s.on.mapIdx fun j x => if 0 ≤ j ∧ j < 0 + min s.on.length 31 then b.getLsbD (j + 1) else x).map act }, ?_, ?_, hd⟩
    · simp only [ModifierKey.newPressedKey, Ctx.handleLayerEvent, maxBitsetLayer]
      rw [hl, List.length_map, setLayers_board b (min s.on.length 31) 0 s.on (by omega) (by omega)]
      rfl
    · simp only [Cell.press]
      congr 1
      apply List.ext_getElem
      · simp
      · intro k h1 h2
        have : k < s.on.length := by simpa using h1
        simp only [List.getElem_mapIdx]
        by_cases hk : k + 1 ≤ 31
        · rw [if_pos (by omega), if_pos hk]
        · rw [if_neg (by omega), if_neg hk]
  · exact ⟨{ c with defaultLayer := if l = 0 then none else some l }, rfl, hl, rfl⟩

end Verif.Layered
