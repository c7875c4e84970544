import Verif.Sys.Chorded

/-!
# The sorted array of pressed indices

`pressed_indices` of the chord context holds the indices of the held keys, ascending, then `None`.
-/

namespace Verif.Chorded

/-- The array holds exactly the indices `is`, ascending, and has room for `cap` of them (16, the number of keys
that can be held, unless said otherwise). Keymaps without chords have an array of length 0. -/
def IdxOk (xs : List (Option Nat)) (is : List Nat) (cap : Nat := 16) : Prop :=
  xs = [] ∨ ∃ (ys : List Nat) (k : Nat), xs = ys.map some ++ List.replicate k none ∧ ys.Pairwise (· < ·) ∧ ys.Perm is ∧
    (∀ y ∈ ys, y < 65535) ∧ cap ≤ ys.length + k

theorem IdxOk.new {m cap : Nat} (h : m = 0 ∨ cap ≤ m) : IdxOk (List.replicate m none) [] cap := by
  rcases h with rfl | h
  · exact .inl rfl
  · exact .inr ⟨[], m, by simp, by simp, by simp, by simp, by simpa using h⟩

theorem takeWhile_eq {idx : Nat} (ys : List Nat) (k : Nat) (h : idx ≤ 65535) :
    ((ys.map some ++ List.replicate k none).takeWhile (fun x => decide (keyOf x < idx))) =
      (ys.takeWhile (fun y => decide (y < idx))).map some := by
  induction ys with
  | nil =>
    cases k with
    | zero => rfl
    | succ k =>
      have : ¬ (keyOf none < idx) := by simp only [keyOf, Option.getD_none]; omega
      simp [List.replicate_succ, this]
  | cons y ys ih =>
    have hk : keyOf (some y) = y := rfl
    simp only [List.map_cons, List.cons_append, List.takeWhile_cons, hk]
    by_cases hy : y < idx
    · simp only [hy, decide_true, if_true, List.map_cons, ih]
    · simp only [hy, decide_false, Bool.false_eq_true, if_false, List.map_nil]

theorem takeWhile_all {α : Type} {p : α → Bool} {l : List α} (h : ∀ x ∈ l, p x = true) : l.takeWhile p = l := by
  induction l with
  | nil => rfl
  | cons x l ih => rw [List.takeWhile_cons, if_pos (h x (by simp)), ih (fun y hy => h y (by simp [hy]))]

theorem findPos_eq {idx : Nat} (ys : List Nat) (k : Nat) (h : idx ≤ 65535) :
    findPos idx (ys.map some ++ List.replicate k none) = (ys.takeWhile (fun y => decide (y < idx))).length := by
  unfold findPos
  rw [takeWhile_eq ys k h]
  simp

/-- A sorted list splits at `idx`. -/
theorem split_sorted (idx : Nat) {ys : List Nat} (h : ys.Pairwise (· < ·)) :
    ∃ a b, ys = a ++ b ∧ a = ys.takeWhile (fun y => decide (y < idx)) ∧ (∀ y ∈ a, y < idx) ∧ (∀ y ∈ b, idx ≤ y) := by
  induction ys with
  | nil => exact ⟨[], [], rfl, rfl, by simp, by simp⟩
  | cons y ys ih =>
    rw [List.pairwise_cons] at h
    obtain ⟨a, b, hab, ha, h1, h2⟩ := ih h.2
    by_cases hy : y < idx
    · refine ⟨y :: a, b, by rw [hab, List.cons_append], by rw [List.takeWhile_cons, if_pos (by simpa using hy), ← ha], ?_, h2⟩
      intro z hz
      rcases List.mem_cons.1 hz with rfl | hz
      · exact hy
      · exact h1 z hz
    · refine ⟨[], y :: ys, rfl, by rw [List.takeWhile_cons, if_neg (by simpa using hy)], by simp, ?_⟩
      intro z hz
      rcases List.mem_cons.1 hz with rfl | hz
      · omega
      · have := h.1 z hz; omega

theorem isFound_iff {idx : Nat} {ys : List Nat} {k : Nat} (hs : ys.Pairwise (· < ·)) (h : idx < 65535) :
    isFound idx (ys.map some ++ List.replicate k none) = true ↔ idx ∈ ys := by
  obtain ⟨a, b, hab, ha, h1, h2⟩ := split_sorted idx hs
  have hp : findPos idx (ys.map some ++ List.replicate k none) = a.length := by
    rw [findPos_eq ys k (by omega), ← ha]
  unfold isFound
  rw [hp, hab]
  simp only [List.map_append, List.append_assoc, decide_eq_true_eq]
  rw [List.getElem?_append_right (by simp)]
  simp only [List.length_map, Nat.sub_self]
  have hna : idx ∉ a := fun hm => by have := h1 _ hm; omega
  simp only [List.mem_append, hna, false_or]
  cases b with
  | nil =>
    cases k with
    | zero => simp
    | succ k => simp [List.replicate_succ, keyOf]; omega
  | cons z b =>
    simp only [List.map_cons, List.cons_append, List.getElem?_cons_zero, Option.map_some, keyOf, Option.getD_some, Option.some.injEq,
      List.mem_cons]
    constructor
    · intro h; exact .inl h.symm
    · rintro (h | h)
      · exact h.symm
      · have hz := h2 z (by simp)
        rw [hab, List.pairwise_append] at hs
        have := (List.pairwise_cons.1 hs.2.1).1 idx h
        omega

/-- Pressing a key that is not held adds its index. -/
theorem IdxOk.press {xs : List (Option Nat)} {is : List Nat} {idx cap : Nat} (h : IdxOk xs is cap) (hn : idx ∉ is) (hi : idx < 65535)
    (hl : is.length < cap) : isFound idx xs = false ∧ ∃ xs', insertPressed (findPos idx xs) idx xs = .ok xs' ∧ IdxOk xs' (is ++ [idx]) cap := by
  rcases h with rfl | ⟨ys, k, rfl, hs, hp, hb, hk⟩
  · exact ⟨by simp [isFound, findPos], [], by simp [insertPressed], .inl rfl⟩
  have hyl : ys.length = is.length := hp.length_eq
  have hnf : isFound idx (ys.map some ++ List.replicate k none) = false := by
    cases hf : isFound idx (ys.map some ++ List.replicate k none) with
    | false => rfl
    | true => exact absurd (hp.mem_iff.1 ((isFound_iff hs hi).1 hf)) hn
  refine ⟨hnf, ?_⟩
  obtain ⟨a, b, hab, ha, h1, h2⟩ := split_sorted idx hs
  have hfp : findPos idx (ys.map some ++ List.replicate k none) = a.length := by
    rw [findPos_eq ys k (by omega), ← ha]
  obtain ⟨j, rfl⟩ : ∃ j, k = j + 1 := ⟨k - 1, by omega⟩
  have hal : a.length ≤ ys.length := by rw [hab]; simp
  refine ⟨(a ++ idx :: b).map some ++ List.replicate j none, ?_, .inr ⟨a ++ idx :: b, j, rfl, ?_, ?_, ?_, ?_⟩⟩
  · unfold insertPressed
    rw [hfp, if_neg (by simp), if_pos (by simp; omega)]
    congr 1
    have ht : (ys.map some ++ List.replicate (j + 1) none).take a.length = a.map some := by
      rw [hab, List.map_append, List.append_assoc, List.take_append_of_le_length (by simp), List.take_of_length_le (by simp)]
    have hd : (ys.map some ++ List.replicate (j + 1) none).drop a.length = b.map some ++ List.replicate (j + 1) none := by
      rw [hab, List.map_append, List.append_assoc, List.drop_append_of_le_length (by simp)]
      simp
    rw [ht, hd, List.replicate_succ']
    have : a.map some ++ some idx :: (b.map some ++ (List.replicate j none ++ [none])) =
        ((a ++ idx :: b).map some ++ List.replicate j none) ++ [none] := by simp
    rw [this, List.dropLast_concat]
  · rw [hab, List.pairwise_append] at hs
    rw [List.pairwise_append]
    refine ⟨hs.1, ?_, ?_⟩
    · rw [List.pairwise_cons]
      refine ⟨fun z hz => ?_, hs.2.1⟩
      have hz2 := h2 z hz
      have : idx ≠ z := fun e => hn (hp.mem_iff.1 (by rw [hab, e]; simp [hz]))
      omega
    · intro x hx y hy
      rcases List.mem_cons.1 hy with rfl | hy
      · exact h1 x hx
      · exact hs.2.2 x hx y hy
  · refine (List.perm_middle).trans ?_
    rw [← hab]
    exact ((List.Perm.cons idx hp).trans (List.perm_append_singleton idx is).symm)
  · intro y hy
    simp only [List.mem_append, List.mem_cons] at hy
    rcases hy with hy | rfl | hy
    · exact hb y (by rw [hab]; simp [hy])
    · exact hi
    · exact hb y (by rw [hab]; simp [hy])
  · have : (a ++ idx :: b).length = ys.length + 1 := by rw [hab]; simp; omega
    omega

/-- Pressing a held key. -/
theorem IdxOk.found {xs : List (Option Nat)} {is : List Nat} {idx cap : Nat} (h : IdxOk xs is cap) (hm : idx ∈ is) :
    isFound idx xs = true ∨ xs = [] := by
  rcases h with rfl | ⟨ys, k, rfl, hs, hp, hb, hk⟩
  · exact .inr rfl
  · have hmy := hp.mem_iff.2 hm
    exact .inl ((isFound_iff hs (hb _ hmy)).2 hmy)

/-- Releasing a key removes its index. -/
theorem IdxOk.release {xs : List (Option Nat)} {is : List Nat} {idx cap : Nat} (h : IdxOk xs is cap) (hnd : is.Nodup) :
    IdxOk (if isFound idx xs then removePressed (findPos idx xs) xs else xs) (is.filter (fun i => i != idx)) cap := by
  have hfilter : idx ∉ is → is.filter (fun i => i != idx) = is := by
    intro hn
    rw [List.filter_eq_self]
    intro i hi
    simp only [bne_iff_ne, ne_eq]
    rintro rfl
    exact hn hi
  rcases h with rfl | ⟨ys, k, rfl, hs, hp, hb, hk⟩
  · left; simp [isFound, findPos]
  by_cases hm : idx ∈ ys
  · have hi := hb _ hm
    rw [if_pos ((isFound_iff hs hi).2 hm)]
    obtain ⟨a, b, hab, ha, h1, h2⟩ := split_sorted idx hs
    have hfp : findPos idx (ys.map some ++ List.replicate k none) = a.length := by
      rw [findPos_eq ys k (by omega), ← ha]
    have hmb : idx ∈ b := by
      rw [hab, List.mem_append] at hm
      rcases hm with hm | hm
      · have := h1 _ hm; omega
      · exact hm
    obtain ⟨b', rfl⟩ : ∃ b', b = idx :: b' := by
      cases b with
      | nil => simp at hmb
      | cons z b' =>
        rcases List.mem_cons.1 hmb with rfl | hmb'
        · exact ⟨b', rfl⟩
        · have hz := h2 z (by simp)
          rw [hab, List.pairwise_append] at hs
          have := (List.pairwise_cons.1 hs.2.1).1 idx hmb'
          omega
    refine .inr ⟨a ++ b', k + 1, ?_, ?_, ?_, ?_, ?_⟩
    · unfold removePressed
      rw [if_neg (by rw [hab]; simp), hfp, hab]
      simp only [List.map_append, List.map_cons, List.append_assoc, List.cons_append]
      rw [List.eraseIdx_append_of_length_le (by simp)]
      simp [List.replicate_succ']
    · rw [hab] at hs
      exact hs.sublist (by simp)
    · have hnd' : (a ++ idx :: b').Nodup := by rw [← hab]; exact hp.nodup_iff.2 hnd
      have h3 : (a ++ idx :: b').filter (fun i => i != idx) = a ++ b' := by
        rw [List.filter_append, List.filter_cons]
        simp only [bne_self_eq_false, Bool.false_eq_true, if_false]
        have hh := List.nodup_append.1 hnd'
        congr 1
        · rw [List.filter_eq_self]
          intro i hi2
          have := h1 i hi2
          simp; omega
        · rw [List.filter_eq_self]
          intro i hi2
          simp only [bne_iff_ne, ne_eq]
          rintro rfl
          exact (List.nodup_cons.1 hh.2.1).1 hi2
      rw [← h3, ← hab]
      exact hp.filter _
    · intro y hy
      apply hb
      rw [hab]
      simp only [List.mem_append, List.mem_cons] at hy ⊢
      rcases hy with hy | hy
      · exact .inl hy
      · exact .inr (.inr hy)
    · have : ys.length = (a ++ b').length + 1 := by rw [hab]; simp; omega
      omega
  · have hn : idx ∉ is := fun h => hm (hp.mem_iff.2 h)
    rw [hfilter hn]
    split
    · rename_i hf
      by_cases hi : idx < 65535
      · exact absurd ((isFound_iff hs hi).1 hf) hm
      · have hall : ∀ y ∈ ys, y < idx := fun y hy => by have := hb y hy; omega
        have htw : ys.takeWhile (fun y => decide (y < idx)) = ys := by
          apply takeWhile_all
          intro y hy
          simpa using hall y hy
        by_cases he : idx = 65535
        · subst he
          have hfp : findPos 65535 (ys.map some ++ List.replicate k none) = ys.length := by
            rw [findPos_eq ys k (by omega), htw]
          refine .inr ⟨ys, k, ?_, hs, hp, hb, hk⟩
          unfold isFound at hf
          rw [hfp] at hf
          cases k with
          | zero => simp at hf
          | succ k =>
            unfold removePressed
            rw [if_neg (by simp), hfp, List.eraseIdx_append_of_length_le (by simp)]
            simp [List.replicate_succ']
            rw [← List.replicate_succ', List.replicate_succ, List.tail_cons]
        · have : findPos idx (ys.map some ++ List.replicate k none) = (ys.map some ++ List.replicate k none).length := by
            unfold findPos
            congr 1
            apply takeWhile_all
            intro y hy
            rcases List.mem_append.1 hy with hy | hy
            · obtain ⟨z, hz, rfl⟩ := List.mem_map.1 hy
              exact decide_eq_true (hall z hz)
            · obtain ⟨_, rfl⟩ := List.mem_replicate.1 hy
              exact decide_eq_true (show 65535 < idx by omega)
          unfold isFound at hf
          rw [this] at hf
          simp at hf
    · exact .inr ⟨ys, k, rfl, hs, hp, hb, hk⟩

end Verif.Chorded
