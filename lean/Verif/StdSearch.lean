import Verif.Scheduler

/-!
# The binary search of the Rust standard library

`slice::binary_search_by` as implemented in current versions of the Rust standard library
(library/core/src/slice/mod.rs; not part of /repo). It is used to run the model on concrete inputs;
all general theorems hold for every `Search`.
-/

namespace Verif

/-- The `while size > 1` loop on a slice in descending order, searching for `t`; the first argument
bounds the number of iterations (`size` halves, so `size` itself is enough). -/
def stdLoop (r : List Nat) (t : Nat) : Nat → Nat → Nat → Nat
  | 0, _, base => base
  | fuel + 1, size, base =>
    if size ≤ 1 then base
    else
      let half := size / 2
      let mid := base + half
      stdLoop r t fuel (size - half) (if r.getD mid 0 < t then base else mid)

/-- `binary_search_by(|e| e.time.cmp(&time).reverse()).unwrap_or_else(|e| e)` on a descending slice. -/
def stdPos (r : List Nat) (t : Nat) : Nat :=
  if r.length = 0 then 0
  else
    let base := stdLoop r t r.length r.length 0
    if r.getD base 0 = t then base
    else base + (if t < r.getD base 0 then 1 else 0)

/-- The loop ends at a position `b` such that everything before it is `≥ t` and everything after it
is `< t`. -/
theorem stdLoop_spec (r : List Nat) (t : Nat) (hs : ∀ i j, i ≤ j → j < r.length → r.getD j 0 ≤ r.getD i 0)
    (fuel size base : Nat) (hf : size ≤ fuel + 1) (h1 : 1 ≤ size) (hb : base + size ≤ r.length)
    (hbefore : base = 0 ∨ t ≤ r.getD base 0)
    (hafter : ∀ i, base + size ≤ i → i < r.length → r.getD i 0 < t) :
    stdLoop r t fuel size base < r.length ∧
    (stdLoop r t fuel size base = 0 ∨ t ≤ r.getD (stdLoop r t fuel size base) 0) ∧
    (∀ i, stdLoop r t fuel size base < i → i < r.length → r.getD i 0 < t) := by
  induction fuel generalizing size base with
  | zero =>
    simp only [stdLoop]
    have : size = 1 := by omega
    subst this
    exact ⟨by omega, hbefore, fun i hi => hafter i (by omega)⟩
  | succ fuel ih =>
    simp only [stdLoop]
    split
    · have : size = 1 := by omega
      subst this
      exact ⟨by omega, hbefore, fun i hi => hafter i (by omega)⟩
    · split
      · rename_i hlt
        apply ih (size - size / 2) base (by omega) (by omega) (by omega) hbefore
        intro i hi hil
        exact Nat.lt_of_le_of_lt (hs (base + size / 2) i (by omega) hil) hlt
      · rename_i hge
        apply ih (size - size / 2) (base + size / 2) (by omega) (by omega) (by omega)
          (Or.inr (by omega))
        intro i hi hil
        exact hafter i (by omega) hil

theorem stdPos_spec (r : List Nat) (t : Nat)
    (hs : ∀ i j, i ≤ j → j < r.length → r.getD j 0 ≤ r.getD i 0) :
    stdPos r t ≤ r.length ∧
    (∀ i, i < stdPos r t → t ≤ r.getD i 0) ∧
    (∀ i, stdPos r t ≤ i → i < r.length → r.getD i 0 ≤ t) ∧
    ((∃ i, i < r.length ∧ r.getD i 0 = t) → stdPos r t < r.length ∧ r.getD (stdPos r t) 0 = t) := by
  unfold stdPos
  split
  · rename_i h
    refine ⟨by omega, fun i hi => by omega, fun i _ hi => by omega, fun ⟨i, hi, _⟩ => by omega⟩
  · rename_i h
    obtain ⟨l1, l2, l3⟩ := stdLoop_spec r t hs r.length r.length 0 (by omega) (by omega) (by omega)
      (Or.inl rfl) (fun i hi hil => by omega)
    generalize stdLoop r t r.length r.length 0 = b at *
    simp only
    by_cases he : r.getD b 0 = t
    · rw [if_pos he]
      refine ⟨by omega, fun i hi => ?_, fun i hi hil => ?_, fun _ => ⟨l1, he⟩⟩
      · have := hs i b (by omega) l1; omega
      · rcases Nat.eq_or_lt_of_le hi with h | h
        · subst h; omega
        · exact Nat.le_of_lt (l3 i h hil)
    · rw [if_neg he]
      by_cases hlt : t < r.getD b 0
      · rw [if_pos hlt]
        refine ⟨by omega, fun i hi => ?_, fun i hi hil => ?_, fun ⟨i, hil, hi⟩ => ?_⟩
        · have := hs i b (by omega) l1; omega
        · exact Nat.le_of_lt (l3 i (by omega) hil)
        · rcases Nat.lt_or_ge b i with h | h
          · have := l3 i h hil; omega
          · have := hs i b h l1; omega
      · rw [if_neg hlt]
        have hb0 : b = 0 := by rcases l2 with h | h <;> omega
        subst hb0
        refine ⟨by omega, fun i hi => by omega, fun i hi hil => ?_, fun ⟨i, hil, hi⟩ => ?_⟩
        · have := hs 0 i (by omega) hil; omega
        · have := hs 0 i (by omega) hil; omega

theorem getD_reverse (l : List Nat) (i : Nat) (h : i < l.length) :
    l.reverse.getD i 0 = l.getD (l.length - 1 - i) 0 := by
  simp only [List.getD_eq_getElem?_getD]
  rw [List.getElem?_reverse h]

/-- The standard library's search as a `Search`. -/
def Search.std : Search where
  pos l t := l.length - stdPos l.reverse t
  pos_le l t := Nat.sub_le _ _
  before l t hs x hx := by
    have hd : ∀ i j, i ≤ j → j < l.reverse.length → l.reverse.getD j 0 ≤ l.reverse.getD i 0 := by
      intro i j hij hj
      rw [List.length_reverse] at hj
      rw [getD_reverse l i (by omega), getD_reverse l j hj]
      rcases Nat.eq_or_lt_of_le hij with h | h
      · subst h; exact Nat.le_refl _
      · have := List.pairwise_iff_getElem.1 hs (l.length - 1 - j) (l.length - 1 - i) (by omega)
          (by omega) (by omega)
        simpa [List.getD_eq_getElem?_getD, List.getElem?_eq_getElem, show l.length - 1 - j < l.length by omega,
          show l.length - 1 - i < l.length by omega] using this
    obtain ⟨h1, _, h3, _⟩ := stdPos_spec l.reverse t hd
    obtain ⟨k, hk, rfl⟩ := List.mem_iff_getElem.1 hx
    simp only [List.length_take, List.length_reverse] at hk h1
    have := h3 (l.length - 1 - k) (by omega) (by simp; omega)
    rw [getD_reverse l _ (by omega)] at this
    simp only [List.getElem_take]
    have e : l.length - 1 - (l.length - 1 - k) = k := by omega
    rw [e] at this
    simpa [List.getD_eq_getElem?_getD, List.getElem?_eq_getElem, show k < l.length by omega] using this
  after l t hs x hx := by
    have hd : ∀ i j, i ≤ j → j < l.reverse.length → l.reverse.getD j 0 ≤ l.reverse.getD i 0 := by
      intro i j hij hj
      rw [List.length_reverse] at hj
      rw [getD_reverse l i (by omega), getD_reverse l j hj]
      rcases Nat.eq_or_lt_of_le hij with h | h
      · subst h; exact Nat.le_refl _
      · have := List.pairwise_iff_getElem.1 hs (l.length - 1 - j) (l.length - 1 - i) (by omega)
          (by omega) (by omega)
        simpa [List.getD_eq_getElem?_getD, List.getElem?_eq_getElem, show l.length - 1 - j < l.length by omega,
          show l.length - 1 - i < l.length by omega] using this
    obtain ⟨h1, h2, _, _⟩ := stdPos_spec l.reverse t hd
    obtain ⟨k, hk, rfl⟩ := List.mem_iff_getElem.1 hx
    simp only [List.length_drop, List.length_reverse] at hk h1
    generalize hp : stdPos l.reverse t = p at *
    have := h2 (l.length - 1 - (l.length - p + k)) (by omega)
    rw [getD_reverse l _ (by omega)] at this
    simp only [List.getElem_drop]
    have e : l.length - 1 - (l.length - 1 - (l.length - p + k)) = l.length - p + k := by omega
    rw [e] at this
    simpa [List.getD_eq_getElem?_getD, List.getElem?_eq_getElem, show l.length - p + k < l.length by omega] using this
  hit l t hs ht := by
    have hd : ∀ i j, i ≤ j → j < l.reverse.length → l.reverse.getD j 0 ≤ l.reverse.getD i 0 := by
      intro i j hij hj
      rw [List.length_reverse] at hj
      rw [getD_reverse l i (by omega), getD_reverse l j hj]
      rcases Nat.eq_or_lt_of_le hij with h | h
      · subst h; exact Nat.le_refl _
      · have := List.pairwise_iff_getElem.1 hs (l.length - 1 - j) (l.length - 1 - i) (by omega)
          (by omega) (by omega)
        simpa [List.getD_eq_getElem?_getD, List.getElem?_eq_getElem, show l.length - 1 - j < l.length by omega,
          show l.length - 1 - i < l.length by omega] using this
    obtain ⟨_, _, _, h4⟩ := stdPos_spec l.reverse t hd
    obtain ⟨k, hk, rfl⟩ := List.mem_iff_getElem.1 ht
    obtain ⟨h5, h6⟩ := h4 ⟨l.length - 1 - k, by simp; omega, by
      rw [getD_reverse l _ (by omega)]
      have e : l.length - 1 - (l.length - 1 - k) = k := by omega
      rw [e]
      simp [List.getD_eq_getElem?_getD, hk]⟩
    rw [List.length_reverse] at h5
    refine ⟨l.length - 1 - stdPos l.reverse l[k], by omega, ?_⟩
    rw [getD_reverse l _ h5] at h6
    have hlt : l.length - 1 - stdPos l.reverse l[k] < l.length := by omega
    rw [List.getElem?_eq_getElem hlt]
    simpa [List.getD_eq_getElem?_getD, List.getElem?_eq_getElem, hlt] using h6

/-- Three events due at the same time are not handed out in the order scheduled. -/
example : Search.std.pos [5] 5 = 1 ∧ Search.std.pos [5, 5] 5 = 1 := by decide

end Verif
