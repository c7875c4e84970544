/-!
# Helper lemmas about lists
-/

namespace Verif

/-- Induction on a list from its end. -/
theorem snoc_induction {α : Type} {P : List α → Prop} (nil : P [])
    (snoc : ∀ l a, P l → P (l ++ [a])) (l : List α) : P l := by
  have h : ∀ m : List α, P m.reverse := by
    intro m
    induction m with
    | nil => exact nil
    | cons a m ih => rw [List.reverse_cons]; exact snoc _ a ih
  have := h l.reverse
  rwa [List.reverse_reverse] at this

end Verif

theorem Verif.le_sum_of_mem {l : List Nat} {x : Nat} (h : x ∈ l) : x ≤ l.sum := by
  induction l with
  | nil => simp at h
  | cons a l ih =>
    rcases List.mem_cons.1 h with rfl | h
    · simp
    · have := ih h; simp only [List.sum_cons]; omega
