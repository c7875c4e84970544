import Verif.Slice

/-!
# C51: slices keep what fits
-/

namespace Verif.Slice
variable {T : Type}

theorem fill_spec (xs : List T) (pre : List T) (k : Nat) :
    fill (pre.map some ++ List.replicate (xs.length + k) none) pre.length xs = (pre ++ xs).map some ++ List.replicate k none := by
  induction xs generalizing pre with
  | nil => simp [fill]
  | cons x xs ih =>
    simp only [fill]
    have : (pre.map some ++ List.replicate ((x :: xs).length + k) none).set pre.length (some x) =
        (pre ++ [x]).map some ++ List.replicate (xs.length + k) none := by
      rw [List.set_append_right _ _ (by simp)]
      simp only [List.length_map, Nat.sub_self, List.length_cons, List.map_append, List.map_cons, List.map_nil, List.append_assoc]
      rw [show xs.length + 1 + k = (xs.length + k) + 1 by omega, List.replicate_succ]
      rfl
    rw [this]
    have h := ih (pre ++ [x])
    rw [List.length_append] at h
    simpa using h

theorem mapM_some (xs : List T) : (xs.map some).mapM id = some xs := by
  induction xs with
  | nil => rfl
  | cons x xs ih => simp only [List.map_cons, List.mapM_cons, ih]; rfl

/-- C51: a slice that fits is kept: all of its elements, in order. -/
theorem C51_keeps (n : Nat) (s : List T) (h : s.length ≤ n) : ∃ x, fromSlice n s = .ok x ∧ x.asSlice = some s := by
  obtain ⟨k, rfl⟩ := Nat.exists_eq_add_of_le h
  refine ⟨⟨s.length, s.map some ++ List.replicate k none⟩, ?_, ?_⟩
  · unfold fromSlice
    rw [if_neg (by omega)]
    have := fill_spec s [] k
    simp only [List.map_nil, List.nil_append, List.length_nil] at this
    rw [this]
  · unfold asSlice
    rw [if_pos (by simp)]
    simp only [List.take_append, List.length_map, Nat.sub_self, List.take_zero, List.append_nil]
    rw [List.take_of_length_le (by simp)]
    exact mapM_some s

/-- C51: a slice that is too long panics, and only such a slice. -/
theorem C51_panics (n : Nat) (s : List T) : (∃ p, fromSlice n s = .panic p) ↔ n < s.length := by
  unfold fromSlice
  by_cases h : s.length > n
  · rw [if_pos h]; exact ⟨fun _ => h, fun _ => ⟨_, rfl⟩⟩
  · rw [if_neg h]
    exact ⟨by simp, fun h' => absurd h' h⟩

/-- C51: two slices are equal exactly when their elements are, whatever else their arrays hold. -/
theorem C51_eq [DecidableEq T] (n m : Nat) (s t : List T) {x y : Slice T} (hx : fromSlice n s = .ok x) (hy : fromSlice m t = .ok y) :
    x.eq y = some (decide (s = t)) := by
  have fits : ∀ {n : Nat} {s : List T} {x : Slice T}, fromSlice n s = .ok x → x.asSlice = some s := by
    intro n s x h
    have hle : s.length ≤ n := by
      unfold fromSlice at h
      by_cases hl : s.length > n
      · simp [hl] at h
      · omega
    obtain ⟨x', h1, h2⟩ := C51_keeps n s hle
    rw [h] at h1; cases h1; exact h2
  simp only [Slice.eq, fits hx, fits hy, Option.bind_eq_bind, Option.bind_some]

/-- C51: deserializing a slice from a vector of its capacity never panics. -/
theorem C51_deserialize (n : Nat) (v : List T) (h : v.length ≤ n) : ∃ x, fromVec n v = .ok x ∧ x.asSlice = some v := C51_keeps n v h

example : (fromSlice 5 [1, 2]).bind (fun x => match x.asSlice with | some l => .ok l | none => .panic .explicit) = .ok [1, 2] := by decide

end Verif.Slice
