import Verif.Res

/-!
# `Slice`, src/slice.rs
-/

namespace Verif

/-- `Slice<T, N>`, src/slice.rs 5-11: `none` is an uninitialised element; `data` has `N` elements. -/
structure Slice (T : Type) where
  len : Nat
  data : List (Option T)

namespace Slice
variable {T : Type}

/-- The loop of `Slice::from_slice`, src/slice.rs 20-26: from element `i` on. -/
def fill (data : List (Option T)) (i : Nat) : List T → List (Option T)
  | [] => data
  | x :: xs => fill (data.set i (some x)) (i + 1) xs

/-- `Slice::from_slice`, src/slice.rs 14-28, for capacity `n`. -/
def fromSlice (n : Nat) (s : List T) : Res (Slice T) :=
  let data := List.replicate n none
  if s.length > n then .panic .explicit else .ok ⟨s.length, fill data 0 s⟩

/-- `Slice::as_slice`, src/slice.rs 30-33 (and `Deref`, 36-42): the first `len` elements of the array;
`none`: undefined behaviour, because one of them is uninitialised or outside of the array. -/
def asSlice (s : Slice T) : Option (List T) :=
  if s.len ≤ s.data.length then (s.data.take s.len).mapM id else none

/-- `PartialEq for Slice`, src/slice.rs 44-48 (`none`: undefined behaviour). -/
def eq [DecidableEq T] (a b : Slice T) : Option Bool := do
  let x ← a.asSlice
  let y ← b.asSlice
  some (decide (x = y))

/-- `From<heapless::Vec<T, N>> for Slice`, src/slice.rs 56-60, used for deserializing; a
`heapless::Vec<T, N>` has at most `n` elements. -/
def fromVec (n : Nat) (v : List T) : Res (Slice T) := fromSlice n v

end Slice
end Verif
