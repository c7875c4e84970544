/-!
# Results of Rust calls

A call of a Rust function either returns, panics, or (for the model only) exceeds the depth at
which the model cuts the mutual recursion of `Keymap`.
-/

namespace Verif

/-- Why a Rust call panicked. -/
inductive Panic where
  /-- a fixed-capacity container or array is full: `push(..).unwrap()`, `enqueue(..).unwrap()`, and two places of
  src/key/chorded.rs where this shows as an index out of range (343) and as a `panic!` (866-868) -/
  | capacity
  /-- array/slice index out of range -/
  | index
  /-- arithmetic overflow (debug profile) or division by zero -/
  | arith
  /-- `unwrap` of `None` -/
  | unwrap
  /-- explicit `panic!` / `todo!` -/
  | explicit
  /-- failed `debug_assert!` (debug profile) -/
  | assertion
  deriving DecidableEq, Repr

/-- Result of running a Rust function: a value, a panic, or "the model's recursion depth was
exhausted" (`fuel`; no counterpart in Rust other than non-termination). -/
inductive Res (α : Type) where
  | ok (a : α)
  | panic (p : Panic)
  | fuel
  deriving DecidableEq, Repr

namespace Res

variable {α β : Type}

protected def bind (x : Res α) (f : α → Res β) : Res β :=
  match x with
  | .ok a => f a
  | .panic p => .panic p
  | .fuel => .fuel

instance : Monad Res where
  pure := .ok
  bind := Res.bind

@[simp] theorem pure_eq (a : α) : (pure a : Res α) = .ok a := rfl
@[simp] theorem ok_bind (a : α) (f : α → Res β) : (Res.ok a >>= f) = f a := rfl
@[simp] theorem panic_bind (p : Panic) (f : α → Res β) : (Res.panic p >>= f) = .panic p := rfl
@[simp] theorem fuel_bind (f : α → Res β) : ((Res.fuel : Res α) >>= f) = .fuel := rfl
@[simp] theorem map_ok (f : α → β) (a : α) : f <$> (Res.ok a) = .ok (f a) := rfl
@[simp] theorem map_panic (f : α → β) (p : Panic) : f <$> (Res.panic p : Res α) = .panic p := rfl
@[simp] theorem map_fuel (f : α → β) : f <$> (Res.fuel : Res α) = .fuel := rfl

theorem bind_eq_ok {x : Res α} {f : α → Res β} {b : β} :
    (x >>= f) = .ok b ↔ ∃ a, x = .ok a ∧ f a = .ok b := by
  cases x <;> simp

theorem map_eq_ok {x : Res α} {f : α → β} {b : β} : f <$> x = .ok b ↔ ∃ a, x = .ok a ∧ f a = b := by
  cases x <;> simp

theorem bind_eq_panic {x : Res α} {f : α → Res β} {p : Panic} :
    (x >>= f) = .panic p ↔ x = .panic p ∨ ∃ a, x = .ok a ∧ f a = .panic p := by
  cases x <;> simp

theorem bind_eq_fuel {x : Res α} {f : α → Res β} :
    (x >>= f) = .fuel ↔ x = .fuel ∨ ∃ a, x = .ok a ∧ f a = .fuel := by
  cases x <;> simp

instance : LawfulMonad Res := LawfulMonad.mk' (m := Res)
  (id_map := fun x => by cases x <;> rfl)
  (pure_bind := fun _ _ => rfl)
  (bind_assoc := fun x _ _ => by cases x <;> rfl)

/-- `Option::unwrap`. -/
def unwrap : Option α → Res α
  | some a => .ok a
  | none => .panic .unwrap

/-- Slice indexing `xs[i]`. -/
def index (xs : List α) (i : Nat) : Res α :=
  match xs[i]? with
  | some a => .ok a
  | none => .panic .index

/-- The call returned normally. -/
def isOk : Res α → Bool
  | .ok _ => true
  | _ => false

theorem isOk_iff {x : Res α} : x.isOk = true ↔ ∃ a, x = .ok a := by
  cases x <;> simp [isOk]

@[simp] theorem index_eq_ok {xs : List α} {i : Nat} {a : α} :
    index xs i = .ok a ↔ xs[i]? = some a := by
  unfold index; split <;> simp_all

@[simp] theorem unwrap_eq_ok {x : Option α} {a : α} : unwrap x = .ok a ↔ x = some a := by
  cases x <;> simp [unwrap]

end Res

/-- Push onto a container of capacity `cap` with `.unwrap()` on overflow
(`heapless::Vec::push`, `heapless::spsc::Queue::enqueue`). -/
def pushCap {α : Type} (cap : Nat) (xs : List α) (x : α) : Res (List α) :=
  if xs.length < cap then .ok (xs ++ [x]) else .panic .capacity

theorem pushCap_eq_ok {α : Type} {cap : Nat} {xs ys : List α} {x : α} :
    pushCap cap xs x = .ok ys ↔ xs.length < cap ∧ ys = xs ++ [x] := by
  unfold pushCap
  split
  · simp_all [eq_comm]
  · simp only [reduceCtorEq, false_iff]
    intro h; omega

/-- Pushing every element of a list onto a container of capacity `cap`
(`heapless::Vec::extend`, or a loop of `enqueue(..).unwrap()`). -/
def extendCap {α : Type} (cap : Nat) (xs : List α) : List α → Res (List α)
  | [] => .ok xs
  | y :: ys => do
    let xs' ← pushCap cap xs y
    extendCap cap xs' ys

theorem extendCap_eq {α : Type} (cap : Nat) (xs ys : List α) :
    extendCap cap xs ys =
      if ys = [] ∨ xs.length + ys.length ≤ cap then .ok (xs ++ ys) else .panic .capacity := by
  induction ys generalizing xs with
  | nil => simp [extendCap]
  | cons y ys ih =>
    simp only [extendCap, pushCap]
    by_cases h : xs.length < cap
    · simp only [h, if_true, Res.ok_bind, ih]
      by_cases hy : ys = []
      · subst hy; simp; omega
      · simp only [hy, false_or, reduceCtorEq, List.length_append, List.length_cons,
          List.length_nil, List.append_assoc, List.cons_append, List.nil_append]
        by_cases h2 : xs.length + (0 + 1) + ys.length ≤ cap
        · rw [if_pos h2, if_pos (by omega)]
        · rw [if_neg h2, if_neg (by omega)]
    · simp only [h, if_false, Res.panic_bind, reduceCtorEq, false_or, List.length_cons]
      rw [if_neg (by omega)]

theorem extendCap_eq_ok {α : Type} {cap : Nat} {xs ys zs : List α} :
    extendCap cap xs ys = .ok zs ↔
      (ys = [] ∨ xs.length + ys.length ≤ cap) ∧ zs = xs ++ ys := by
  rw [extendCap_eq]
  split
  · simp_all [eq_comm]
  · rename_i h
    simp only [reduceCtorEq, false_iff]
    exact fun h' => h h'.1

end Verif
