import Verif.Distinct
import Verif.Example

/-!
# C49: report histories
-/

namespace Verif

/-- A sequence without its consecutive repetitions. -/
def collapse {α : Type} [DecidableEq α] : List α → List α
  | [] => []
  | [x] => [x]
  | x :: y :: r => if x = y then collapse (y :: r) else x :: collapse (y :: r)

section
variable {α : Type} [DecidableEq α]

theorem collapse_cons (x : α) (r : List α) : ∃ t, collapse (x :: r) = x :: t := by
  induction r generalizing x with
  | nil => exact ⟨[], rfl⟩
  | cons y r ih =>
    simp only [collapse]
    split
    · rename_i h; rw [h]; exact ih y
    · exact ⟨_, rfl⟩

theorem collapse_snoc (x : α) (r : List α) (y : α) :
    collapse (x :: (r ++ [y])) = if (collapse (x :: r)).getLast? = some y then collapse (x :: r) else collapse (x :: r) ++ [y] := by
  induction r generalizing x with
  | nil =>
    simp only [List.nil_append, collapse, List.getLast?_singleton, Option.some.injEq]
    split
    · rename_i h; rw [h]
    · rfl
  | cons z r ih =>
    simp only [List.cons_append, collapse]
    split
    · exact ih z
    · rw [ih z]
      obtain ⟨t, ht⟩ := collapse_cons z r
      rw [ht, List.getLast?_cons_cons]
      split <;> rfl

/-- No two neighbours of a collapsed sequence are equal. -/
theorem collapse_distinct (xs : List α) (i : Nat) (a b : α) (ha : (collapse xs)[i]? = some a) (hb : (collapse xs)[i + 1]? = some b) : a ≠ b := by
  induction xs generalizing i with
  | nil => simp [collapse] at ha
  | cons x r ih =>
    cases r with
    | nil => simp [collapse] at hb
    | cons y r =>
      simp only [collapse] at ha hb
      split at ha
      · rename_i h
        rw [if_pos h] at hb
        exact ih i ha hb
      · rename_i h
        rw [if_neg h] at hb
        cases i with
        | zero =>
          obtain ⟨t, ht⟩ := collapse_cons y r
          rw [ht] at hb
          simp only [List.getElem?_cons_zero, Option.some.injEq, Nat.zero_add, List.getElem?_cons_succ] at ha hb
          rw [← ha, ← hb]; exact h
        | succ i => exact ih i (by simpa using ha) (by simpa using hb)

end

namespace Reports

/-- C49: the history of the reports is the sequence of the reports, after an empty one, without its
consecutive repetitions: no change is lost. -/
theorem C49_collapse (rs : List (List Byte)) : rs.foldl update new = collapse (zero :: rs) := by
  suffices h : ∀ rs' rs : List (List Byte), rs'.foldl update (collapse (zero :: rs)) = collapse (zero :: (rs ++ rs')) by
    exact h rs []
  intro rs'
  induction rs' with
  | nil => simp
  | cons r rs' ih =>
    intro rs
    simp only [List.foldl_cons]
    rw [show update (collapse (zero :: rs)) r = collapse (zero :: (rs ++ [r])) from (collapse_snoc zero rs r).symm, ih]
    simp

/-- C49: the history starts with the empty report, and no report in it equals the one before it. -/
theorem C49_distinct (rs : List (List Byte)) :
    (∃ t, rs.foldl update new = zero :: t) ∧
    ∀ i a b, (rs.foldl update new)[i]? = some a → (rs.foldl update new)[i + 1]? = some b → a ≠ b := by
  rw [C49_collapse]
  exact ⟨collapse_cons zero rs, fun i a b ha hb => collapse_distinct _ i a b ha hb⟩

/-! ### Comparing histories -/

theorem skip_ge (xs : Reports) (n i : Nat) : i ≤ skip xs n i := by
  induction n generalizing i with
  | zero => exact Nat.le_refl _
  | succ n ih =>
    simp only [skip]
    split
    · have := ih (i + 1); omega
    · exact Nat.le_refl _

theorem skip_lt (xs : Reports) (n i : Nat) (h : i < xs.length) : skip xs n i < xs.length := by
  induction n generalizing i with
  | zero => exact h
  | succ n ih =>
    simp only [skip]
    split
    · rename_i hc; exact ih _ (by omega)
    · exact h

/-- The bound on the rounds of the loop does not matter. -/
theorem eqLoop_enough (xs ys : Reports) (n i j : Nat) (h : xs.length - i ≤ n) : eqLoop xs ys (n + 1) i j = eqLoop xs ys n i j := by
  induction n generalizing i j with
  | zero =>
    simp only [eqLoop]
    rw [if_neg (by omega)]
  | succ n ih =>
    rw [eqLoop]
    conv => rhs; rw [eqLoop]
    split
    · have := skip_ge xs xs.length i
      simp only
      split
      · split
        · exact ih _ _ (by omega)
        · split
          · exact ih _ _ (by omega)
          · rfl
      · exact ih _ _ (by omega)
    · rfl

/-- C49: a history equals itself. -/
theorem C49_eq_refl (xs : Reports) (hx : xs ≠ []) : eq xs xs = true := by
  have h : ∀ n i, xs.length - i ≤ n → i ≤ xs.length → eqLoop xs xs n i i = true := by
    intro n
    induction n with
    | zero =>
      intro i h1 h2
      have : i = xs.length := by omega
      simp [eqLoop, this]
    | succ n ih =>
      intro i h1 h2
      simp only [eqLoop]
      split
      · rename_i hc
        have hl := skip_lt xs xs.length i hc.1
        have hg := skip_ge xs xs.length i
        simp only [ne_eq, not_true_eq_false, if_false]
        exact ih _ (by omega) (by omega)
      · rename_i hc
        have : i = xs.length := by omega
        simp [this]
  have hpos : 1 ≤ xs.length := by
    cases xs with
    | nil => exact absurd rfl hx
    | cons x xs => simp
  unfold eq
  simp only [ne_eq, not_true_eq_false, if_false]
  exact h _ 1 (by omega) hpos

/-- C49: histories that compare equal end with the same report. -/
theorem C49_eq_last (xs ys : Reports) (h : eq xs ys = true) : xs.getD (xs.length - 1) [] = ys.getD (ys.length - 1) [] := by
  have key : ∀ n i j, xs.getD i [] = ys.getD j [] → eqLoop xs ys n (i + 1) (j + 1) = true →
      xs.getD (xs.length - 1) [] = ys.getD (ys.length - 1) [] := by
    intro n
    induction n with
    | zero =>
      intro i j hij h
      simp only [eqLoop, Bool.and_eq_true, decide_eq_true_eq] at h
      rw [← h.1, ← h.2]; exact hij
    | succ n ih =>
      intro i j hij h
      simp only [eqLoop] at h
      split at h
      · generalize skip xs xs.length (i + 1) = i' at h
        generalize skip ys ys.length (j + 1) = j' at h
        split at h
        · split at h
          · rename_i hs
            simp only [split, Bool.and_eq_true, decide_eq_true_eq] at hs
            exact ih (i' + 1) j' hs.1.2 h
          · split at h
            · rename_i hs
              simp only [split, Bool.and_eq_true, decide_eq_true_eq] at hs
              exact ih i' (j' + 1) hs.1.2.symm h
            · cases h
        · rename_i he
          exact ih i' j' (by simpa using he) h
      · simp only [Bool.and_eq_true, decide_eq_true_eq] at h
        rw [← h.1, ← h.2]; exact hij
  unfold eq at h
  split at h
  · cases h
  · rename_i h0
    exact key _ 0 0 (by simpa using h0) h

/-- A disagreement with `impl Eq for DistinctReports` (src/keymap/distinct_reports.rs 5), which promises an
equivalence: the comparison is not transitive. Pressing a modifier and a key in one report equals pressing
the modifier first, and equals pressing the key first, but these two are not equal. -/
theorem C49_eq_not_transitive :
    let m : List Byte := [1, 0, 0, 0, 0, 0, 0, 0]
    let k : List Byte := [0, 0, 4, 0, 0, 0, 0, 0]
    let mk : List Byte := [1, 0, 4, 0, 0, 0, 0, 0]
    eq [zero, m, mk] [zero, mk] = true ∧ eq [zero, mk] [zero, k, mk] = true ∧ eq [zero, m, mk] [zero, k, mk] = false := by
  decide +kernel

/-! The tests of src/keymap/distinct_reports.rs 170-226. -/

example : eq [zero, [0, 0, 4, 0, 0, 0, 0, 0], [0, 0, 5, 0, 0, 0, 0, 0]]
    [zero, [0, 0, 4, 0, 0, 0, 0, 0], zero, [0, 0, 5, 0, 0, 0, 0, 0]] = true := by decide +kernel
example : eq [zero, [0, 0, 4, 0, 0, 0, 0, 0], [0, 0, 5, 0, 0, 0, 0, 0], zero]
    [zero, [0, 0, 4, 0, 0, 0, 0, 0], zero, [0, 0, 5, 0, 0, 0, 0, 0]] = false := by decide +kernel
example : eq [zero, [1, 0, 4, 0, 0, 0, 0, 0], zero]
    [zero, [1, 0, 0, 0, 0, 0, 0, 0], [1, 0, 4, 0, 0, 0, 0, 0], [1, 0, 0, 0, 0, 0, 0, 0], zero] = true := by decide +kernel

end Reports

/-! ## Observed keymaps -/

section
variable {R Ev Ctx PKS KS : Type} (C : Cfg R Ev Ctx PKS KS)

/-- The calls of an observed keymap. -/
inductive Observed.Call where
  | input (e : InputEvent)
  | tick

/-- An observed keymap after some calls. -/
def Observed.run (n : Nat) (o : Observed R Ev Ctx PKS KS) : List Observed.Call → Res (Observed R Ev Ctx PKS KS)
  | [] => .ok o
  | .input e :: cs => do
    let o ← o.handleInput C n e
    Observed.run n o cs
  | .tick :: cs => do
    let o ← o.tick C n
    Observed.run n o cs

/-- The calls of the keymap itself: every call is followed by a report, and every input by a tick. -/
def Observed.Call.ops : Observed.Call → List Op
  | .input e => [.input e, .report, .tick, .report]
  | .tick => [.tick, .report]

/-- The boot keyboard reports a host reads, when it makes these calls of the keymap. -/
def reportsRead (n : Nat) (km : KM R Ev Ctx PKS KS) : List Op → Res (KM R Ev Ctx PKS KS × List (List Byte))
  | [] => .ok (km, [])
  | .report :: ops => do
    let (km, out) ← reportOutput C km
    let (km, rs) ← reportsRead n km ops
    .ok (km, KeymapOutput.asBootReport out :: rs)
  | op :: ops => do
    let km ← step C n km op
    reportsRead n km ops

/-- The same, as far as the keymap is concerned, as running the calls. -/
theorem reportsRead_run (n : Nat) (ops : List Op) (km : KM R Ev Ctx PKS KS) : Prod.fst <$> reportsRead C n km ops = Verif.run C n km ops := by
  induction ops generalizing km with
  | nil => rfl
  | cons op ops ih =>
    cases op with
    | report =>
      simp only [reportsRead, Verif.run, step]
      cases h : reportOutput C km with
      | ok x =>
        obtain ⟨km', out⟩ := x
        have h2 := ih km'
        simp only [Res.ok_bind, Res.map_ok]
        cases h3 : reportsRead C n km' ops with
        | ok y => rw [h3] at h2; rw [← h2]; rfl
        | panic p => rw [h3] at h2; rw [← h2]; rfl
        | fuel => rw [h3] at h2; rw [← h2]; rfl
      | panic p => rfl
      | fuel => rfl
    | _ =>
      simp only [reportsRead, Verif.run]
      cases h : step C n km _ with
      | ok km' => simp only [Res.ok_bind]; exact ih km'
      | panic p => rfl
      | fuel => rfl

/-- C49: an observed keymap makes these calls of its keymap, and its history is what the host reads, without
consecutive repetitions. -/
theorem C49_observed (n : Nat) (km : KM R Ev Ctx PKS KS) (cs : List Observed.Call) {o : Observed R Ev Ctx PKS KS}
    (h : Observed.run C n (Observed.new km) cs = .ok o) :
    ∃ rs, reportsRead C n km (cs.flatMap Observed.Call.ops) = .ok (o.km, rs) ∧ o.reports = collapse (Reports.zero :: rs) := by
  have obs : ∀ {o o' : Observed R Ev Ctx PKS KS}, o.observe C = .ok o' → ∃ out, reportOutput C o.km = .ok (o'.km, out) ∧
      o'.reports = Reports.update o.reports (KeymapOutput.asBootReport out) := by
    intro o o' h
    unfold Observed.observe at h
    obtain ⟨⟨km', out⟩, h1, h2⟩ := Res.bind_eq_ok.1 h
    cases h2
    exact ⟨out, h1, rfl⟩
  have tk : ∀ {o o' : Observed R Ev Ctx PKS KS}, o.tick C n = .ok o' → ∃ km1 out, Verif.tick C n o.km = .ok km1 ∧
      reportOutput C km1 = .ok (o'.km, out) ∧ o'.reports = Reports.update o.reports (KeymapOutput.asBootReport out) := by
    intro o o' h
    unfold Observed.tick at h
    obtain ⟨km1, h1, h2⟩ := Res.bind_eq_ok.1 h
    obtain ⟨out, h3, h4⟩ := obs h2
    exact ⟨km1, out, h1, h3, h4⟩
  have key : ∀ (cs : List Observed.Call) (o0 : Observed R Ev Ctx PKS KS), Observed.run C n o0 cs = .ok o →
      ∃ rs, reportsRead C n o0.km (cs.flatMap Observed.Call.ops) = .ok (o.km, rs) ∧ o.reports = rs.foldl Reports.update o0.reports := by
    intro cs
    induction cs with
    | nil => intro o0 h; cases h; exact ⟨[], rfl, rfl⟩
    | cons c cs ih =>
      intro o0 h
      cases c with
      | input e =>
        obtain ⟨o3, h1, h2⟩ := Res.bind_eq_ok.1 h
        obtain ⟨rs, i1, i2⟩ := ih o3 h2
        unfold Observed.handleInput at h1
        obtain ⟨km1, h3, h4⟩ := Res.bind_eq_ok.1 h1
        obtain ⟨o2, h5, h6⟩ := Res.bind_eq_ok.1 h4
        obtain ⟨out1, h7, h8⟩ := obs h5
        simp only [inputDelay, Observed.ticks] at h6
        obtain ⟨o2', h9, h10⟩ := Res.bind_eq_ok.1 h6
        cases h10
        obtain ⟨km2, out2, h11, h12, h13⟩ := tk h9
        refine ⟨KeymapOutput.asBootReport out1 :: KeymapOutput.asBootReport out2 :: rs, ?_, ?_⟩
        · simp only at h7
          simp only [List.flatMap_cons, Observed.Call.ops, List.cons_append, List.nil_append, reportsRead, step, h3, h7, h11, h12, i1,
            Res.ok_bind]
        · simp only at h8
          rw [i2, h13, h8]; rfl
      | tick =>
        obtain ⟨o3, h1, h2⟩ := Res.bind_eq_ok.1 h
        obtain ⟨rs, i1, i2⟩ := ih o3 h2
        obtain ⟨km2, out2, h11, h12, h13⟩ := tk h1
        refine ⟨KeymapOutput.asBootReport out2 :: rs, ?_, ?_⟩
        · simp only [List.flatMap_cons, Observed.Call.ops, List.cons_append, List.nil_append, reportsRead, step, h11, h12, i1, Res.ok_bind]
        · rw [i2, h13]; rfl
  obtain ⟨rs, h1, h2⟩ := key cs (Observed.new km) h
  exact ⟨rs, h1, h2.trans (Reports.C49_collapse rs)⟩

end

section
variable {R Ev Ctx PKS KS : Type} {C : Cfg R Ev Ctx PKS KS}

/-- C56: if `tick_until_no_scheduled_events` returns, it has ticked until the first moment when nothing is
scheduled. -/
theorem C56_until {n k : Nat} {o o' : Observed R Ev Ctx PKS KS} (h : o.tickUntilNoScheduledEvents C n k = .ok o') :
    o'.km.hasScheduledEvents = false ∧ ∃ j, j ≤ k ∧ o.ticks C n j = .ok o' ∧
      ∀ i < j, ∃ oi, o.ticks C n i = .ok oi ∧ oi.km.hasScheduledEvents = true := by
  induction k generalizing o with
  | zero =>
    unfold Observed.tickUntilNoScheduledEvents at h
    split at h
    · cases h
    · rename_i hs
      cases h
      exact ⟨by simpa using hs, 0, Nat.le_refl _, rfl, fun i hi => absurd hi (Nat.not_lt_zero i)⟩
  | succ k ih =>
    unfold Observed.tickUntilNoScheduledEvents at h
    split at h
    · rename_i hs
      obtain ⟨o1, h1, h2⟩ := Res.bind_eq_ok.1 h
      obtain ⟨a, j, hj, hr, hb⟩ := ih h2
      refine ⟨a, j + 1, by omega, ?_, ?_⟩
      · rw [Observed.ticks, h1]; exact hr
      · intro i hi
        cases i with
        | zero => exact ⟨o, rfl, hs⟩
        | succ i =>
          obtain ⟨oi, hi1, hi2⟩ := hb i (by omega)
          exact ⟨oi, by rw [Observed.ticks, h1]; exact hi1, hi2⟩
    · rename_i hs
      cases h
      exact ⟨by simpa using hs, 0, by omega, rfl, fun i hi => absurd hi (Nat.not_lt_zero i)⟩

/-- The tap-hold key of the example, pressed and left down: the loop stops when its timeout has passed. -/
example : (fun o => (o.km.hasScheduledEvents, o.km.sched.counter)) <$>
    ((Observed.new Ex.km0).handleInput Ex.C 9 (.press 2) >>= fun o => o.tickUntilNoScheduledEvents Ex.C 9 300) =
    .ok (false, 200) := by decide +kernel

end

/-- The tap-hold key of the example, tapped: the history is empty, backspace, empty. -/
example : (fun o => o.reports) <$> Observed.run Ex.C 9 (Observed.new Ex.km0) ([.input (.press 2), .input (.release 2)] ++ List.replicate 12 .tick) =
    .ok [Reports.zero, [0, 0, 14, 0, 0, 0, 0, 0], Reports.zero] := by decide +kernel

end Verif
