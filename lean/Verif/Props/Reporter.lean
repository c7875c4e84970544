import Verif.Lemmas.Reporter
import Verif.Lemmas.List

/-!
# C06-C08: the HID keyboard reporter
-/

namespace Verif.Reporter

/-- The operations of the reporter. -/
inductive ROp where
  | update (pressed : List KeyOutput)
  | sent

/-- One operation. -/
def rstep (r : Reporter) : ROp → Reporter
  | .update l => r.update l
  | .sent => r.reportSent

/-- A history of operations on a new reporter. -/
def rrun (ops : List ROp) : Reporter := ops.foldl rstep init

/-- Specification: the pressed outputs last given to the reporter (none at first). -/
def current : List ROp → List KeyOutput
  | [] => []
  | .update l :: ops => if ops.any (fun o => match o with | .update _ => true | .sent => false)
      then current ops else l
  | .sent :: ops => current ops

theorem current_append (ops : List ROp) (op : ROp) :
    current (ops ++ [op]) = match op with | .update l => l | .sent => current ops := by
  induction ops with
  | nil => cases op <;> simp [current]
  | cons o ops ih =>
    cases o with
    | sent => simpa [current] using ih
    | update l =>
      cases op with
      | update l' =>
        simp only [List.cons_append, current]
        simp only at ih
        rw [if_pos (by simp), ih]
      | sent =>
        simp only [List.cons_append, current, List.any_append, List.any_cons, List.any_nil,
          Bool.or_false]
        simp only at ih
        rw [ih]

theorem rrun_inv (ops : List ROp) : (rrun ops).outputs = current ops ∧ 1 ≤ (rrun ops).num := by
  induction ops using snoc_induction with
  | nil => exact ⟨rfl, Nat.le_refl 1⟩
  | snoc ops op ih =>
    have h : rrun (ops ++ [op]) = rstep (rrun ops) op := by simp [rrun]
    rw [h, current_append]
    cases op with
    | update l => exact ⟨rfl, update_pos _ _ ih.2⟩
    | sent => exact ⟨by simpa [rstep] using ih.1, reportSent_pos _ ih.2⟩

/-- C06: whatever the history, what the reporter exposes is a prefix (in press order) of the outputs
pressed now, and it is not empty unless nothing is pressed. -/
theorem C06_reported_is_prefix (ops : List ROp) :
    (rrun ops).reportable <+: current ops ∧
    ((rrun ops).reportable = [] → current ops = []) := by
  obtain ⟨h1, h2⟩ := rrun_inv ops
  unfold reportable
  rw [h1]
  refine ⟨List.take_prefix _ _, fun h => ?_⟩
  rcases List.take_eq_nil_iff.1 h with h | h
  · omega
  · exact h

/-- C06: a key that is not pressed now is not reported. -/
theorem C06_no_stale_key (ops : List ROp) (k : KeyOutput) (h : k ∉ current ops) :
    k ∉ (rrun ops).reportable :=
  fun hk => h ((C06_reported_is_prefix ops).1.subset hk)

example : (rrun [.update [KeyOutput.fromKeyCode 4, KeyOutput.fromKeyCode 5], .sent,
    .update [KeyOutput.fromKeyCode 5], .sent]).reportable = [KeyOutput.fromKeyCode 5] := by decide

/-- `k` calls of `report_output` while `l` is pressed. -/
def reportsOf (l : List KeyOutput) : Nat → Reporter → Reporter
  | 0, r => r
  | k + 1, r => reportsOf l k (r.report l).1

theorem reportsOf_num (l : List KeyOutput) (k : Nat) (r : Reporter) (ho : r.outputs = l)
    (h : 1 ≤ r.num) :
    (reportsOf l k r).outputs = l ∧ 1 ≤ (reportsOf l k r).num ∧
      min l.length (r.num + k) ≤ (reportsOf l k r).num := by
  induction k generalizing r with
  | zero => exact ⟨ho, h, by simp [reportsOf]; omega⟩
  | succ k ih =>
    have hu : (r.report l).1 = r.reportSent := by
      simp only [report]; rw [← ho, update_self]
    have := ih (r.report l).1 (by rw [hu]; simpa using ho) (by rw [hu]; exact reportSent_pos r h)
    refine ⟨this.1, this.2.1, Nat.le_trans ?_ this.2.2⟩
    rw [hu]
    unfold reportSent
    rw [ho]
    split
    · simp only; omega
    · omega

/-- C07: from any history, if `l` stays pressed, then from the `k`-th report on (`k` at least the
number of pressed outputs, and at least 1) the report is complete. -/
theorem C07_eventually_complete (ops : List ROp) (l : List KeyOutput) (k : Nat) (hk1 : 1 ≤ k)
    (hk : l.length ≤ k) : (reportsOf l k (rrun ops)).reportable = l := by
  obtain ⟨k, rfl⟩ : ∃ k', k = k' + 1 := ⟨k - 1, by omega⟩
  obtain ⟨_, h2⟩ := rrun_inv ops
  have hn : 1 ≤ ((rrun ops).report l).1.num :=
    reportSent_pos _ (update_pos _ _ h2)
  have ho : ((rrun ops).report l).1.outputs = l := by simp [report]
  have := reportsOf_num l k ((rrun ops).report l).1 ho hn
  simp only [reportsOf, reportable]
  rw [this.1, List.take_of_length_le]
  have h3 := this.2.2
  omega

example : (reportsOf [KeyOutput.fromKeyCode 4, KeyOutput.fromKeyCode 5, KeyOutput.fromKeyCode 6] 3
    (rrun [.update [KeyOutput.fromKeyCode 7, KeyOutput.fromKeyCode 4], .sent])).reportable =
    [KeyOutput.fromKeyCode 4, KeyOutput.fromKeyCode 5, KeyOutput.fromKeyCode 6] :=
  C07_eventually_complete _ _ 3 (by decide) (by decide)

/-! ## C08 -/

/-- Count after one inner loop: it falls by one per skipped output. -/
theorem skipTo_bound (k : KeyOutput) (ps : List KeyOutput) (n m : Nat) (h1 : 1 ≤ n)
    (hn : n ≤ max 1 (m + ps.length)) :
    (skipTo k ps n).2 ≤ max 1 (m + 1 + (skipTo k ps n).1.length) := by
  induction ps generalizing n with
  | nil => simp [skipTo] at hn ⊢; omega
  | cons p ps ih =>
    simp only [skipTo]
    split
    · simp only [List.length_cons] at hn ⊢; omega
    · apply ih _ (dec_pos h1)
      rw [dec_eq h1]
      simp only [List.length_cons] at hn
      omega

theorem scan_bound (ks ps : List KeyOutput) (n m : Nat) (h1 : 1 ≤ n)
    (hn : n ≤ max 1 (m + ps.length)) :
    (scan ks ps n).2 ≤ max 1 (m + ks.length + (scan ks ps n).1.length) := by
  induction ks generalizing ps n m with
  | nil => simpa [scan] using hn
  | cons k ks ih =>
    have h := ih (skipTo k ps n).1 (skipTo k ps n).2 (m + 1) (skipTo_pos _ _ _ h1)
      (skipTo_bound k ps n m h1 hn)
    simp only [scan, List.length_cons] at h ⊢
    omega

theorem update_le (r : Reporter) (l : List KeyOutput) (h1 : 1 ≤ r.num)
    (h : r.num ≤ max 1 r.outputs.length) : (r.update l).num ≤ max 1 l.length := by
  have := scan_bound l r.outputs r.num 0 h1 (by simpa using h)
  have hp := scan_pos l r.outputs r.num h1
  simp only [update]
  rw [decAll_eq _ _ hp]
  omega

theorem rrun_le (ops : List ROp) : (rrun ops).num ≤ max 1 (rrun ops).outputs.length := by
  induction ops using snoc_induction with
  | nil => exact Nat.le_refl 1
  | snoc ops op ih =>
    have h : rrun (ops ++ [op]) = rstep (rrun ops) op := by simp [rrun]
    rw [h]
    cases op with
    | update l => exact update_le _ l (rrun_inv ops).2 ih
    | sent =>
      simp only [rstep]
      unfold reportSent
      split
      · simp only; omega
      · exact ih

theorem take_filter_length (keep : KeyOutput → Bool) (n : Nat) (l : List KeyOutput) :
    (l.take n).length ≤ ((l.take n).filter keep).length + (l.filter (fun k => !keep k)).length := by
  induction l generalizing n with
  | nil => simp
  | cons a l ih =>
    cases n with
    | zero => simp
    | succ n =>
      have := ih n
      by_cases h : keep a
      · simp only [List.take_succ_cons, List.length_cons, List.filter_cons_of_pos h,
          List.filter_cons, h, Bool.not_true, Bool.false_eq_true, if_false]
        omega
      · simp only [List.take_succ_cons, List.length_cons, List.filter_cons, h, Bool.not_false,
          Bool.false_eq_true, if_false, if_true]
        omega

/-- The full claim of C08, false: "between two consecutive reports, where the pressed outputs
changed by releases and appended presses, at most one newly reported output". -/
def C08_full : Prop :=
  ∀ (ops : List ROp) (keep : KeyOutput → Bool) (added : List KeyOutput),
    let r := rrun (ops ++ [.sent])
    let new := (r.report (r.outputs.filter keep ++ added)).2
    (new.filter (fun k => k ∉ r.reportable)).length ≤ 1

/-- C08 refuted: two keys pressed at once on an idle keyboard are both reported at once. -/
theorem C08_refuted : ¬ C08_full := by
  intro h
  have := h [] (fun _ => true) [KeyOutput.fromKeyCode 4, KeyOutput.fromKeyCode 5]
  revert this; decide

/-- C08, what holds: for distinct outputs, a report contains at most two outputs that the previous
one did not contain; and at most one if fewer keys were released than the previous report
contained. (Missing from the full claim: the second new output when the keyboard was idle or all
reported keys were released.) -/
theorem C08_new_keys_partial (ops : List ROp) (keep : KeyOutput → Bool) (added : List KeyOutput)
    (hnd : (current ops).Nodup) (hdis : ∀ k ∈ added, k ∉ current ops) :
    let r := rrun (ops ++ [.sent])
    let released := (current ops).filter (fun k => !keep k)
    let new := (r.report ((current ops).filter keep ++ added)).2
    (new.filter (fun k => k ∉ r.reportable)).length ≤ 2 ∧
    (released.length < r.reportable.length →
      (new.filter (fun k => k ∉ r.reportable)).length ≤ 1) := by
  intro r released new
  have hinv := rrun_inv (ops ++ [.sent])
  have hle := rrun_le (ops ++ [.sent])
  rw [current_append] at hinv
  simp only at hinv
  have ho : r.outputs = current ops := hinv.1
  have h1 : 1 ≤ r.num := hinv.2
  have hle : r.num ≤ max 1 r.outputs.length := hle
  have hnum : (r.update ((current ops).filter keep ++ added)).num = max 1 (r.num - released.length) := by
    have := update_num (current ops) added keep r.num h1 hnd hdis
    simp only [update]
    rw [ho]
    exact this
  have hsent : ((r.update ((current ops).filter keep ++ added)).reportSent).num ≤
      max 1 (r.num - released.length) + 1 := by
    unfold reportSent
    split
    · simp only; omega
    · rw [hnum]; omega
  -- the survivors of the previous report are a prefix of the new list
  let surv := ((current ops).take r.num).filter keep
  have hrep : r.reportable = (current ops).take r.num := by simp [reportable, ho]
  have hpre : (current ops).filter keep ++ added = surv ++ (((current ops).drop r.num).filter keep ++ added) := by
    rw [← List.append_assoc, ← List.filter_append, List.take_append_drop]
  have hnew : new = (surv ++ (((current ops).drop r.num).filter keep ++ added)).take
      (r.update ((current ops).filter keep ++ added)).reportSent.num := by
    simp only [new, report, reportable, reportSent_outputs, update_outputs]
    rw [← hpre]
  have hcount : ∀ m, (((surv ++ (((current ops).drop r.num).filter keep ++ added)).take m).filter
      (fun k => k ∉ r.reportable)).length ≤ m - surv.length := by
    intro m
    rw [List.take_append, List.filter_append, List.length_append]
    have hz : ((surv.take m).filter (fun k => k ∉ r.reportable)) = [] := by
      rw [List.filter_eq_nil_iff]
      intro k hk
      have : k ∈ (current ops).take r.num := (List.mem_filter.1 (List.mem_of_mem_take hk)).1
      simp [hrep, this]
    rw [hz]
    refine Nat.le_trans (Nat.add_le_add_left (List.length_filter_le _ _) _) ?_
    simp only [List.length_nil, List.length_take]
    omega
  have hsurv := take_filter_length keep r.num (current ops)
  have hlen : r.reportable.length = min r.num (current ops).length := by rw [hrep]; simp
  rw [ho] at hle
  have hc := hcount (r.update ((current ops).filter keep ++ added)).reportSent.num
  rw [← hnew] at hc
  have hsurv' : ((current ops).take r.num).length ≤ surv.length + released.length := hsurv
  rw [List.length_take] at hsurv'
  constructor
  · omega
  · intro hr
    omega

example : (rrun ([.update [KeyOutput.fromKeyCode 4, KeyOutput.fromKeyCode 5], .sent])).reportable =
    [KeyOutput.fromKeyCode 4, KeyOutput.fromKeyCode 5] := by decide

end Verif.Reporter
