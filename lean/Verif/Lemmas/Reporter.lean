import Verif.Reporter

/-!
# Helper lemmas about the HID reporter
-/

namespace Verif.Reporter

theorem dec_pos {n : Nat} (h : 1 ≤ n) : 1 ≤ dec n := by unfold dec; split <;> omega
theorem dec_le (n : Nat) : dec n ≤ n := by unfold dec; split <;> omega

theorem skipTo_pos (k : KeyOutput) (ps : List KeyOutput) (n : Nat) (h : 1 ≤ n) :
    1 ≤ (skipTo k ps n).2 := by
  induction ps generalizing n with
  | nil => simpa [skipTo]
  | cons p ps ih =>
    simp only [skipTo]; split
    · exact h
    · exact ih _ (dec_pos h)

theorem scan_pos (ks ps : List KeyOutput) (n : Nat) (h : 1 ≤ n) : 1 ≤ (scan ks ps n).2 := by
  induction ks generalizing ps n with
  | nil => simpa [scan]
  | cons k ks ih => exact ih _ _ (skipTo_pos k ps n h)

theorem decAll_pos (ps : List KeyOutput) (n : Nat) (h : 1 ≤ n) : 1 ≤ decAll ps n := by
  induction ps generalizing n with
  | nil => simpa [decAll]
  | cons p ps ih => exact ih _ (dec_pos h)

theorem update_pos (r : Reporter) (l : List KeyOutput) (h : 1 ≤ r.num) : 1 ≤ (r.update l).num :=
  decAll_pos _ _ (scan_pos _ _ _ h)

theorem reportSent_pos (r : Reporter) (h : 1 ≤ r.num) : 1 ≤ r.reportSent.num := by
  unfold reportSent; split
  · simp
  · exact h

@[simp] theorem update_outputs (r : Reporter) (l : List KeyOutput) : (r.update l).outputs = l := rfl

@[simp] theorem reportSent_outputs (r : Reporter) : r.reportSent.outputs = r.outputs := by
  unfold reportSent; split <;> rfl

theorem scan_self (l : List KeyOutput) (n : Nat) : scan l l n = ([], n) := by
  induction l generalizing n with
  | nil => rfl
  | cons k l ih => simp [scan, skipTo, ih]

theorem update_self (r : Reporter) : r.update r.outputs = r := by
  simp [update, scan_self, decAll]

theorem dec_eq {n : Nat} (h : 1 ≤ n) : dec n = max 1 (n - 1) := by unfold dec; split <;> omega

theorem decAll_eq (l : List KeyOutput) (n : Nat) (h : 1 ≤ n) : decAll l n = max 1 (n - l.length) := by
  induction l generalizing n with
  | nil => simp [decAll]; omega
  | cons p l ih => rw [decAll, ih _ (dec_pos h), dec_eq h, List.length_cons]; omega

/-- The count after releasing some of `prev` and adding unrelated outputs. -/
theorem update_num (prev added : List KeyOutput) (keep : KeyOutput → Bool) (n : Nat) (hn : 1 ≤ n)
    (hnd : prev.Nodup) (hdis : ∀ k ∈ added, k ∉ prev) :
    decAll (scan (prev.filter keep ++ added) prev n).1 (scan (prev.filter keep ++ added) prev n).2 =
      max 1 (n - (prev.filter (fun k => !keep k)).length) := by
  induction prev generalizing n with
  | nil =>
    have : ∀ (a : List KeyOutput), scan a [] n = ([], n) := by
      intro a
      induction a with
      | nil => rfl
      | cons k a ih => simpa [scan, skipTo] using ih
    simp [this, decAll]; omega
  | cons p ps ih =>
    have hnd' := List.nodup_cons.1 hnd
    have hdis' : ∀ k ∈ added, k ∉ ps := fun k hk hm => hdis k hk (List.mem_cons_of_mem _ hm)
    by_cases hk : keep p
    · simp [hk, scan, skipTo, ih n hn hnd'.2 hdis']
    · have h2 := ih (dec n) (dec_pos hn) hnd'.2 hdis'
      have hne : ∀ k ∈ ps.filter keep ++ added, p ≠ k := by
        intro k hkm e
        subst e
        rcases List.mem_append.1 hkm with h | h
        · exact hnd'.1 (List.mem_filter.1 h).1
        · exact hdis p h (List.mem_cons_self)
      have hs : decAll (scan (ps.filter keep ++ added) (p :: ps) n).1
            (scan (ps.filter keep ++ added) (p :: ps) n).2 =
          decAll (scan (ps.filter keep ++ added) ps (dec n)).1
            (scan (ps.filter keep ++ added) ps (dec n)).2 := by
        revert hne
        generalize ps.filter keep ++ added = ks
        intro hne
        cases ks with
        | nil => rfl
        | cons k ks =>
          simp only [scan, skipTo, if_neg (hne k List.mem_cons_self)]
      simp only [List.filter_cons, hk, if_false, Bool.false_eq_true, Bool.not_false, if_true,
        List.length_cons]
      rw [hs, h2, dec_eq hn]
      omega

end Verif.Reporter
