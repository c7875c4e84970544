import Verif.Output
import Verif.Spec.Output

/-!
# Helper lemmas about outputs
-/

namespace Verif

open KeymapOutput Spec

/-- A statement about all bytes follows from the statement about all 256 numbers. -/
theorem forall_byte {P : Byte → Prop} (h : ∀ m : Fin 256, P (BitVec.ofFin m)) : ∀ b : Byte, P b :=
  fun b => h b.toFin

theorem asByte_eq (b : Byte) : Mods.asByte b = b := by
  revert b; exact forall_byte (by decide +kernel)

theorem getLsbD_foldl_mods (out : List KeyOutput) (acc : Byte) (i : Nat) :
    (out.foldl (fun acc ko => Mods.union acc ko.mods) acc).getLsbD i = true ↔
      acc.getLsbD i = true ∨ ∃ ko ∈ out, ko.mods.getLsbD i = true := by
  induction out generalizing acc with
  | nil => simp
  | cons ko out ih =>
    rw [List.foldl_cons, ih]
    simp [Mods.union, or_assoc]

theorem getLsbD_modifiers (out : List KeyOutput) (i : Nat) :
    (modifiers out).getLsbD i = true ↔ ∃ ko ∈ out, ko.mods.getLsbD i = true := by
  simp [modifiers, getLsbD_foldl_mods]

theorem fillCodes_eq (report : List Byte) (i : Nat) (kcs : List Byte)
    (h : i + 2 + kcs.length ≤ report.length) :
    fillCodes report i kcs = report.take (i + 2) ++ kcs ++ report.drop (i + 2 + kcs.length) := by
  induction kcs generalizing report i with
  | nil => simp [fillCodes]
  | cons kc kcs ih =>
    simp only [List.length_cons] at h
    have hlt : i + 2 < report.length := by omega
    rw [fillCodes, ih _ _ (by simp [setAt]; omega)]
    simp only [setAt]
    have h1 : (report.set (i + 2) kc).take (i + 1 + 2) = report.take (i + 2) ++ [kc] := by
      have : i + 1 + 2 = (i + 2) + 1 := by omega
      rw [this, List.take_add_one]
      simp only [List.take_set, hlt, List.getElem?_set_self, Option.toList_some]
      rw [List.set_eq_of_length_le (by simp; omega)]
    have h2 : (report.set (i + 2) kc).drop (i + 1 + 2 + kcs.length) =
        report.drop (i + 2 + (kcs.length + 1)) := by
      rw [List.drop_set_of_lt (by omega)]; congr 1; omega
    rw [h1, h2]; simp

theorem asBootReport_eq (out : List KeyOutput) :
    asBootReport out =
      modifiers out :: 0 ::
        padTo 6 ((out.filterMap KeyOutput.keyboardCode?).filter (fun kc => kc ≠ 0)) := by
  unfold asBootReport
  simp only [asByte_eq]
  generalize (out.filterMap KeyOutput.keyboardCode?).filter (fun kc => kc ≠ 0) = codes
  have hl : (codes.take 6).length ≤ 6 := by simp; omega
  rw [fillCodes_eq _ _ _ (by simp [setAt]; omega)]
  simp only [setAt, padTo]
  have : List.replicate 8 (0 : Byte) = [0, 0, 0, 0, 0, 0, 0, 0] := rfl
  simp only [this, List.set_cons_zero, List.take_succ_cons, List.take_zero, List.cons_append,
    List.nil_append, Nat.zero_add]
  congr 3
  rw [show [modifiers out, 0, 0, 0, 0, 0, 0, 0] =
    modifiers out :: 0 :: List.replicate 6 0 from rfl, Nat.add_comm, List.drop_succ_cons,
    List.drop_succ_cons, List.drop_replicate]
  congr 1; simp [List.length_take]; omega

/-- Modifier codes are the eight codes from 0xE0. -/
theorem fromKeyCode_none_iff (kc : Byte) :
    Mods.fromKeyCode kc = none ↔ ¬ (0xE0 ≤ kc.toNat ∧ kc.toNat ≤ 0xE7) := by
  revert kc; exact forall_byte (by decide +kernel)

/-- `from_key_code` accepts exactly the eight modifier codes and yields the single flag. -/
theorem fromKeyCode_eq_some_iff (kc m : Byte) :
    Mods.fromKeyCode kc = some m ↔ ∃ i, i < 8 ∧ kc = modCode i ∧ m = 1#8 <<< i := by
  constructor
  · intro h
    revert h
    unfold Mods.fromKeyCode
    repeat' split
    all_goals intro h
    · exact ⟨0, by simp_all [modCode]⟩
    · exact ⟨1, by simp_all [modCode]⟩
    · exact ⟨2, by simp_all [modCode]⟩
    · exact ⟨3, by simp_all [modCode]⟩
    · exact ⟨4, by simp_all [modCode]⟩
    · exact ⟨5, by simp_all [modCode]⟩
    · exact ⟨6, by simp_all [modCode]⟩
    · exact ⟨7, by simp_all [modCode]⟩
    · simp at h
  · rintro ⟨i, hi, rfl, rfl⟩
    match i, hi with
    | 0, _ | 1, _ | 2, _ | 3, _ | 4, _ | 5, _ | 6, _ | 7, _ => rfl

theorem modCode_inj : ∀ i j : Fin 8, modCode i = modCode j → i = j := by decide

theorem fromKeyCode_bit (kc m : Byte) (h : Mods.fromKeyCode kc = some m) (i : Nat) (hi : i < 8) :
    m.getLsbD i = true ↔ kc = modCode i := by
  obtain ⟨j, hj, rfl, rfl⟩ := (fromKeyCode_eq_some_iff kc m).1 h
  have : ∀ i j : Fin 8, (1#8 <<< j.1).getLsbD i = true ↔ i = j := by decide
  have h1 := this ⟨i, hi⟩ ⟨j, hj⟩
  simp only at h1
  rw [h1]
  constructor
  · intro e; rw [Fin.mk.injEq] at e; rw [e]
  · intro e; exact (modCode_inj ⟨j, hj⟩ ⟨i, hi⟩ e).symm

end Verif
