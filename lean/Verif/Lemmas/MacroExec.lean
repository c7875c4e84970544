import Verif.Spec.Macro
import Verif.Spec.VirtLayout
import Verif.Props.Automation

/-!
# One letter of a string macro
-/

namespace Verif.Automation

open Comp (tapsOf stringOf)

theorem tapsOf_cons {is : List Instruction} {k : KeyOutput} {ks : List KeyOutput} (h : tapsOf is = some (k :: ks)) :
    ∃ is', is = .tap k :: is' ∧ tapsOf is' = some ks := by
  cases is with
  | nil => simp [tapsOf] at h
  | cons x is =>
    cases x with
    | tap ko =>
      simp only [tapsOf, Option.map_eq_some_iff, List.cons.injEq] at h
      obtain ⟨l, h1, rfl, rfl⟩ := h
      exact ⟨is, rfl, h1⟩
    | _ => simp [tapsOf] at h

theorem tapsOf_length {is : List Instruction} {ks : List KeyOutput} (h : tapsOf is = some ks) : is.length = ks.length := by
  induction is generalizing ks with
  | nil => simp only [tapsOf, Option.some.injEq] at h; subst h; rfl
  | cons x is ih =>
    cases x with
    | tap ko =>
      simp only [tapsOf, Option.map_eq_some_iff] at h
      obtain ⟨l, h1, rfl⟩ := h
      simp [ih h1]
    | _ => simp [tapsOf] at h

theorem stringOf_ne {A : Config} {e : Execution} {ks : List KeyOutput} (h : stringOf A e = some ks) : ks ≠ [] ∧ 0 < e.length := by
  unfold stringOf at h
  split at h
  · rename_i hc
    have hl := tapsOf_length h
    rw [List.length_take, List.length_drop] at hl
    refine ⟨?_, hc.2⟩
    rintro rfl
    simp only [List.length_nil] at hl
    omega
  · cases h

/-- The first letter of a string macro. -/
theorem stringOf_cons {A : Config} {e : Execution} {k : KeyOutput} {ks : List KeyOutput} (h : stringOf A e = some (k :: ks)) :
    A.instructions[e.start]? = some (.tap k) ∧ e.length = ks.length + 1 ∧ e.start < A.instructions.length ∧
      (ks ≠ [] → stringOf A ⟨e.start + 1, e.length - 1⟩ = some ks) := by
  unfold stringOf at h
  split at h
  · rename_i hc
    have hlt : e.start < A.instructions.length := by omega
    have hl := tapsOf_length h
    rw [List.length_take, List.length_drop, List.length_cons] at hl
    have hd : A.instructions.drop e.start = A.instructions[e.start] :: A.instructions.drop (e.start + 1) := List.drop_eq_getElem_cons hlt
    rw [hd, show e.length = e.length - 1 + 1 by omega, List.take_succ_cons] at h
    obtain ⟨is', h1, h2⟩ := tapsOf_cons h
    simp only [List.cons.injEq] at h1
    obtain ⟨h1, rfl⟩ := h1
    refine ⟨by rw [List.getElem?_eq_getElem hlt, h1], by omega, hlt, ?_⟩
    intro hne
    have : 0 < ks.length := by cases ks with | nil => exact absurd rfl hne | cons _ _ => simp
    unfold stringOf
    rw [if_pos ⟨by show e.start + 1 + (e.length - 1) ≤ _; omega, by show 0 < e.length - 1; omega⟩]
    exact h2
  · cases h

/-- What executing the first letter of the first queued string emits. -/
def letterEvents (A : Config) (i : Nat) (k : KeyOutput) (ks : List KeyOutput) (more : Bool) : KeyEvents Ev :=
  [SchEv.imm (.input (.vpress k)), SchEv.after A.duration (.input (.vrelease k)),
    SchEv.after A.duration (.key i (if ks = [] then .executionFinished else .nextInstruction))] ++
    if ks = [] ∧ more = true then [SchEv.after A.duration (.key i .nextInstruction)] else []

theorem executeHead_string {A : Config} {c : Ctx} {x : Execution} {xs : List Execution} {k : KeyOutput} {ks : List KeyOutput}
    (h : Holds c (x :: xs)) (hA : c.config = A) (hlen : A.instructions.length ≤ 65535) (hs : stringOf A x = some (k :: ks)) (i : Nat) :
    ∃ c' xs', c.executeHead i = .ok (c', letterEvents A i k ks (!xs.isEmpty)) ∧ c'.config = A ∧ Holds c' xs' ∧
      xs'.map (stringOf A) = (if ks = [] then xs.map (stringOf A) else some ks :: xs.map (stringOf A)) := by
  subst hA
  obtain ⟨h1, h2, h3⟩ := h
  obtain ⟨g1, g2, g3, g4⟩ := stringOf_cons hs
  have h3' : ∀ y ∈ xs, 0 < y.length := fun y hy => h3 y (List.mem_cons_of_mem _ hy)
  simp only [List.length_cons] at h2
  have i1 : Res.index c.queue 0 = .ok x := by rw [Res.index_eq_ok, h1]; simp
  have i2 : keyEventsFor c.config i x = .ok [SchEv.imm (.input (.vpress k)), SchEv.after c.config.duration (.input (.vrelease k)),
      SchEv.after c.config.duration (.key i (if ks = [] then .executionFinished else .nextInstruction))] := by
    unfold keyEventsFor
    have : Res.index c.config.instructions x.start = .ok (.tap k) := by rw [Res.index_eq_ok]; exact g1
    rw [this]
    simp only [Res.ok_bind, Res.pure_eq]
    cases ks with
    | nil =>
      rw [if_neg (by rw [g2]; simp)]
      rfl
    | cons y ys =>
      rw [if_pos (by rw [g2]; simp)]
      rfl
  have i3 : x.incr = .ok ⟨x.start + 1, x.length - 1⟩ := by
    unfold Execution.incr
    rw [if_pos (by omega), if_pos (by omega)]
  have htail : c.queue.tail = xs ++ List.replicate (8 - (xs.length + 1)) Execution.empty := by
    rw [h1]; simp
  unfold Ctx.executeHead
  simp only [i1, i2, i3, Res.ok_bind]
  cases ks with
  | nil =>
    simp only [List.length_nil] at g2
    have hemp : (⟨x.start + 1, x.length - 1⟩ : Execution).isEmpty = true := by simp [Execution.isEmpty]; omega
    rw [hemp]
    have hq : c.queue.tail ++ [Execution.empty] = xs ++ List.replicate (8 - xs.length) Execution.empty := by
      rw [htail, List.append_assoc]
      congr 1
      rw [show 8 - xs.length = (8 - (xs.length + 1)) + 1 by omega, List.replicate_succ']
    have hH : Holds { c with queue := c.queue.tail ++ [Execution.empty] } xs := ⟨hq, by omega, h3'⟩
    simp only [if_true]
    cases xs with
    | nil =>
      have : Res.index (c.queue.tail ++ [Execution.empty]) 0 = .ok Execution.empty := by rw [Res.index_eq_ok, hq]; rfl
      rw [this]
      exact ⟨_, [], rfl, rfl, hH, rfl⟩
    | cons y ys =>
      have : Res.index (c.queue.tail ++ [Execution.empty]) 0 = .ok y := by rw [Res.index_eq_ok, hq]; rfl
      have hyE : y.isEmpty = false := by have := h3' y List.mem_cons_self; simp [Execution.isEmpty]; omega
      rw [this]
      simp only [Res.ok_bind, hyE]
      exact ⟨_, y :: ys, rfl, rfl, hH, rfl⟩
  | cons y ys =>
    simp only [List.length_cons] at g2
    have hemp : (⟨x.start + 1, x.length - 1⟩ : Execution).isEmpty = false := by simp [Execution.isEmpty]; omega
    rw [hemp]
    refine ⟨_, ⟨x.start + 1, x.length - 1⟩ :: xs, rfl, rfl, ⟨?_, by simp; omega, ?_⟩, ?_⟩
    · show _ :: c.queue.tail = _
      rw [htail]; simp
    · intro z hz
      rcases List.mem_cons.1 hz with rfl | hz
      · simp; omega
      · exact h3' z hz
    · rw [List.map_cons, g4 (by simp)]
      rfl

end Verif.Automation
