import Verif.Lemmas.SafeSys
import Verif.Spec.SourceSafe
import Verif.Props.Codegen

/-!
# The tables of a compiled keymap fit
-/

namespace Verif.Codegen

open Comp (Ref Keys Fits Good Child Leads Runnable)

theorem AllSane.get {n : Nat} : ∀ {ks : List NKey} {j : Nat} {k : NKey}, AllSane n ks → ks[j]? = some k → k.Sane n
  | k :: ks, 0, _, h, hk => by cases hk; exact h.1
  | _ :: ks, j + 1, _, h, hk => AllSane.get (ks := ks) (j := j) h.2 (by simpa using hk)

theorem LayersSane.get {n : Nat} : ∀ {ks : List (Option NKey)} {j : Nat} {k : NKey}, LayersSane n ks → ks[j]? = some (some k) → k.Sane n
  | none :: ks, 0, _, h, hk => by cases hk
  | some k :: ks, 0, _, h, hk => by cases hk; exact h.1
  | none :: ks, j + 1, _, h, hk => LayersSane.get (ks := ks) (j := j) h (by simpa using hk)
  | some _ :: ks, j + 1, _, h, hk => LayersSane.get (ks := ks) (j := j) h.2 (by simpa using hk)

theorem countP_prefix {α : Type} : ∀ (ds : List (Option α)) (m : Nat), (∀ j : Nat, ((ds[j]?).join).isSome = decide (j < m)) → ds.countP Option.isSome = m
  | [], m, h => by
    cases m with
    | zero => rfl
    | succ m => simpa using h 0
  | d :: ds, 0, h => by
    have h0 := h 0
    cases d with
    | some d => simp at h0
    | none =>
      have := countP_prefix ds 0 (fun j => by simpa using h (j + 1))
      simpa using this
  | d :: ds, m + 1, h => by
    have h0 := h 0
    cases d with
    | none => simp at h0
    | some d =>
      have := countP_prefix ds m (fun j => by simpa using h (j + 1))
      simpa using this

section

variable {K : Keys} {cfg : Comp.Config} {I : List Automation.Instruction}

theorem Runs.runnable {e : Automation.Execution} {is : List Automation.Instruction} (h : Runs cfg.automation.instructions e is) : Runnable cfg e := by
  obtain ⟨h1, h2⟩ := h
  have := congrArg List.length h1
  simp only [List.length_take, List.length_drop] at this
  unfold Runnable
  omega

theorem Means.fits {k : NKey} {r : Ref} (h : Means K cfg.automation.instructions k r) (hk : k.Sane cfg.layerCount)
    (hl : ∀ e ∈ K.layered, e.layered.length = cfg.layerCount) (idx : Nat) : Fits K cfg idx r := by
  cases h with
  | leaf h =>
    cases h with
    | automation h h1 h2 h3 => exact ⟨_, h, h1.runnable, h2.runnable, h3.runnable⟩
    | compiled h => exact hk.elim
    | callback h => exact lt_of_get h
    | keyCodeModifiers h _ => exact lt_of_get h
    | layerModifier h hm =>
      refine ⟨_, h, ?_⟩
      cases hm with
      | set => trivial
      | _ => exact hk
    | sticky h _ => exact lt_of_get h
    | mouse r => cases r <;> first | exact hk | trivial
    | _ => trivial
  | hold h _ _ => exact lt_of_get h
  | dances h h1 h2 =>
    rename_i t ds i e
    have hc : e.definitionCount = ds.length + 1 := by
      refine countP_prefix _ _ fun j => ?_
      rw [h1 j]
      by_cases hj : j < ds.length + 1
      · simp [hj]
      · simp [hj]
    refine ⟨_, h, by omega, by have := hk.2.2; omega, fun j hj => ?_⟩
    rw [h1 j, List.getElem?_eq_getElem (by simp only [List.length_cons]; omega)]
    rfl
  | layered h _ _ _ => exact ⟨_, h, Nat.le_of_eq (hl _ (List.mem_of_getElem? h)).symm⟩
  | chorded h _ _ _ => exact hk.elim
  | aux h _ => exact hk.elim

theorem Means.sane_child {n : Nat} {k : NKey} {r r' : Ref} (h : Means K I k r) (hk : k.Sane n) (hc : Child K r r') :
    ∃ k', Means K I k' r' ∧ k'.Sane n := by
  cases hc with
  | base hi =>
    cases h with
    | leaf h => cases h
    | layered h1 h2 h3 h4 =>
      rw [hi] at h1
      cases h1
      exact ⟨_, h2, hk.1⟩
  | layer hi hm =>
    cases h with
    | leaf h => cases h
    | layered h1 h2 h3 h4 =>
      rw [hi] at h1
      cases h1
      obtain ⟨j, hj⟩ := List.getElem?_of_mem hm
      have := h3 j
      rw [hj] at this
      simp only [Option.join_some, Option.isSome_some] at this
      obtain ⟨k', hk'⟩ := Option.isSome_iff_exists.1 this.symm
      have hk'' := Option.join_eq_some_iff.1 hk'
      exact ⟨k', h4 j _ _ hk'' hj, hk.2.get hk''⟩
  | tap hi =>
    cases h with
    | leaf h => cases h
    | hold h1 h2 h3 =>
      rw [hi] at h1
      cases h1
      exact ⟨_, h2, hk.1⟩
  | hold hi =>
    cases h with
    | leaf h => cases h
    | hold h1 h2 h3 =>
      rw [hi] at h1
      cases h1
      exact ⟨_, h3, hk.2⟩
  | tapDance hi hm =>
    cases h with
    | leaf h => cases h
    | dances h1 h3 h4 =>
      rw [hi] at h1
      cases h1
      obtain ⟨j, hj⟩ := List.getElem?_of_mem hm
      have := h3 j
      rw [hj] at this
      simp only [Option.join_some, Option.isSome_some] at this
      obtain ⟨k', hk'⟩ := Option.isSome_iff_exists.1 this.symm
      refine ⟨k', h4 j _ _ hk' hj, ?_⟩
      cases j with
      | zero => cases hk'; exact hk.1
      | succ j => exact hk.2.1.get (j := j) (by simpa using hk')
  | chord hi hm =>
    cases h with
    | leaf h => cases h
    | chorded h1 h2 h3 h4 => exact hk.elim
  | passthrough hi =>
    cases h with
    | leaf h => cases h
    | chorded h1 h2 h3 h4 => exact hk.elim
  | aux hi =>
    cases h with
    | leaf h => cases h
    | aux h1 h2 => exact hk.elim

variable (hl : ∀ e ∈ K.layered, e.layered.length = cfg.layerCount)

include hl

theorem Means.good {k : NKey} {r : Ref} (h : Means K cfg.automation.instructions k r) (hk : k.Sane cfg.layerCount) (idx : Nat) : Good K cfg idx r := by
  intro r' hr'
  induction hr' generalizing k with
  | refl => exact h.fits hk hl idx
  | step hc _ ih =>
    obtain ⟨k', h', hk'⟩ := h.sane_child hk hc
    exact ih h' hk'

theorem Stacks.good {s : Src} (hs : s.Sane cfg.layerCount) {i : Nat} {r : Ref} (h : Stacks K cfg.automation.instructions s i r) (idx : Nat) :
    Good K cfg idx r := by
  intro r' hr'
  cases h with
  | base h0 _ h => exact h.good hl (hs.keys _ _ _ h0) idx _ hr'
  | layered h0 h1 h2 h3 h4 h5 =>
    cases hr' with
    | refl => exact ⟨_, h2, Nat.le_of_eq (hl _ (List.mem_of_getElem? h2)).symm⟩
    | step hc hr' =>
      cases hc with
      | base hi =>
        rw [hi] at h2
        cases h2
        exact h3.good hl (hs.keys _ _ _ h0) idx _ hr'
      | layer hi hm =>
        rw [hi] at h2
        cases h2
        obtain ⟨j, hj⟩ := List.getElem?_of_mem hm
        have := h4 j
        rw [hj] at this
        simp only [Option.join_some, Option.isSome_some] at this
        obtain ⟨k', hk⟩ := Option.isSome_iff_exists.1 this.symm
        exact (h5 j _ _ hk hj).good hl (hs.keys _ _ _ hk) idx _ hr'

theorem Position.good {s : Src} (hs : s.Sane cfg.layerCount) (hch : cfg.chorded.chords = s.chords.map (·.indices)) {i : Nat} {r : Ref}
    (h : Position K cfg.automation.instructions s i r) : Good K cfg i r := by
  intro r' hr'
  cases h with
  | alone _ h => exact h.good hl hs i _ hr'
  | first h1 h2 h3 h4 h5 h6 =>
    cases hr' with
    | refl =>
      refine ⟨_, h1, ?_⟩
      intro n ch hn hhead
      rw [hch, List.getElem?_map] at hn
      obtain ⟨x, hx, rfl⟩ := Option.map_eq_some_iff.1 hn
      exact (h5 n).2 ⟨x, hx, hhead⟩
    | step hc hr' =>
      cases hc with
      | chord hi hm =>
        rename_i id
        rw [hi] at h1
        cases h1
        obtain ⟨c, hc, _⟩ := (h5 id).1 (List.mem_map.2 ⟨_, hm, rfl⟩)
        exact (h6 _ _ c hm hc).good hl (hs.chords c (List.mem_of_getElem? hc)).2 i _ hr'
      | passthrough hi =>
        rw [hi] at h1
        cases h1
        exact h2.good hl hs i _ hr'
  | member h1 h2 h3 h4 =>
    cases hr' with
    | refl => exact lt_of_get h3
    | step hc hr' =>
      cases hc with
      | aux hi =>
        rw [hi] at h3
        cases h3
        exact h4.good hl hs i _ hr'

end

end Verif.Codegen
