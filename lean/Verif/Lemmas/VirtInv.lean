import Verif.Lemmas.VirtRun

/-!
# What the firmware holds on the keyboard with sticky modifiers and caps word
-/

namespace Verif.Virt

open Comp (index_filter index_letGo index_erase index_map_interrupt index_snoc)

theorem count_letGo (ms : List Byte) (l : List Slot) (ko : KeyOutput) :
    (letGo ms l).count (.virt ko) = l.count (.virt ko) - (ms.map modKey).count ko := by
  induction ms generalizing l with
  | nil => rfl
  | cons m ms ih =>
    show (letGo ms (l.erase _)).count _ = _
    rw [ih, List.count_erase, List.map_cons, List.count_cons]
    have : (Slot.virt (modKey m) == Slot.virt ko) = (modKey m == ko) := by
      by_cases h : modKey m = ko
      · simp [h]
      · have h' : Slot.virt (modKey m) ≠ Slot.virt ko := fun e => h (by injection e)
        rw [beq_eq_false_iff_ne.2 h', beq_eq_false_iff_ne.2 h]
    rw [this]
    omega

theorem count_interrupt (l : List Slot) (ko : KeyOutput) : (l.map Slot.interrupt).count (.virt ko) = l.count (.virt ko) := by
  induction l with
  | nil => rfl
  | cons x l ih =>
    simp only [List.map_cons, List.count_cons, ih]
    congr 2
    cases x with
    | virt k => rfl
    | key i a u => cases a <;> rfl

theorem count_key (l : List Slot) (i : Nat) (a : Act) (u : Bool) (ko : KeyOutput) :
    (l ++ [Slot.key i a u]).count (.virt ko) = l.count (.virt ko) := by
  rw [List.count_append]; simp

theorem count_virt (l : List Slot) (ko ko' : KeyOutput) :
    (l ++ [Slot.virt ko']).count (.virt ko) = l.count (.virt ko) + if ko = ko' then 1 else 0 := by
  rw [List.count_append]
  by_cases h : ko = ko'
  · subst h; simp
  · simp [h, Ne.symm h]

theorem count_filter (l : List Slot) (i : Nat) (ko : KeyOutput) :
    (l.filter (fun x => x.index != some i)).count (.virt ko) = l.count (.virt ko) := by
  rw [List.count_filter]; simp [Slot.index]

theorem count_eraseShift (l : List Slot) (ko : KeyOutput) :
    (l.erase (.virt shiftKey)).count (.virt ko) = l.count (.virt ko) - if ko = shiftKey then 1 else 0 := by
  rw [List.count_erase]
  by_cases h : ko = shiftKey
  · subst h; simp
  · have : Slot.virt shiftKey ≠ Slot.virt ko := by simpa using Ne.symm h
    simp [h, this]

/-- The invariant of the keyboard, with some outputs held by the firmware for other reasons. -/
structure State.InvL (extra : List KeyOutput) (s : State) : Prop where
  balanced : ∀ ko, s.held.count (.virt ko) =
    (s.active.map modKey).count ko + ((if s.caps = true ∧ ko = shiftKey then 1 else 0) + extra.count ko)
  nodup : (s.held.filterMap Slot.index).Nodup
  four : s.active.length ≤ 4
  modified : ∀ i, s.modified = some i → s.active ≠ [] ∧ ∃ ko, .key i (.cell (.out ko)) false ∈ s.held

/-- With nothing else. -/
abbrev State.Inv (s : State) : Prop := s.InvL []

variable {extra : List KeyOutput}

theorem State.InvL.new (n : Nat) : (State.new n).InvL [] :=
  ⟨by intro ko; simp [State.new], by simp [State.new], by simp [State.new], by simp [State.new]⟩

theorem State.InvL.unstick {s : State} (h : s.InvL extra) : s.unstick.InvL extra := by
  refine ⟨?_, ?_, by simp [State.unstick], by simp [State.unstick]⟩
  · intro ko
    have := h.balanced ko
    simp only [State.unstick, count_letGo, List.map_nil, List.count_nil]
    rw [this, Nat.add_sub_cancel_left, Nat.zero_add]
    rfl
  · simp only [State.unstick, index_letGo]
    exact h.nodup

theorem nodup_snoc {l : List Slot} {i : Nat} {a : Act} {u : Bool} (h : (l.filterMap Slot.index).Nodup) (hi : i ∉ l.filterMap Slot.index) :
    ((l ++ [Slot.key i a u]).filterMap Slot.index).Nodup := by
  rw [index_snoc, List.nodup_append]
  refine ⟨h, by simp, ?_⟩
  intro x hx y hy
  have : y = i := by simpa using hy
  subst this
  rintro rfl
  exact hi hx

theorem State.InvL.start {s s' : State} {i : Nat} {a : Act} (h : s.InvL extra) (hi : i ∉ s.held.filterMap Slot.index) (hs : s.start i a = some s') :
    s'.InvL extra := by
  have snoc : ∀ a on dflt, ({ s with held := s.held ++ [.key i a false], on := on, dflt := dflt } : State).InvL extra := by
    intro a on dflt
    refine ⟨?_, nodup_snoc h.nodup hi, h.four, ?_⟩
    · intro ko; simp only [count_key]; exact h.balanced ko
    · intro j hj
      obtain ⟨h1, ko, h2⟩ := h.modified j hj
      exact ⟨h1, ko, List.mem_append_left _ h2⟩
  cases a with
  | cell c =>
    have other : some { s.pressLayers c with held := s.held ++ [.key i (.cell c) false] } = some s' → s'.InvL extra := by
      intro hs; cases hs; exact snoc _ _ _
    cases c with
    | out ko =>
      simp only [State.start, Option.some.injEq] at hs
      subst hs
      have hmem : Slot.key i (.cell (.out ko)) false ∈ s.held.map Slot.interrupt ++ [.key i (.cell (.out ko)) false] := by simp
      have hmod : ∀ j, (if s.active = [] then s.modified else some i) = some j → s.active ≠ [] ∧ j = i := by
        intro j hj
        split at hj
        · rename_i ha
          exact absurd ha (h.modified j hj).1
        · rename_i ha
          exact ⟨ha, (Option.some.inj hj).symm⟩
      have hnd : ((s.held.map Slot.interrupt ++ [Slot.key i (.cell (.out ko)) false]).filterMap Slot.index).Nodup :=
        nodup_snoc (by rw [index_map_interrupt]; exact h.nodup) (by rw [index_map_interrupt]; exact hi)
      unfold State.type
      simp only
      split
      · rename_i hc
        refine ⟨?_, ?_, h.four, ?_⟩
        · intro ko'
          have := h.balanced ko'
          simp only [hc.1, true_and] at this
          simp only [State.capsOff, count_eraseShift, count_key, count_interrupt, Bool.false_eq_true, false_and, if_false]
          split <;> simp_all <;> omega
        · simp only [State.capsOff, index_erase]; exact hnd
        · intro j hj
          obtain ⟨h1, rfl⟩ := hmod j hj
          exact ⟨h1, ko, (List.mem_erase_of_ne (by simp)).2 hmem⟩
      · refine ⟨?_, hnd, h.four, ?_⟩
        · intro ko'
          simp only [count_key, count_interrupt]
          exact h.balanced ko'
        · intro j hj
          obtain ⟨h1, rfl⟩ := hmod j hj
          exact ⟨h1, ko, hmem⟩
    | hold l => exact other hs
    | toggle l => exact other hs
    | setLayers b => exact other hs
    | default l => exact other hs
    | nothing => exact other hs
  | sticky m => cases hs; exact snoc _ _ _
  | capsWord =>
    simp only [State.start] at hs
    have h1 := snoc .capsWord s.on s.dflt
    split at hs
    · rename_i hc
      cases hs
      refine ⟨?_, ?_, h.four, ?_⟩
      · intro ko
        have := h1.balanced ko
        simp only [hc, true_and] at this
        simp only [State.capsOff, count_eraseShift, Bool.false_eq_true, false_and, if_false]
        split <;> simp_all <;> omega
      · simp only [State.capsOff, index_erase]; exact h1.nodup
      · intro j hj
        obtain ⟨a1, ko, a2⟩ := h1.modified j hj
        exact ⟨a1, ko, (List.mem_erase_of_ne (by simp)).2 a2⟩
    · rename_i hc
      split at hs
      · cases hs
        refine ⟨?_, ?_, h.four, ?_⟩
        · intro ko
          have := h1.balanced ko
          simp only [Bool.not_eq_true] at hc
          simp only [hc, Bool.false_eq_true, false_and, if_false, Nat.add_zero] at this
          simp only [count_virt, this, true_and]
          omega
        · rw [List.filterMap_append, show [Slot.virt shiftKey].filterMap Slot.index = [] from rfl, List.append_nil]; exact h1.nodup
        · intro j hj
          obtain ⟨a1, ko, a2⟩ := h1.modified j hj
          exact ⟨a1, ko, List.mem_append_left _ a2⟩
      · cases hs
  | string kos => cases hs

theorem find_modified {l : List Slot} {i : Nat} {a : Act} {u : Bool} (hnd : (l.filterMap Slot.index).Nodup) (hm : Slot.key i a u ∈ l) :
    l.find? (fun x => x.index == some i) = some (.key i a u) := by
  induction l with
  | nil => simp at hm
  | cons x l ih =>
    rw [List.find?_cons]
    rcases List.mem_cons.1 hm with rfl | hm'
    · simp [Slot.index]
    · cases hx : x.index with
      | none =>
        rw [List.filterMap_cons, hx] at hnd
        simpa using ih hnd hm'
      | some j =>
        rw [List.filterMap_cons, hx] at hnd
        obtain ⟨h1, h2⟩ := List.nodup_cons.1 hnd
        have : j ≠ i := by
          rintro rfl
          exact h1 (List.mem_filterMap.2 ⟨_, hm', rfl⟩)
        have hb : (some j == some i) = false := by simp [this]
        simp only [hb]
        exact ih h2 hm'

theorem State.InvL.release {s : State} {i : Nat} (h : s.InvL extra) (hf : s.fifth (.release i) = false) : (s.release i).InvL extra := by
  have hnd : ((s.held.filter (fun x => x.index != some i)).filterMap Slot.index).Nodup := by rw [index_filter]; exact h.nodup.filter _
  by_cases hm : s.modified = some i
  · obtain ⟨h1, ko, h2⟩ := h.modified i hm
    have : s.release i = { s with held := letGo s.active (s.held.filter (fun x => x.index != some i)), active := [], modified := none } := by
      simp only [State.release, find_modified h.nodup h2, hm, if_true, true_and, h1, ne_eq, not_false_eq_true, Slot.finish]
      rfl
    rw [this]
    refine ⟨?_, by rw [index_letGo]; exact hnd, by simp, by simp⟩
    intro ko
    have := h.balanced ko
    simp only [count_letGo, count_filter, List.map_nil, List.count_nil]
    rw [this, Nat.add_sub_cancel_left, Nat.zero_add]
  · have hmod : ∀ j, s.modified = some j → s.active ≠ [] ∧ ∃ ko, .key j (.cell (.out ko)) false ∈ s.held.filter (fun x => x.index != some i) := by
      intro j hj
      obtain ⟨a1, ko, a2⟩ := h.modified j hj
      refine ⟨a1, ko, List.mem_filter.2 ⟨a2, ?_⟩⟩
      simp only [Slot.index, bne_iff_ne, ne_eq, Option.some.injEq]
      rintro rfl
      exact hm hj
    have base : ∀ on dflt, ({ s with held := s.held.filter (fun x => x.index != some i), on := on, dflt := dflt } : State).InvL extra := by
      intro on dflt
      refine ⟨?_, hnd, h.four, hmod⟩
      intro ko
      simp only [count_filter]
      exact h.balanced ko
    simp only [State.release, hm, if_false, false_and, letGo, List.foldl_nil]
    cases hx : s.held.find? (fun x => x.index == some i) with
    | none => exact base _ _
    | some x =>
      cases x with
      | virt ko => exact base _ _
      | key j a u =>
        cases a with
        | cell c => exact base _ _
        | capsWord => exact base _ _
        | string kos => exact base _ _
        | sticky m =>
          cases u with
          | true => exact base _ _
          | false =>
            have hmem := List.mem_of_find?_eq_some hx
            have hj : j = i := by simpa [Slot.index] using List.find?_some hx
            subst hj
            have hlt : s.active.length < 4 := by
              have h4 := h.four
              have : ¬ s.active.length = 4 := by
                intro h4
                simp only [State.fifth, h4, beq_self_eq_true, Bool.and_true, List.any_eq_false] at hf
                exact hf _ hmem (by simp)
              omega
            simp only [Slot.finish, hlt, if_true]
            refine ⟨?_, ?_, ?_, ?_⟩
            · intro ko
              have := h.balanced ko
              rw [count_virt, count_filter, List.map_append, List.count_append, this, List.map_cons, List.map_nil]
              have hk : [modKey m].count ko = if ko = modKey m then 1 else 0 := by
                by_cases e : ko = modKey m
                · subst e; simp
                · simp [e, Ne.symm e]
              rw [hk]
              exact Nat.add_right_comm _ _ _
            · rw [List.filterMap_append, show [Slot.virt (modKey m)].filterMap Slot.index = [] from rfl, List.append_nil]; exact hnd
            · simp only [List.length_append, List.length_cons, List.length_nil]; omega
            · intro k hk
              obtain ⟨a1, ko, a2⟩ := hmod k hk
              exact ⟨by simp, ko, List.mem_append_left _ a2⟩

theorem State.InvL.input {layout : List Pos} {mode : Mode} {s s' : State} {e : InputEvent} (h : s.InvL extra) (hf : s.fifth e = false)
    (hs : s.input layout mode e = some s') : s'.InvL extra := by
  cases e with
  | release i => cases hs; exact h.release hf
  | vpress ko => cases hs
  | vrelease ko => cases hs
  | press i =>
    have h1 : (if mode = .onNextPress ∧ s.modified.isSome then s.unstick else s).InvL extra := by split; exact h.unstick; exact h
    have hx : (if mode = .onNextPress ∧ s.modified.isSome then s.unstick else s).held.filterMap Slot.index = s.held.filterMap Slot.index := by
      split
      · exact index_letGo _ _
      · rfl
    simp only [State.input, State.press] at hs
    split at hs
    · cases hs; exact h1
    · rename_i hh
      split at hs
      · obtain ⟨p, _, hst⟩ := Option.bind_eq_some_iff.1 hs
        refine h1.start ?_ hst
        rw [hx]
        intro hm
        exact hh (Comp.vholds_iff.2 hm)
      · cases hs

theorem State.InvL.inputs {layout : List Pos} {mode : Mode} {s s' : State} {es : List InputEvent} (h : s.InvL extra) (hf : s.AtMostFour layout mode es)
    (hs : s.inputs layout mode es = some s') : s'.InvL extra := by
  induction es generalizing s with
  | nil => cases hs; exact h
  | cons e es ih =>
    obtain ⟨s1, h1, h2⟩ := Option.bind_eq_some_iff.1 hs
    exact ih (h.input hf.1 h1) (hf.2 s1 h1) h2

end Verif.Virt
