import Verif.Lemmas.CodegenOk
import Verif.Spec.SourceBoard

/-!
# The number of layers of a compiled keymap
-/

namespace Verif.Codegen

open Comp (Ref Keys)

/-! ## The number of layers of the widest layered key -/

mutual

def NKey.width : NKey → Nat
  | .leaf _ => 0
  | .hold t h => max t.width h.width
  | .dances t ds => max t.width (widthAll ds)
  | .layered b ls => max ls.length (max b.width (widthLayers ls))
  | .chorded cs p => max (widthChords cs) p.width
  | .aux p => p.width

def widthAll : List NKey → Nat
  | [] => 0
  | k :: ks => max k.width (widthAll ks)

def widthLayers : List (Option NKey) → Nat
  | [] => 0
  | none :: ks => widthLayers ks
  | some k :: ks => max k.width (widthLayers ks)

def widthChords : List (Nat × NKey) → Nat
  | [] => 0
  | (_, k) :: ks => max k.width (widthChords ks)

end

theorem transform_width (acc : List Automation.Instruction) (k : NKey) : (transform acc k).2.width = k.width := by
  unfold transform
  split <;> rfl

theorem transformAll_width : ∀ (ks : List NKey) (acc : List Automation.Instruction), widthAll (transformAll acc ks).2 = widthAll ks
  | [], _ => rfl
  | k :: ks, acc => by
    have := transformAll_width ks (transform acc k).1
    simp [transformAll, widthAll, this, transform_width]

theorem transformLayers_width : ∀ (ks : List (Option NKey)) (acc : List Automation.Instruction), widthLayers (transformLayers acc ks).2 = widthLayers ks ∧
    (transformLayers acc ks).2.length = ks.length
  | [], _ => ⟨rfl, rfl⟩
  | none :: ks, acc => by
    have := transformLayers_width ks acc
    simp [transformLayers, widthLayers, this]
  | some k :: ks, acc => by
    have := transformLayers_width ks (transform acc k).1
    simp [transformLayers, widthLayers, this, transform_width]

theorem transformChords_width : ∀ (ks : List (Nat × NKey)) (acc : List Automation.Instruction), widthChords (transformChords acc ks).2 = widthChords ks ∧
    (transformChords acc ks).2.length = ks.length
  | [], _ => ⟨rfl, rfl⟩
  | (_, k) :: ks, acc => by
    have := transformChords_width ks (transform acc k).1
    simp [transformChords, widthChords, this, transform_width]

theorem mapAccum_width (acc : List Automation.Instruction) (k : NKey) : (mapAccum acc k).2.width = k.width := by
  cases k with
  | leaf l => exact transform_width acc _
  | hold t h' => simp [mapAccum, NKey.width, transform_width]
  | dances t ds => simp [mapAccum, NKey.width, transform_width, transformAll_width]
  | layered b ls => simp [mapAccum, NKey.width, transform_width, transformLayers_width]
  | chorded cs p => simp [mapAccum, NKey.width, transform_width, transformChords_width]
  | aux p => simp [mapAccum, NKey.width, transform_width]

theorem mapAccumAll_width : ∀ (ks : List NKey) (acc : List Automation.Instruction), widthAll (mapAccumAll acc ks).2 = widthAll ks
  | [], _ => rfl
  | k :: ks, acc => by
    have := mapAccumAll_width ks (mapAccum acc k).1
    simp [mapAccumAll, widthAll, this, mapAccum_width]

mutual

theorem toJson_width : ∀ (k : NKey) {j : JKey}, k.toJson = some j → j.maxLayers = k.width
  | .leaf l, j, h => by
    cases l with
    | layerModifier m =>
      simp only [NKey.toJson, Leaf.toJson, Option.map_eq_some_iff] at h
      obtain ⟨_, _, rfl⟩ := h
      rfl
    | automation m => simp [NKey.toJson, Leaf.toJson] at h
    | _ =>
      simp only [NKey.toJson, Leaf.toJson, Option.some.injEq] at h
      subst h
      rfl
  | .hold t h', j, h => by
    simp only [NKey.toJson, Option.pure_def, Option.bind_eq_bind, Option.bind_eq_some_iff, Option.some.injEq] at h
    obtain ⟨_, h1, _, h2, rfl⟩ := h
    simp [JKey.maxLayers, NKey.width, toJson_width _ h1, toJson_width _ h2]
  | .dances t ds, j, h => by
    simp only [NKey.toJson, Option.pure_def, Option.bind_eq_bind, Option.bind_eq_some_iff, Option.some.injEq] at h
    obtain ⟨_, h1, _, h2, rfl⟩ := h
    simp [JKey.maxLayers, maxLayersAll, NKey.width, toJson_width _ h1, toJsonAll_width _ h2]
  | .layered b ls, j, h => by
    simp only [NKey.toJson, Option.pure_def, Option.bind_eq_bind, Option.bind_eq_some_iff, Option.some.injEq] at h
    obtain ⟨_, h1, _, h2, rfl⟩ := h
    simp [JKey.maxLayers, NKey.width, toJson_width _ h1, toJsonLayers_width _ h2]
  | .chorded cs p, j, h => by
    simp only [NKey.toJson, Option.pure_def, Option.bind_eq_bind, Option.bind_eq_some_iff, Option.some.injEq] at h
    obtain ⟨_, h1, _, h2, rfl⟩ := h
    simp [JKey.maxLayers, NKey.width, toJsonChords_width _ h1, toJson_width _ h2]
  | .aux p, j, h => by
    simp only [NKey.toJson, Option.pure_def, Option.bind_eq_bind, Option.bind_eq_some_iff, Option.some.injEq] at h
    obtain ⟨_, h1, rfl⟩ := h
    simp [JKey.maxLayers, NKey.width, toJson_width _ h1]

theorem toJsonAll_width : ∀ (ks : List NKey) {js : List JKey}, toJsonAll ks = some js → maxLayersAll js = widthAll ks
  | [], js, h => by
    simp only [toJsonAll, Option.some.injEq] at h
    subst h
    rfl
  | k :: ks, js, h => by
    simp only [toJsonAll, Option.pure_def, Option.bind_eq_bind, Option.bind_eq_some_iff, Option.some.injEq] at h
    obtain ⟨_, h1, _, h2, rfl⟩ := h
    simp [maxLayersAll, widthAll, toJson_width _ h1, toJsonAll_width _ h2]

theorem toJsonLayers_width : ∀ (ks : List (Option NKey)) {js : List (Option JKey)}, toJsonLayers ks = some js →
    maxLayersLayers js = widthLayers ks ∧ js.length = ks.length
  | [], js, h => by
    simp only [toJsonLayers, Option.some.injEq] at h
    subst h
    exact ⟨rfl, rfl⟩
  | none :: ks, js, h => by
    simp only [toJsonLayers, Option.pure_def, Option.bind_eq_bind, Option.bind_eq_some_iff, Option.some.injEq] at h
    obtain ⟨_, h2, rfl⟩ := h
    simp [maxLayersLayers, widthLayers, toJsonLayers_width _ h2]
  | some k :: ks, js, h => by
    simp only [toJsonLayers, Option.pure_def, Option.bind_eq_bind, Option.bind_eq_some_iff, Option.some.injEq] at h
    obtain ⟨_, h1, _, h2, rfl⟩ := h
    simp [maxLayersLayers, widthLayers, toJson_width _ h1, toJsonLayers_width _ h2]

theorem toJsonChords_width : ∀ (ks : List (Nat × NKey)) {js : List (Nat × JKey)}, toJsonChords ks = some js →
    maxLayersChords js = widthChords ks ∧ js.length = ks.length
  | [], js, h => by
    simp only [toJsonChords, Option.some.injEq] at h
    subst h
    exact ⟨rfl, rfl⟩
  | (_, k) :: ks, js, h => by
    simp only [toJsonChords, Option.pure_def, Option.bind_eq_bind, Option.bind_eq_some_iff, Option.some.injEq] at h
    obtain ⟨_, h1, _, h2, rfl⟩ := h
    simp [maxLayersChords, widthChords, toJson_width _ h1, toJsonChords_width _ h2]

end

mutual

theorem flat_width : ∀ (k : NKey), k.Flat → k.width = 0
  | .leaf _, _ => rfl
  | .hold t h', h => by simp [NKey.width, flat_width t h.1, flat_width h' h.2]
  | .dances t ds, h => by simp [NKey.width, flat_width t h.1, flatAll_width ds h.2]
  | .layered _ _, h => h.elim
  | .chorded cs p, h => by simp [NKey.width, flatChords_width cs h.1, flat_width p h.2]
  | .aux p, h => flat_width p h

theorem flatAll_width : ∀ (ks : List NKey), AllFlat ks → widthAll ks = 0
  | [], _ => rfl
  | k :: ks, h => by simp [widthAll, flat_width k h.1, flatAll_width ks h.2]

theorem flatChords_width : ∀ (ks : List (Nat × NKey)), ChordsFlat ks → widthChords ks = 0
  | [], _ => rfl
  | (_, k) :: ks, h => by simp [widthChords, flat_width k h.1, flatChords_width ks h.2]

end

/-! ## The stages of the compiler -/

/-- What the stages of the compiler make of a source. -/
structure Stages (s : Src) (c : Compiled) (base : List (Option NKey)) (upper : List (List (Option NKey))) (bs ks : List NKey) (js : List JKey)
    (z : Sizes) : Prop where
  layers : s.layers = base :: upper
  stacked : stackedFrom upper 0 base = some bs
  chorded : chordedFrom s.chords 0 bs = some ks
  json : toJsonAll (mapAccumAll [] ks).2 = some js
  sizes : z = ⟨maxLayersAll js, maxDefsAll js, s.chords.length, maxChordSize (s.chords.map (·.indices)), maxOverlap (s.chords.map (·.indices))⟩
  keys : js ≠ []
  indices : ∀ c ∈ s.chords, c.indices ≠ []
  build : (dataAndRefAll {} js).1.build z = some c.keys
  refs : c.refs = (dataAndRefAll {} js).2
  config : c.config = Json.config ⟨js, (mapAccumAll [] ks).1, s.chords.map (·.indices), s.options⟩ z

theorem compile_stages {s : Src} {c : Compiled} (h : compile s = some c) : ∃ base upper bs ks js z, Stages s c base upper bs ks js z := by
  simp only [compile, Src.json, Src.chordedKeys, Src.layeredKeys, Json.gen, Json.sizes, Option.pure_def, Option.bind_eq_bind, Option.bind_eq_some_iff,
    Option.some.injEq] at h
  obtain ⟨_, ⟨ks, ⟨bs, h1, h2⟩, js, h3, rfl⟩, z, h4, K, h5, rfl⟩ := h
  split at h1
  · cases h1
  rename_i base upper hl
  split at h4
  · cases h4
  rename_i h6
  simp only [Option.some.injEq] at h4
  refine ⟨base, upper, bs, ks, js, z, hl, h1, h2, h3, ?_, fun h => h6 (.inl h), ?_, h5, rfl, rfl⟩
  · rw [← h4, List.length_map]
  · intro c hc hi
    exact h6 (.inr (List.mem_map.2 ⟨c, hc, hi⟩))

section

variable {s : Src} {c : Compiled} {base : List (Option NKey)} {upper : List (List (Option NKey))} {bs ks : List NKey} {js : List JKey} {z : Sizes}
variable (st : Stages s c base upper bs ks js z)

include st

theorem Stages.lengths : bs.length = base.length ∧ ks.length = base.length ∧ js.length = base.length ∧ c.refs.length = base.length := by
  have h1 := (stackedFrom_get st.stacked).1
  have h2 := (chordedFrom_get st.chorded).1
  have h3 := toJsonAll_length st.json
  rw [mapAccumAll_length] at h3
  have h4 : (dataAndRefAll {} js).2.length = (mapAccumAll [] ks).2.length :=
    (means_of_toJsonAll (I := []) (Data.build_built st.build) _ st.json {} (by rw [st.sizes]; exact Nat.le_refl _) (Data.Le.refl _)).1
  rw [mapAccumAll_length] at h4
  rw [st.refs]
  omega

theorem Stages.position {i : Nat} {r : Ref} (hr : c.refs[i]? = some r) : Position c.keys c.config.automation.instructions s i r := by
  have hI : c.config.automation.instructions = (mapAccumAll [] ks).1 := by rw [st.config]; rfl
  rw [hI]
  have hlen := st.lengths
  have hi : i < base.length := by
    have := (List.getElem?_eq_some_iff.1 hr).1
    omega
  have hk : ks[i]? = some ks[i] := List.getElem?_eq_getElem (by omega)
  have hk' : (mapAccumAll [] ks).2[i]? = some ((mapAccumAll [] ks).2[i]'(by rw [mapAccumAll_length]; omega)) := List.getElem?_eq_getElem _
  have hm := (means_of_toJsonAll (I := (mapAccumAll [] ks).1) (Data.build_built st.build) _ st.json {} (by rw [st.sizes]; exact Nat.le_refl _)
    (Data.Le.refl _)).2 i _ r hk' (by rw [← st.refs]; exact hr)
  have hm := (mapAccumAll_means ks [] (List.prefix_refl _)).2 i _ _ hk hk' r hm
  obtain ⟨b, hb, hbk⟩ := (chordedFrom_get st.chorded).2 i _ hk
  rw [Nat.zero_add] at hbk
  obtain ⟨o, ho, hok⟩ := (stackedFrom_get st.stacked).2 i _ hb
  rw [Nat.zero_add] at hok
  exact chordedKey_means hbk hm fun r hr => stacked_means st.layers ho hok hr

theorem Stages.allEnd (r : Ref) : Ends c.keys r :=
  (ends_dataAndRefAll (Data.build_built st.build) js {} ⟨by simp, by simp, by simp, by simp, by simp⟩ (Data.Le.refl _)).1.ends
    (Data.build_built st.build) r

theorem Stages.layered_length {e : Layered.LayeredKey Ref} (he : e ∈ c.keys.layered) : e.layered.length = c.config.layerCount := by
  have hz : c.config.layerCount = z.layers := by rw [st.config]; rfl
  have h := st.build
  simp only [Data.build, Option.pure_def, Option.bind_eq_bind, Option.bind_eq_some_iff, Option.some.injEq] at h
  obtain ⟨ls, h1, cs, h2, h3⟩ := h
  rw [← h3] at he
  have : ∀ {l : List (Layered.LayeredKey Ref)} {l' : List (Layered.LayeredKey Ref)}, l.mapM (buildLayered z.layers) = some l' → ∀ e ∈ l',
      e.layered.length = z.layers := by
    intro l
    induction l with
    | nil =>
      intro l' h
      simp only [List.mapM_nil, Option.pure_def, Option.some.injEq] at h
      subst h
      simp
    | cons a l ih =>
      intro l' h
      simp only [List.mapM_cons, Option.pure_def, Option.bind_eq_bind, Option.bind_eq_some_iff, Option.some.injEq] at h
      obtain ⟨b, hb, l'', hl, rfl⟩ := h
      intro e he
      rcases List.mem_cons.1 he with rfl | he
      · simp only [buildLayered] at hb
        split at hb
        · cases hb
        · simp only [Option.some.injEq] at hb
          subst hb
          simp only [List.length_append, List.length_replicate]
          omega
      · exact ih hl e he
  rw [hz]
  exact this h1 e he

theorem Stages.layerCount : c.config.layerCount = widthAll ks := by
  have : c.config.layerCount = z.layers := by rw [st.config]; rfl
  rw [this, st.sizes]
  show maxLayersAll js = _
  rw [toJsonAll_width _ st.json, mapAccumAll_width]

end

theorem widthLayers_zero : ∀ {ls : List (Option NKey)}, (∀ k, some k ∈ ls → k.width = 0) → widthLayers ls = 0
  | [], _ => rfl
  | none :: ls, h => widthLayers_zero (ls := ls) fun k hk => h k (by simp [hk])
  | some k :: ls, h => by
    have h1 := widthLayers_zero (ls := ls) fun k hk => h k (by simp [hk])
    have h2 := h k (by simp)
    simp [widthLayers, h1, h2]

theorem widthChords_zero : ∀ {ls : List (Nat × NKey)}, (∀ n k, (n, k) ∈ ls → k.width = 0) → widthChords ls = 0
  | [], _ => rfl
  | (n, k) :: ls, h => by
    have h1 := widthChords_zero (ls := ls) fun n k hk => h n k (by simp [hk])
    have h2 := h n k (by simp)
    simp [widthChords, h1, h2]

theorem widthAll_le {n : Nat} : ∀ {ks : List NKey}, (∀ k ∈ ks, k.width ≤ n) → widthAll ks ≤ n
  | [], _ => Nat.zero_le _
  | k :: ks, h => by
    have h1 := widthAll_le (ks := ks) fun k hk => h k (by simp [hk])
    have h2 := h k (by simp)
    simp only [widthAll]
    omega

theorem le_widthAll : ∀ {ks : List NKey} {k : NKey}, k ∈ ks → k.width ≤ widthAll ks
  | k' :: ks, k, h => by
    simp only [widthAll]
    rcases List.mem_cons.1 h with rfl | h
    · omega
    · have := le_widthAll h
      omega

theorem column_length {idx : Nat} : ∀ {ls : List (List (Option NKey))} {col : List (Option NKey)}, column idx ls = some col → col.length = ls.length
  | [], col, h => by
    simp only [column, Option.some.injEq] at h
    subst h
    rfl
  | l :: ls, col, h => by
    simp only [column, Option.pure_def, Option.bind_eq_bind, Option.bind_eq_some_iff, Option.some.injEq] at h
    obtain ⟨k, _, ks, h, rfl⟩ := h
    simp [column_length h]

/-- The width of a position's key, when the keys written there are not layered. -/
theorem stacked_width {s : Src} {base : List (Option NKey)} {upper : List (List (Option NKey))} (hs : s.layers = base :: upper)
    {i : Nat} {b : Option NKey} (hb : base[i]? = some b) (hw : ∀ l k, s.at l i = some k → k.width = 0) {k : NKey}
    (hk : stacked b i upper = some k) :
    ((∃ l, 0 < l ∧ (s.at l i).isSome) → k.width = upper.length) ∧ ((∀ l, 0 < l → s.at l i = none) → k.width = 0) := by
  have h0 : s.at 0 i = b := by simp [Src.at, hs, hb]
  simp only [stacked, Option.pure_def, Option.bind_eq_bind, Option.bind_eq_some_iff] at hk
  obtain ⟨col, hc, hk⟩ := hk
  have hcol : ∀ l : Nat, s.at (l + 1) i = (col[l]?).join := by
    intro l
    rw [column_get hc]
    simp [Src.at, hs]
  have hcl := column_length hc
  split at hk
  · rename_i hall
    have hnone : ∀ l, 0 < l → s.at l i = none := by
      intro l hl
      obtain ⟨l, rfl⟩ : ∃ m, l = m + 1 := ⟨l - 1, by omega⟩
      rw [hcol]
      cases hx : col[l]? with
      | none => rfl
      | some x =>
        have := List.all_eq_true.1 hall x (List.mem_of_getElem? hx)
        simpa using this
    refine ⟨fun ⟨l, hl, h⟩ => by simp [hnone l hl] at h, fun _ => ?_⟩
    exact hw 0 k (h0.trans hk)
  · rename_i hall
    have hsome : ∃ l, 0 < l ∧ (s.at l i).isSome := by
      simp only [List.all_eq_true, Classical.not_forall] at hall
      obtain ⟨x, hx, hx'⟩ := hall
      obtain ⟨l, hl⟩ := List.getElem?_of_mem hx
      refine ⟨l + 1, by omega, ?_⟩
      rw [hcol, hl]
      cases x <;> simp_all
    refine ⟨fun _ => ?_, fun h => ?_⟩
    · have hwl : widthLayers col = 0 := widthLayers_zero fun k hk => by
        obtain ⟨l, hl⟩ := List.getElem?_of_mem hk
        exact hw (l + 1) k (by rw [hcol, hl]; rfl)
      unfold withLayers at hk
      split at hk
      · cases hk
      · cases hk
      · cases hk
      · rename_i k' _ _
        simp only [Option.some.injEq] at hk
        subst hk
        simp only [NKey.width, hwl, hw 0 k' h0, hcl]
        omega
    · obtain ⟨l, hl, hs'⟩ := hsome
      simp [h l hl] at hs'

theorem chordedKey_width {chords : List SrcChord} {i : Nat} {b k : NKey} (hk : chordedKey chords i b = some k)
    (hw : ∀ c ∈ chords, c.key.width = 0) : k.width = b.width := by
  simp only [chordedKey, Option.bind_eq_bind, Option.bind_eq_some_iff] at hk
  obtain ⟨ps, hp, hk⟩ := hk
  split at hk
  · simp only [Option.pure_def, Option.some.injEq] at hk
    subst hk
    split <;> rfl
  · rename_i hne
    simp only [Option.pure_def, Option.some.injEq] at hk
    subst hk
    have hz : widthChords ps = 0 := widthChords_zero fun n k hk => by
      obtain ⟨c, _, h1, _, rfl⟩ := ((primaryChords_spec hp).2.1 n k).1 hk
      exact hw c (List.mem_of_getElem? h1)
    simp [NKey.width, hz]

theorem Stages.count {s : Src} {c : Compiled} {base : List (Option NKey)} {upper : List (List (Option NKey))} {bs ks : List NKey} {js : List JKey}
    {z : Sizes} (st : Stages s c base upper bs ks js z) (hw : ∀ i l k, i < base.length → s.at l i = some k → k.width = 0)
    (hwc : ∀ c ∈ s.chords, c.key.width = 0) : c.config.layerCount = s.count := by
  have hlen := st.lengths
  rw [st.layerCount]
  have hkey : ∀ i k, ks[i]? = some k → i < base.length ∧ ((∃ l, 0 < l ∧ (s.at l i).isSome) → k.width = upper.length) ∧
      ((∀ l, 0 < l → s.at l i = none) → k.width = 0) := by
    intro i k hk
    have hi : i < base.length := by
      have := (List.getElem?_eq_some_iff.1 hk).1
      omega
    obtain ⟨b, hb, hbk⟩ := (chordedFrom_get st.chorded).2 i _ hk
    obtain ⟨o, ho, hok⟩ := (stackedFrom_get st.stacked).2 i _ hb
    rw [Nat.zero_add] at hok
    rw [chordedKey_width hbk hwc]
    exact ⟨hi, stacked_width st.layers ho (fun l k => hw i l k hi) hok⟩
  have hat : ∀ l i, s.at (l + 1) i = (upper[l]?.bind (·[i]?)).join := by
    intro l i
    simp [Src.at, st.layers]
  simp only [Src.count, st.layers]
  split
  · rename_i hany
    obtain ⟨u, hu, hany⟩ := List.any_eq_true.1 hany
    obtain ⟨o, ho, hos⟩ := List.any_eq_true.1 hany
    obtain ⟨l, hl⟩ := List.getElem?_of_mem hu
    obtain ⟨i, hi⟩ := List.getElem?_of_mem ho
    rw [List.getElem?_take] at hi
    split at hi
    · rename_i hib
      obtain ⟨_, h1, _⟩ := hkey i ks[i] (List.getElem?_eq_getElem (by omega))
      apply Nat.le_antisymm
      · apply widthAll_le
        intro k hk
        obtain ⟨i, hi⟩ := List.getElem?_of_mem hk
        obtain ⟨_, h1, h2⟩ := hkey i k hi
        by_cases h : ∃ l, 0 < l ∧ (s.at l i).isSome
        · rw [h1 h]; exact Nat.le_refl _
        · rw [h2 (fun l hl => by
            cases hx : s.at l i with
            | none => rfl
            | some x => exact absurd ⟨l, hl, by rw [hx]; rfl⟩ h)]
          exact Nat.zero_le _
      · rw [← h1 ⟨l + 1, by omega, by rw [hat, hl, Option.bind_some, hi]; exact hos⟩]
        exact le_widthAll (List.getElem_mem _)
    · cases hi
  · rename_i hany
    apply Nat.le_antisymm _ (Nat.zero_le _)
    apply widthAll_le
    intro k hk
    obtain ⟨i, hi⟩ := List.getElem?_of_mem hk
    obtain ⟨hib, _, h2⟩ := hkey i k hi
    rw [h2]
    · exact Nat.le_refl _
    · intro l hl
      obtain ⟨l, rfl⟩ : ∃ m, l = m + 1 := ⟨l - 1, by omega⟩
      rw [hat]
      cases hu : upper[l]? with
      | none => rfl
      | some u =>
        rw [Option.bind_some]
        cases ho : u[i]? with
        | none => rfl
        | some o =>
          cases o with
          | none => rfl
          | some k =>
            exfalso
            apply hany
            refine List.any_eq_true.2 ⟨u, List.mem_of_getElem? hu, List.any_eq_true.2 ⟨some k, ?_, rfl⟩⟩
            exact List.mem_of_getElem? (i := i) (by rw [List.getElem?_take, if_pos hib, ho])

end Verif.Codegen
