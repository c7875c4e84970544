import Verif.Lemmas.CodegenSrc
import Verif.Lemmas.Refs

/-! # The keymap compiler: the tables contain no cycle, and the sizes suffice -/

namespace Verif.Codegen

open Comp (Ref Keys Child Leads)

/-- Following references from here comes to an end. -/
def Ends (K : Keys) (r : Ref) : Prop := Acc (fun a b => Child K b a) r

theorem Ends.of_no_child {K : Keys} {r : Ref} (h : ∀ r', ¬ Child K r r') : Ends K r := ⟨_, fun r' hr' => absurd hr' (h r')⟩

/-- Following references comes to an end from every entry of the tables. -/
structure AllEnd (K : Keys) (d : Data) : Prop where
  layered : ∀ i, i < d.layered.length → Ends K (.layered (.layered i))
  tapHold : ∀ i, i < d.tapHold.length → Ends K (.tapHold i)
  tapDance : ∀ i, i < d.tapDance.length → Ends K (.tapDance i)
  chorded : ∀ i, i < d.chorded.length → Ends K (.chorded (.chorded i))
  chordedAux : ∀ i, i < d.chordedAux.length → Ends K (.chorded (.auxiliary i))

theorem ends_at_end {K : Keys} {α : Type} {l : List α} {x : α} {f : Nat → Ref} (h : ∀ i, i < l.length → Ends K (f i))
    (hx : Ends K (f l.length)) : ∀ i, i < (l ++ [x]).length → Ends K (f i) := by
  intro i hi
  simp only [List.length_append, List.length_cons, List.length_nil, Nat.zero_add] at hi
  by_cases h' : i = l.length
  · subst h'; exact hx
  · exact h i (by omega)

section
variable {z : Sizes} {D : Data} {K : Keys}

mutual

theorem ends_dataAndRef (hB : Built z D K) : ∀ (k : JKey) (d : Data), AllEnd K d → (dataAndRef d k).1.Le D →
    AllEnd K (dataAndRef d k).1 ∧ Ends K (dataAndRef d k).2
  | .automation k, d, h, _ => ⟨⟨h.1, h.2, h.3, h.4, h.5⟩, .of_no_child fun _ h => by cases h⟩
  | .callback c, d, h, _ => ⟨⟨h.1, h.2, h.3, h.4, h.5⟩, .of_no_child fun _ h => by cases h⟩
  | .capsWord, d, h, _ => ⟨h, .of_no_child fun _ h => by cases h⟩
  | .aux p, d, h, hD => by
    have hD1 : (dataAndRef d p).1.Le D := by
      refine .trans ?_ hD
      constructor <;> simp [dataAndRef]
    obtain ⟨h1, h2⟩ := ends_dataAndRef hB p d h hD1
    have hr : Ends K (.chorded (.auxiliary (dataAndRef d p).1.chordedAux.length)) := by
      refine ⟨_, fun r' hr' => ?_⟩
      have hg : K.chordedAux[(dataAndRef d p).1.chordedAux.length]? = some (dataAndRef d p).2 := by
        rw [hB.chordedAux]; exact get_of_prefix hD.chordedAux
      cases hr' with
      | aux h => rw [hg] at h; cases h; exact h2
    exact ⟨⟨h1.1, h1.2, h1.3, h1.4, ends_at_end h1.5 hr⟩, hr⟩
  | .chorded cs p, d, h, hD => by
    have hD2 : (dataAndRef (dataAndRefChords d cs).1 p).1.Le D := by
      refine .trans ?_ hD
      constructor <;> simp [dataAndRef]
    have hD1 := (le_dataAndRef p (dataAndRefChords d cs).1).trans hD2
    obtain ⟨h1, h2⟩ := ends_dataAndRefChords hB cs d h hD1
    obtain ⟨h3, h4⟩ := ends_dataAndRef hB p _ h1 hD2
    have hr : Ends K (.chorded (.chorded (dataAndRef (dataAndRefChords d cs).1 p).1.chorded.length)) := by
      refine ⟨_, fun r' hr' => ?_⟩
      have hg : K.chorded[(dataAndRef (dataAndRefChords d cs).1 p).1.chorded.length]? =
          some ⟨(dataAndRefChords d cs).2, (dataAndRef (dataAndRefChords d cs).1 p).2⟩ := by
        rw [hB.chorded]; exact get_of_prefix hD.chorded
      cases hr' with
      | chord h hm => rw [hg] at h; cases h; exact h2 _ _ hm
      | passthrough h => rw [hg] at h; cases h; exact h4
    exact ⟨⟨h3.1, h3.2, h3.3, ends_at_end h3.4 hr, h3.5⟩, hr⟩
  | .consumer uc, d, h, _ => ⟨h, .of_no_child fun _ h => by cases h⟩
  | .custom cc, d, h, _ => ⟨h, .of_no_child fun _ h => by cases h⟩
  | .keyCode kc, d, h, _ => ⟨h, .of_no_child fun _ h => by cases h⟩
  | .modifiers m, d, h, _ => ⟨h, .of_no_child fun _ h => by cases h⟩
  | .keyCodeModifiers kc m, d, h, _ => ⟨⟨h.1, h.2, h.3, h.4, h.5⟩, .of_no_child fun _ h => by cases h⟩
  | .mouse r, d, h, _ => ⟨h, .of_no_child fun _ h => by cases h⟩
  | .layered b ls, d, h, hD => by
    have hD2 : (dataAndRefLayers (dataAndRef d b).1 ls).1.Le D := by
      refine .trans ?_ hD
      constructor <;> simp [dataAndRef]
    have hD1 := (le_dataAndRefLayers ls (dataAndRef d b).1).trans hD2
    obtain ⟨h1, h2⟩ := ends_dataAndRef hB b d h hD1
    obtain ⟨h3, h4⟩ := ends_dataAndRefLayers hB ls _ h1 hD2
    have hr : Ends K (.layered (.layered (dataAndRefLayers (dataAndRef d b).1 ls).1.layered.length)) := by
      refine ⟨_, fun r' hr' => ?_⟩
      have hg : D.layered[(dataAndRefLayers (dataAndRef d b).1 ls).1.layered.length]? =
          some ⟨(dataAndRef d b).2, (dataAndRefLayers (dataAndRef d b).1 ls).2⟩ := get_of_prefix hD.layered
      cases hr' with
      | base h =>
        rw [hB.layered, List.getElem?_map, hg] at h
        cases h; exact h2
      | layer h hm =>
        rw [hB.layered, List.getElem?_map, hg] at h
        cases h
        simp only [List.mem_append, List.mem_replicate, reduceCtorEq, and_false, or_false] at hm
        exact h4 _ hm
    exact ⟨⟨ends_at_end (f := fun i => .layered (.layered i)) h3.1 hr, h3.2, h3.3, h3.4, h3.5⟩, hr⟩
  | .modifier m, d, h, _ => ⟨⟨h.1, h.2, h.3, h.4, h.5⟩, .of_no_child fun _ h => by cases h⟩
  | .sticky m, d, h, _ => ⟨⟨h.1, h.2, h.3, h.4, h.5⟩, .of_no_child fun _ h => by cases h⟩
  | .tapDance ds, d, h, hD => by
    have hD1 : (dataAndRefAll d ds).1.Le D := by
      refine .trans ?_ hD
      constructor <;> simp [dataAndRef]
    obtain ⟨h1, h2⟩ := ends_dataAndRefAll hB ds d h hD1
    have hr : Ends K (.tapDance (dataAndRefAll d ds).1.tapDance.length) := by
      refine ⟨_, fun r' hr' => ?_⟩
      have hg : D.tapDance[(dataAndRefAll d ds).1.tapDance.length]? = some (dataAndRefAll d ds).2 := get_of_prefix hD.tapDance
      cases hr' with
      | tapDance h hm =>
        rw [hB.tapDance, List.getElem?_map, hg] at h
        cases h
        simp only [TapDance.Key.fromDefinitions, List.mem_append, List.mem_replicate, reduceCtorEq, and_false, or_false, List.mem_map,
          Option.some.injEq, exists_eq_right] at hm
        exact h2 _ (List.mem_of_mem_take hm)
    exact ⟨⟨h1.1, h1.2, ends_at_end h1.3 hr, h1.4, h1.5⟩, hr⟩
  | .tapHold t h', d, h, hD => by
    have hD2 : (dataAndRef (dataAndRef d t).1 h').1.Le D := by
      refine .trans ?_ hD
      constructor <;> simp [dataAndRef]
    have hD1 := (le_dataAndRef h' (dataAndRef d t).1).trans hD2
    obtain ⟨h1, h2⟩ := ends_dataAndRef hB t d h hD1
    obtain ⟨h3, h4⟩ := ends_dataAndRef hB h' _ h1 hD2
    have hr : Ends K (.tapHold (dataAndRef (dataAndRef d t).1 h').1.tapHold.length) := by
      refine ⟨_, fun r' hr' => ?_⟩
      have hg : K.tapHold[(dataAndRef (dataAndRef d t).1 h').1.tapHold.length]? =
          some ⟨(dataAndRef d t).2, (dataAndRef (dataAndRef d t).1 h').2⟩ := by
        rw [hB.tapHold]; exact get_of_prefix hD.tapHold
      cases hr' with
      | tap h => rw [hg] at h; cases h; exact h2
      | hold h => rw [hg] at h; cases h; exact h4
    exact ⟨⟨h3.1, ends_at_end h3.2 hr, h3.3, h3.4, h3.5⟩, hr⟩

theorem ends_dataAndRefAll (hB : Built z D K) : ∀ (ks : List JKey) (d : Data), AllEnd K d → (dataAndRefAll d ks).1.Le D →
    AllEnd K (dataAndRefAll d ks).1 ∧ ∀ r ∈ (dataAndRefAll d ks).2, Ends K r
  | [], d, h, _ => ⟨h, by simp [dataAndRefAll]⟩
  | k :: ks, d, h, hD => by
    have hD2 : (dataAndRefAll (dataAndRef d k).1 ks).1.Le D := hD
    have hD1 := (le_dataAndRefAll ks (dataAndRef d k).1).trans hD2
    obtain ⟨h1, h2⟩ := ends_dataAndRef hB k d h hD1
    obtain ⟨h3, h4⟩ := ends_dataAndRefAll hB ks _ h1 hD2
    refine ⟨h3, ?_⟩
    intro r hr
    simp only [dataAndRefAll, List.mem_cons] at hr
    rcases hr with rfl | hr
    · exact h2
    · exact h4 r hr

theorem ends_dataAndRefLayers (hB : Built z D K) : ∀ (ks : List (Option JKey)) (d : Data), AllEnd K d → (dataAndRefLayers d ks).1.Le D →
    AllEnd K (dataAndRefLayers d ks).1 ∧ ∀ r, some r ∈ (dataAndRefLayers d ks).2 → Ends K r
  | [], d, h, _ => ⟨h, by simp [dataAndRefLayers]⟩
  | none :: ks, d, h, hD => by
    obtain ⟨h3, h4⟩ := ends_dataAndRefLayers hB ks d h hD
    refine ⟨h3, ?_⟩
    intro r hr
    simp only [dataAndRefLayers, List.mem_cons, reduceCtorEq, false_or] at hr
    exact h4 r hr
  | some k :: ks, d, h, hD => by
    have hD2 : (dataAndRefLayers (dataAndRef d k).1 ks).1.Le D := hD
    have hD1 := (le_dataAndRefLayers ks (dataAndRef d k).1).trans hD2
    obtain ⟨h1, h2⟩ := ends_dataAndRef hB k d h hD1
    obtain ⟨h3, h4⟩ := ends_dataAndRefLayers hB ks _ h1 hD2
    refine ⟨h3, ?_⟩
    intro r hr
    simp only [dataAndRefLayers, List.mem_cons, Option.some.injEq] at hr
    rcases hr with rfl | hr
    · exact h2
    · exact h4 r hr

theorem ends_dataAndRefChords (hB : Built z D K) : ∀ (ks : List (Nat × JKey)) (d : Data), AllEnd K d → (dataAndRefChords d ks).1.Le D →
    AllEnd K (dataAndRefChords d ks).1 ∧ ∀ n r, (n, r) ∈ (dataAndRefChords d ks).2 → Ends K r
  | [], d, h, _ => ⟨h, by simp [dataAndRefChords]⟩
  | (i, k) :: ks, d, h, hD => by
    have hD2 : (dataAndRefChords (dataAndRef d k).1 ks).1.Le D := hD
    have hD1 := (le_dataAndRefChords ks (dataAndRef d k).1).trans hD2
    obtain ⟨h1, h2⟩ := ends_dataAndRef hB k d h hD1
    obtain ⟨h3, h4⟩ := ends_dataAndRefChords hB ks _ h1 hD2
    refine ⟨h3, ?_⟩
    intro n r hr
    simp only [dataAndRefChords, List.mem_cons, Prod.mk.injEq] at hr
    rcases hr with ⟨_, rfl⟩ | hr
    · exact h2
    · exact h4 n r hr

end

theorem AllEnd.ends (hB : Built z D K) (h : AllEnd K D) (r : Ref) : Ends K r := by
  by_cases hc : ∃ r', Child K r r'
  · obtain ⟨r', hc⟩ := hc
    cases hc with
    | base hk | layer hk _ =>
      rw [hB.layered, List.getElem?_map] at hk
      obtain ⟨e, he, _⟩ := Option.map_eq_some_iff.1 hk
      exact h.layered _ (List.getElem?_eq_some_iff.1 he).1
    | tap hk | hold hk => rw [hB.tapHold] at hk; exact h.tapHold _ (List.getElem?_eq_some_iff.1 hk).1
    | tapDance hk _ =>
      rw [hB.tapDance, List.getElem?_map] at hk
      obtain ⟨e, he, _⟩ := Option.map_eq_some_iff.1 hk
      exact h.tapDance _ (List.getElem?_eq_some_iff.1 he).1
    | chord hk _ | passthrough hk => rw [hB.chorded] at hk; exact h.chorded _ (List.getElem?_eq_some_iff.1 hk).1
    | aux hk => rw [hB.chordedAux] at hk; exact h.chordedAux _ (List.getElem?_eq_some_iff.1 hk).1
  · exact .of_no_child fun r' hr' => hc ⟨r', hr'⟩

end

theorem leads_trans {K : Keys} {a b c : Ref} (h : Leads K a b) (h' : Leads K b c) : Leads K a c := by
  induction h with
  | refl => exact h'
  | step hc _ ih => exact .step hc (ih h')

/-- A reference from which following references ends is on no cycle. -/
theorem Ends.no_cycle {K : Keys} {r : Ref} (h : Ends K r) : ∀ r', Child K r r' → ¬ Leads K r' r := by
  induction h with
  | intro r _ ih =>
    intro r' hc hl
    cases hl with
    | refl => exact ih r hc r hc (.refl r)
    | step hc' hl' => exact ih r' hc _ hc' (leads_trans hl' (.step hc (.refl r')))

end Verif.Codegen
