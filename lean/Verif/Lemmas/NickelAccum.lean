import Verif.Lemmas.NickelBack
import Verif.Spec.Source

/-!
# Numbering the macros of records numbers the macros of the keys
-/

namespace Verif.Nickel

open Codegen (NKey Leaf Macro)

mutual

/-- What is said tidily is said. -/
theorem _root_.Verif.Codegen.NKey.Says.mono : ∀ {k : NKey} {v : Val}, k.Says true v → k.Says false v
  | .leaf l, v, h => by
    simp only [NKey.Says] at h ⊢
    cases h with
    | automation hm h =>
      obtain ⟨fs, rfl, _, rest⟩ := hm
      exact .automation ⟨fs, rfl, by simp, rest⟩ h
    | compiled hm h => exact .compiled hm h
    | callback hm h => exact .callback hm h
    | capsWord => exact .capsWord
    | consumer h => exact .consumer h
    | custom h => exact .custom h
    | keyCode h => exact .keyCode h
    | modifiers hm h => exact .modifiers hm h
    | keyCodeModifiers hm h => exact .keyCodeModifiers hm h
    | layerModifier hm h => exact .layerModifier hm h
    | mouse hm h => exact .mouse hm h
    | sticky hm h => exact .sticky hm h
  | .hold t hk, v, h => by
    simp only [NKey.Says] at h ⊢
    obtain ⟨fs, w, h0, h1, h2, h3, h4, h5⟩ := h
    exact ⟨fs, w, h0, h1, h2, h3, h4.mono, h5.mono⟩
  | .dances t ds, v, h => by
    simp only [NKey.Says] at h ⊢
    obtain ⟨fs, w, h0, h1, h2, h4, h5⟩ := h
    exact ⟨fs, w, h0, h1, h2, h4.mono, h5.mono⟩
  | .layered t ds, v, h => by
    simp only [NKey.Says] at h ⊢
    obtain ⟨fs, w, h0, h1, h4, h5⟩ := h
    exact ⟨fs, w, h0, h1, h4.mono, h5.mono⟩
  | .chorded cs p, v, h => by
    simp only [NKey.Says] at h ⊢
    obtain ⟨vs, w, h0, h1, h4⟩ := h
    exact ⟨vs, w, h0, h1.mono, h4.mono⟩
  | .aux p, v, h => by
    simp only [NKey.Says] at h ⊢
    obtain ⟨w, h0, h4⟩ := h
    exact ⟨w, h0, h4.mono⟩

theorem AllSay.mono : ∀ {ks : List NKey} {vs : List Val}, AllSay true ks vs → AllSay false ks vs
  | [], vs, h => by simpa [AllSay] using h
  | k :: ks, vs, h => by
    simp only [AllSay] at h ⊢
    obtain ⟨v, rest, h0, h1, h2⟩ := h
    exact ⟨v, rest, h0, h1.mono, h2.mono⟩

theorem LayersSay.mono : ∀ {ks : List (Option NKey)} {vs : List Val}, LayersSay true ks vs → LayersSay false ks vs
  | [], vs, h => by simpa [LayersSay] using h
  | none :: ks, vs, h => by
    simp only [LayersSay] at h ⊢
    obtain ⟨rest, h0, h2⟩ := h
    exact ⟨rest, h0, h2.mono⟩
  | some k :: ks, vs, h => by
    simp only [LayersSay] at h ⊢
    obtain ⟨v, rest, h0, h1, h2⟩ := h
    exact ⟨v, rest, h0, h1.mono, h2.mono⟩

theorem ChordsSay.mono : ∀ {ks : List (Nat × NKey)} {vs : List Val}, ChordsSay true ks vs → ChordsSay false ks vs
  | [], vs, h => by simpa [ChordsSay] using h
  | (i, k) :: ks, vs, h => by
    simp only [ChordsSay] at h ⊢
    obtain ⟨v, rest, h0, h1, h2⟩ := h
    exact ⟨v, rest, h0, h1.mono, h2.mono⟩

end

/-! ## One key -/

theorem without_of_none {f : String} {fs : Fields} (h : get f fs = none) : without f fs = fs := by
  rw [get_eq_none] at h
  simp only [without, List.filter_eq_self]
  intro x hx
  simp only [decide_eq_true_eq, ne_eq]
  intro he
  exact h (List.mem_map.2 ⟨x, hx, he⟩)

/-- The places of a list, as the record that takes its place. -/
def place (s l : Nat) : Val := .record [("length", .num l), ("start", .num s)]

theorem place_says (s l : Nat) : PlaceSaid ⟨s, l⟩ (place s l) := (Two.record (by simp)).swap

theorem appendField_of {f : String} {is : List Automation.Instruction} {fs : Fields} (h : ListSaid f is fs) {acc : List Automation.Instruction}
    {accV : List Val} (ha : InstructionsSaid acc accV) :
    ∃ accV', appendField f fs accV = some (accV', place acc.length is.length) ∧ InstructionsSaid (acc ++ is) accV' := by
  rcases h with ⟨vs, h1, h2⟩ | ⟨h1, rfl⟩
  · exact ⟨accV ++ vs, by simp [appendField, h1, place, ha.length, h2.length], ha.append h2⟩
  · exact ⟨accV, by simp [appendField, h1, place, ha.length], by simpa using ha⟩

theorem appendField_back {f : String} {fs : Fields} {accV accV' : List Val} {p : Val} (h : appendField f fs accV = some (accV', p))
    {acc' : List Automation.Instruction} (ha : InstructionsSaid acc' accV') :
    ∃ acc is, acc' = acc ++ is ∧ InstructionsSaid acc accV ∧ ListSaid f is fs ∧ p = place acc.length is.length := by
  unfold appendField at h
  split at h
  · rename_i hg
    simp only [Option.some.injEq, Prod.mk.injEq] at h
    obtain ⟨rfl, rfl⟩ := h
    exact ⟨acc', [], by simp, ha, .inr ⟨hg, rfl⟩, by simp [place, ha.length]⟩
  · rename_i vs hg
    simp only [Option.some.injEq, Prod.mk.injEq] at h
    obtain ⟨rfl, rfl⟩ := h
    obtain ⟨a, b, rfl, h1, h2⟩ := ha.split
    exact ⟨a, b, rfl, h1, .inl ⟨vs, hg, h2⟩, by simp [place, h1.length, h2.length]⟩
  · cases h

theorem places_says (a b c : Automation.Execution) : PlacesSaid ⟨a, b, c⟩
    (.record [("on_press", place a.start a.length), ("on_release", place c.start c.length), ("while_pressed", place b.start b.length)]) := by
  refine ⟨_, place a.start a.length, place b.start b.length, place c.start c.length, rfl, ?_, ?_, ?_, ?_, place_says _ _, place_says _ _, place_says _ _⟩
  · intro n hn; simp [names] at hn ⊢; rcases hn with h | h | h <;> simp [h]
  all_goals simp [get_cons]

theorem transform_none {v : Val} (h : pat "automation_instructions" v = none) (acc : List Val) : transform acc v = some (acc, v) := by
  unfold transform
  rw [h]

/-- The numbering leaves records records, and the fields of other names as they were. -/
theorem transform_record {fs : Fields} {acc acc' : List Val} {v' : Val} (h : transform acc (.record fs) = some (acc', v')) :
    ∃ fs', v' = .record fs' ∧ ∀ f, f ≠ "automation_instructions" → get f fs' = get f fs := by
  unfold transform at h
  split at h
  · rename_i gs hp
    simp only [Option.bind_eq_bind, Option.bind_eq_some_iff, Option.pure_def, Option.some.injEq, Prod.mk.injEq] at h
    obtain ⟨a, _, b, _, c, _, _, rfl⟩ := h
    refine ⟨_, rfl, fun f hf => ?_⟩
    obtain ⟨fs', he, ho, _⟩ := pat_iff.1 hp
    cases he
    rw [ho.get_none (by simpa using hf)]
    simp [get_cons, Ne.symm hf]
  · cases h
  · simp only [Option.some.injEq, Prod.mk.injEq] at h
    exact ⟨fs, h.2.symm, fun _ _ => rfl⟩

theorem transform_null (acc : List Val) : transform acc .null = some (acc, .null) := rfl

/-- The key is not a numbered macro. -/
def Fresh : NKey → Prop
  | .leaf (.compiled _) => False
  | _ => True

theorem Codegen_transform_of {acc : List Automation.Instruction} {k : NKey} (h : ∀ m, k ≠ .leaf (.automation m)) :
    Codegen.transform acc k = (acc, k) := by
  unfold Codegen.transform
  split
  · exact absurd rfl (h _)
  · rfl

theorem _root_.Verif.Codegen.NKey.Says.macro {t : Bool} {k : NKey} {v x : Val} (h : k.Says t v) (ho : One "automation_instructions" x v) :
    (∃ m, k = .leaf (.automation m) ∧ MacroSaid t m x) ∨ ∃ e, k = .leaf (.compiled e) ∧ PlacesSaid e x := by
  obtain ⟨fs, rfl, hon, hg⟩ := ho
  have ho : One "automation_instructions" x (.record fs) := ⟨fs, rfl, hon, hg⟩
  match k with
  | .leaf l =>
    simp only [NKey.Says] at h
    cases h with
    | automation hm h => rw [h.eq ho] at hm; exact .inl ⟨_, rfl, hm⟩
    | compiled hm h => rw [h.eq ho] at hm; exact .inr ⟨_, rfl, hm⟩
    | keyCodeModifiers hm h => exact absurd ho (h.one (by simp))
    | callback hm h => exact absurd ho (h.ne (by simp))
    | consumer h => exact absurd ho (h.ne (by simp))
    | custom h => exact absurd ho (h.ne (by simp))
    | keyCode h => exact absurd ho (h.ne (by simp))
    | modifiers hm h => exact absurd ho (h.ne (by simp))
    | layerModifier hm h => exact absurd ho (h.ne (by simp))
    | mouse hm h => exact absurd ho (h.ne (by simp))
    | sticky hm h => exact absurd ho (h.ne (by simp))
  | .hold _ _ =>
    simp only [NKey.Says] at h
    obtain ⟨fs', w, he, _, _, h3, _⟩ := h
    cases he
    rw [hon.get_none (by simp)] at h3; cases h3
  | .dances _ _ =>
    simp only [NKey.Says] at h
    obtain ⟨fs', w, he, _, h3, _⟩ := h
    cases he
    rw [hon.get_none (by simp)] at h3; cases h3
  | .layered _ _ =>
    simp only [NKey.Says] at h
    obtain ⟨fs', w, he, h3, _⟩ := h
    cases he
    rw [hon.get_none (by simp)] at h3; cases h3
  | .chorded _ _ =>
    simp only [NKey.Says] at h
    obtain ⟨vs, w, h, _⟩ := h
    exact absurd ho (h.one (by simp))
  | .aux _ =>
    simp only [NKey.Says] at h
    obtain ⟨w, h, _⟩ := h
    exact absurd ho (h.ne (by simp))

theorem transform_says {t : Bool} {k : NKey} {v : Val} (h : k.Says t v) (hk : Fresh k) {acc : List Automation.Instruction} {accV : List Val}
    (ha : InstructionsSaid acc accV) :
    ∃ accV' v', transform accV v = some (accV', v') ∧ (Codegen.transform acc k).2.Says t v' ∧ InstructionsSaid (Codegen.transform acc k).1 accV' := by
  cases hp : pat "automation_instructions" v with
  | none =>
    refine ⟨accV, v, transform_none hp _, ?_⟩
    rw [Codegen_transform_of]
    · exact ⟨h, ha⟩
    · rintro m rfl
      simp only [NKey.Says] at h
      cases h with
      | automation _ h => rw [pat_iff.2 h] at hp; cases hp
  | some x =>
    rcases h.macro (pat_iff.1 hp) with ⟨m, rfl, hm⟩ | ⟨e, rfl, _⟩
    · obtain ⟨fs, rfl, _, h1, h2, h3⟩ := hm
      obtain ⟨a, a1, a2⟩ := appendField_of h1 ha
      obtain ⟨b, b1, b2⟩ := appendField_of h2 a2
      obtain ⟨c, c1, c2⟩ := appendField_of h3 b2
      refine ⟨c, .record [("automation_instructions", .record [("on_press", place acc.length m.onPress.length),
        ("on_release", place (acc ++ m.onPress ++ m.whilePressed).length m.onRelease.length),
        ("while_pressed", place (acc ++ m.onPress).length m.whilePressed.length)])], ?_, ?_, ?_⟩
      · unfold transform
        rw [hp]
        simp [a1, b1, c1]
      · simp only [Codegen.transform, Codegen.append, NKey.Says]
        exact .compiled (places_says _ _ _) One.record
      · simpa [Codegen.transform, Codegen.append] using c2
    · exact absurd hk (by simp [Fresh])

theorem transform_back {v v' : Val} {accV accV' : List Val} (h : transform accV v = some (accV', v')) {k' : NKey} (hk : k'.Says true v')
    {acc' : List Automation.Instruction} (ha : InstructionsSaid acc' accV') :
    ∃ acc k, InstructionsSaid acc accV ∧ k.Says false v ∧ Codegen.transform acc k = (acc', k') ∧ ((∃ m, k = .leaf (.automation m)) ∨ k = k' ∧ v = v') := by
  unfold transform at h
  split at h
  · rename_i fs hp
    simp only [Option.bind_eq_bind, Option.bind_eq_some_iff, Option.pure_def, Option.some.injEq, Prod.mk.injEq, Prod.exists] at h
    obtain ⟨a, pa, h1, b, pb, h2, c, pc, h3, rfl, rfl⟩ := h
    obtain ⟨acc2, r, rfl, i2, l2, rfl⟩ := appendField_back h3 ha
    obtain ⟨acc1, w, rfl, i1, l1, rfl⟩ := appendField_back h2 i2
    obtain ⟨acc0, p, rfl, i0, l0, rfl⟩ := appendField_back h1 i1
    refine ⟨acc0, .leaf (.automation ⟨p, w, r⟩), i0, ?_, ?_, .inl ⟨_, rfl⟩⟩
    · simp only [NKey.Says]
      exact .automation ⟨fs, rfl, by simp, l0, l1, l2⟩ (pat_iff.1 hp)
    · have hs : (Codegen.NKey.leaf (.compiled ⟨⟨acc0.length, p.length⟩, ⟨(acc0 ++ p).length, w.length⟩, ⟨(acc0 ++ p ++ w).length, r.length⟩⟩)).Says true
          (.record [("automation_instructions", .record [("on_press", place acc0.length p.length), ("on_release", place (acc0 ++ p ++ w).length r.length),
            ("while_pressed", place (acc0 ++ p).length w.length)])]) := by
        simp only [NKey.Says]
        exact .compiled (places_says _ _ _) One.record
      rw [Says.unique hk hs]
      rfl
  · cases h
  · rename_i hp
    simp only [Option.some.injEq, Prod.mk.injEq] at h
    obtain ⟨rfl, rfl⟩ := h
    refine ⟨acc', k', ha, hk.mono, Codegen_transform_of ?_, .inr ⟨rfl, rfl⟩⟩
    rintro m rfl
    simp only [NKey.Says] at hk
    cases hk with
    | automation _ h => rw [pat_iff.2 h] at hp; cases hp

/-! ## Lists of keys -/

def AllFresh : List NKey → Prop
  | [] => True
  | k :: ks => Fresh k ∧ AllFresh ks

def LayersFresh : List (Option NKey) → Prop
  | [] => True
  | none :: ks => LayersFresh ks
  | some k :: ks => Fresh k ∧ LayersFresh ks

def ChordsFresh : List (Nat × NKey) → Prop
  | [] => True
  | (_, k) :: ks => Fresh k ∧ ChordsFresh ks

theorem transformAll_says {t : Bool} : ∀ {ks : List NKey} {vs : List Val}, AllSay t ks vs → AllFresh ks → ∀ {acc : List Automation.Instruction}
    {accV : List Val}, InstructionsSaid acc accV → ∃ accV' vs', transformAll accV vs = some (accV', vs') ∧ AllSay t (Codegen.transformAll acc ks).2 vs' ∧
      InstructionsSaid (Codegen.transformAll acc ks).1 accV'
  | [], vs, h, _, acc, accV, ha => by
    simp only [AllSay] at h; subst h
    exact ⟨accV, [], rfl, by simp [Codegen.transformAll, AllSay], ha⟩
  | k :: ks, vs, h, hf, acc, accV, ha => by
    simp only [AllSay] at h
    obtain ⟨v, rest, rfl, h1, h2⟩ := h
    obtain ⟨a, v', a1, a2, a3⟩ := transform_says h1 hf.1 ha
    obtain ⟨b, vs', b1, b2, b3⟩ := transformAll_says h2 hf.2 a3
    refine ⟨b, v' :: vs', by simp [transformAll, a1, b1], ?_, ?_⟩
    · simp only [Codegen.transformAll, AllSay]; exact ⟨v', vs', rfl, a2, b2⟩
    · simpa only [Codegen.transformAll] using b3

theorem transformLayers_says {t : Bool} : ∀ {ks : List (Option NKey)} {vs : List Val}, LayersSay t ks vs → LayersFresh ks →
    ∀ {acc : List Automation.Instruction} {accV : List Val}, InstructionsSaid acc accV → ∃ accV' vs', transformAll accV vs = some (accV', vs') ∧
      LayersSay t (Codegen.transformLayers acc ks).2 vs' ∧ InstructionsSaid (Codegen.transformLayers acc ks).1 accV'
  | [], vs, h, _, acc, accV, ha => by
    simp only [LayersSay] at h; subst h
    exact ⟨accV, [], rfl, by simp [Codegen.transformLayers, LayersSay], ha⟩
  | none :: ks, vs, h, hf, acc, accV, ha => by
    simp only [LayersSay] at h
    obtain ⟨rest, rfl, h2⟩ := h
    obtain ⟨b, vs', b1, b2, b3⟩ := transformLayers_says h2 hf ha
    refine ⟨b, .null :: vs', by simp [transformAll, transform_null, b1], ?_, ?_⟩
    · simp only [Codegen.transformLayers, LayersSay]; exact ⟨vs', rfl, b2⟩
    · simpa only [Codegen.transformLayers] using b3
  | some k :: ks, vs, h, hf, acc, accV, ha => by
    simp only [LayersSay] at h
    obtain ⟨v, rest, rfl, h1, h2⟩ := h
    obtain ⟨a, v', a1, a2, a3⟩ := transform_says h1 hf.1 ha
    obtain ⟨b, vs', b1, b2, b3⟩ := transformLayers_says h2 hf.2 a3
    refine ⟨b, v' :: vs', by simp [transformAll, a1, b1], ?_, ?_⟩
    · simp only [Codegen.transformLayers, LayersSay]; exact ⟨v', vs', rfl, a2, b2⟩
    · simpa only [Codegen.transformLayers] using b3

theorem transformChords_says {t : Bool} : ∀ {ks : List (Nat × NKey)} {vs : List Val}, ChordsSay t ks vs → ChordsFresh ks →
    ∀ {acc : List Automation.Instruction} {accV : List Val}, InstructionsSaid acc accV → ∃ accV' vs', transformPairs accV vs = some (accV', vs') ∧
      ChordsSay t (Codegen.transformChords acc ks).2 vs' ∧ InstructionsSaid (Codegen.transformChords acc ks).1 accV'
  | [], vs, h, _, acc, accV, ha => by
    simp only [ChordsSay] at h; subst h
    exact ⟨accV, [], rfl, by simp [Codegen.transformChords, ChordsSay], ha⟩
  | (i, k) :: ks, vs, h, hf, acc, accV, ha => by
    simp only [ChordsSay] at h
    obtain ⟨v, rest, rfl, h1, h2⟩ := h
    obtain ⟨a, v', a1, a2, a3⟩ := transform_says h1 hf.1 ha
    obtain ⟨b, vs', b1, b2, b3⟩ := transformChords_says h2 hf.2 a3
    refine ⟨b, .arr [.num i, v'] :: vs', by simp [transformPairs, a1, b1], ?_, ?_⟩
    · simp only [Codegen.transformChords, ChordsSay]; exact ⟨v', vs', rfl, a2, b2⟩
    · simpa only [Codegen.transformChords] using b3

theorem transformAll_back : ∀ {vs vs' : List Val} {accV accV' : List Val}, transformAll accV vs = some (accV', vs') → ∀ {ks' : List NKey},
    AllSay true ks' vs' → ∀ {acc' : List Automation.Instruction}, InstructionsSaid acc' accV' →
    ∃ acc ks, InstructionsSaid acc accV ∧ AllSay false ks vs ∧ Codegen.transformAll acc ks = (acc', ks')
  | [], vs', accV, accV', h, ks', hk, acc', ha => by
    simp only [transformAll, Option.some.injEq, Prod.mk.injEq] at h
    obtain ⟨rfl, rfl⟩ := h
    cases ks' with
    | nil => exact ⟨acc', [], ha, by simp [AllSay], rfl⟩
    | cons k ks => simp [AllSay] at hk
  | v :: vs, vs', accV, accV', h, ks', hk, acc', ha => by
    simp only [transformAll, Option.bind_eq_bind, Option.bind_eq_some_iff, Option.pure_def, Option.some.injEq, Prod.mk.injEq, Prod.exists] at h
    obtain ⟨a, w, h1, b, ws, h2, rfl, rfl⟩ := h
    cases ks' with
    | nil => simp [AllSay] at hk
    | cons k' ks' =>
      simp only [AllSay] at hk
      obtain ⟨_, _, he, hk1, hk2⟩ := hk
      cases he
      obtain ⟨acc1, ks, i1, s1, e1⟩ := transformAll_back h2 hk2 ha
      obtain ⟨acc0, k, i0, s0, e0, _⟩ := transform_back h1 hk1 i1
      exact ⟨acc0, k :: ks, i0, by simp only [AllSay]; exact ⟨v, vs, rfl, s0, s1⟩, by simp [Codegen.transformAll, e0, e1]⟩

theorem transformLayers_back : ∀ {vs vs' : List Val} {accV accV' : List Val}, transformAll accV vs = some (accV', vs') → ∀ {ks' : List (Option NKey)},
    LayersSay true ks' vs' → ∀ {acc' : List Automation.Instruction}, InstructionsSaid acc' accV' →
    ∃ acc ks, InstructionsSaid acc accV ∧ LayersSay false ks vs ∧ Codegen.transformLayers acc ks = (acc', ks')
  | [], vs', accV, accV', h, ks', hk, acc', ha => by
    simp only [transformAll, Option.some.injEq, Prod.mk.injEq] at h
    obtain ⟨rfl, rfl⟩ := h
    cases ks' with
    | nil => exact ⟨acc', [], ha, by simp [LayersSay], rfl⟩
    | cons k ks => cases k <;> simp [LayersSay] at hk
  | v :: vs, vs', accV, accV', h, ks', hk, acc', ha => by
    simp only [transformAll, Option.bind_eq_bind, Option.bind_eq_some_iff, Option.pure_def, Option.some.injEq, Prod.mk.injEq, Prod.exists] at h
    obtain ⟨a, w, h1, b, ws, h2, rfl, rfl⟩ := h
    cases ks' with
    | nil => simp [LayersSay] at hk
    | cons k' ks' =>
      cases k' with
      | none =>
        simp only [LayersSay] at hk
        obtain ⟨_, he, hk2⟩ := hk
        cases he
        obtain ⟨acc1, ks, i1, s1, e1⟩ := transformLayers_back h2 hk2 ha
        have hv : v = .null ∧ a = accV := by
          unfold transform at h1
          split at h1
          · simp only [Option.bind_eq_bind, Option.bind_eq_some_iff, Option.pure_def, Option.some.injEq, Prod.mk.injEq, reduceCtorEq, and_false, exists_false] at h1
          · cases h1
          · simp only [Option.some.injEq, Prod.mk.injEq] at h1
            exact ⟨h1.2, h1.1.symm⟩
        obtain ⟨rfl, rfl⟩ := hv
        exact ⟨acc1, none :: ks, i1, by simp only [LayersSay]; exact ⟨vs, rfl, s1⟩, by simp [Codegen.transformLayers, e1]⟩
      | some k' =>
        simp only [LayersSay] at hk
        obtain ⟨_, _, he, hk1, hk2⟩ := hk
        cases he
        obtain ⟨acc1, ks, i1, s1, e1⟩ := transformLayers_back h2 hk2 ha
        obtain ⟨acc0, k, i0, s0, e0, _⟩ := transform_back h1 hk1 i1
        exact ⟨acc0, some k :: ks, i0, by simp only [LayersSay]; exact ⟨v, vs, rfl, s0, s1⟩, by simp [Codegen.transformLayers, e0, e1]⟩

theorem transformChords_back : ∀ {vs vs' : List Val} {accV accV' : List Val}, transformPairs accV vs = some (accV', vs') → ∀ {ks' : List (Nat × NKey)},
    ChordsSay true ks' vs' → ∀ {acc' : List Automation.Instruction}, InstructionsSaid acc' accV' →
    ∃ acc ks, InstructionsSaid acc accV ∧ ChordsSay false ks vs ∧ Codegen.transformChords acc ks = (acc', ks')
  | [], vs', accV, accV', h, ks', hk, acc', ha => by
    simp only [transformPairs, Option.some.injEq, Prod.mk.injEq] at h
    obtain ⟨rfl, rfl⟩ := h
    cases ks' with
    | nil => exact ⟨acc', [], ha, by simp [ChordsSay], rfl⟩
    | cons k ks => simp [ChordsSay] at hk
  | v :: vs, vs', accV, accV', h, ks', hk, acc', ha => by
    unfold transformPairs at h
    split at h
    · simp at *
    · rename_i heq
      simp only [List.cons.injEq] at heq
      obtain ⟨rfl, rfl⟩ := heq
      simp only [Option.bind_eq_bind, Option.bind_eq_some_iff, Option.pure_def, Option.some.injEq, Prod.mk.injEq, Prod.exists] at h
      obtain ⟨a, w, h1, b, ws, h2, rfl, rfl⟩ := h
      cases ks' with
      | nil => simp [ChordsSay] at hk
      | cons k' ks' =>
        obtain ⟨i', k'⟩ := k'
        simp only [ChordsSay] at hk
        obtain ⟨_, _, he, hk1, hk2⟩ := hk
        cases he
        obtain ⟨acc1, ks, i1, s1, e1⟩ := transformChords_back h2 hk2 ha
        obtain ⟨acc0, k, i0, s0, e0, _⟩ := transform_back h1 hk1 i1
        exact ⟨acc0, (i', k) :: ks, i0, by simp only [ChordsSay]; exact ⟨_, _, rfl, s0, s1⟩, by simp [Codegen.transformChords, e0, e1]⟩
    · cases h

/-! ## Keys with keys in them -/

/-- The macros which the numbering comes to are not numbered yet. -/
def Fresh₁ : NKey → Prop
  | .leaf l => Fresh (.leaf l)
  | .hold t h => Fresh t ∧ Fresh h
  | .dances t ds => Fresh t ∧ AllFresh ds
  | .layered b ls => Fresh b ∧ LayersFresh ls
  | .chorded cs p => ChordsFresh cs ∧ Fresh p
  | .aux p => Fresh p

theorem withField_of {f : String} {v : Val} {fs : Fields} (h : get f fs = none) : withField f v (.record fs) = some (.record ((f, v) :: fs)) := by
  rw [get_eq_none] at h
  simp [withField, h]

theorem withField_eq {f : String} {v w x : Val} (h : withField f v w = some x) : ∃ fs, w = .record fs ∧ get f fs = none ∧ x = .record ((f, v) :: fs) := by
  cases w <;> simp only [withField, reduceCtorEq] at h
  rename_i fs
  split at h
  · cases h
  · rename_i hn
    simp only [Option.some.injEq] at h
    exact ⟨fs, rfl, get_eq_none.2 (by simpa using hn), h.symm⟩

theorem without_head {f : String} {v : Val} {fs : Fields} (h : get f fs = none) : without f ((f, v) :: fs) = fs := by
  have : without f ((f, v) :: fs) = without f fs := by simp [without]
  rw [this, without_of_none h]

theorem accum_says {k : NKey} {v : Val} (h : k.Says true v) (hk : Fresh₁ k) {acc : List Automation.Instruction} {accV : List Val}
    (ha : InstructionsSaid acc accV) :
    ∃ accV' v', (kind k).accum accV v = some (accV', v') ∧ (Codegen.mapAccum acc k).2.Says true v' ∧ InstructionsSaid (Codegen.mapAccum acc k).1 accV' := by
  match k with
  | .leaf l =>
    have hl : (kind (.leaf l)).accum accV v = transform accV v := by cases l <;> rfl
    rw [hl]
    exact transform_says h hk ha
  | .hold t hh =>
    simp only [NKey.Says] at h
    obtain ⟨fs, w, rfl, h1, h2, h3, h4, h5⟩ := h
    obtain ⟨a, v1, a1, a2, a3⟩ := transform_says h4 hk.1 ha
    obtain ⟨b, v2, b1, b2, b3⟩ := transform_says h5 hk.2 a3
    obtain ⟨fs', rfl, hg⟩ := transform_record a1
    have hn : get "hold" fs' = none := by rw [hg _ (by simp), get_without_self]
    refine ⟨b, .record (("hold", v2) :: fs'), ?_, ?_, ?_⟩
    · simp [kind, Mod.accum, patRest, h3, a1, b1, withField_of hn]
    · simp only [Codegen.mapAccum, NKey.Says]
      refine ⟨_, v2, rfl, ?_, ?_, ?_, ?_, b2⟩
      · simp only [get_cons]; rw [if_neg (by simp), hg _ (by simp), get_without (by simp), h1]
      · simp only [get_cons]; rw [if_neg (by simp), hg _ (by simp), get_without (by simp), h2]
      · simp [get_cons]
      · rw [without_head hn]; exact a2
    · simpa only [Codegen.mapAccum] using b3
  | .dances t ds =>
    simp only [NKey.Says] at h
    obtain ⟨fs, vs, rfl, h1, h3, h4, h5⟩ := h
    obtain ⟨a, vs', a1, a2, a3⟩ := transformAll_says h5 hk.2 ha
    obtain ⟨b, v2, b1, b2, b3⟩ := transform_says h4 hk.1 a3
    obtain ⟨fs', rfl, hg⟩ := transform_record b1
    have hn : get "tap_dances" fs' = none := by rw [hg _ (by simp), get_without_self]
    refine ⟨b, .record (("tap_dances", .arr vs') :: fs'), ?_, ?_, ?_⟩
    · simp [kind, Mod.accum, patRest, h3, a1, b1, withField_of hn]
    · simp only [Codegen.mapAccum, NKey.Says]
      refine ⟨_, vs', rfl, ?_, ?_, ?_, a2⟩
      · simp only [get_cons]; rw [if_neg (by simp), hg _ (by simp), get_without (by simp), h1]
      · simp [get_cons]
      · rw [without_head hn]; exact b2
    · simpa only [Codegen.mapAccum] using b3
  | .layered t ds =>
    simp only [NKey.Says] at h
    obtain ⟨fs, vs, rfl, h3, h4, h5⟩ := h
    obtain ⟨a, vs', a1, a2, a3⟩ := transformLayers_says h5 hk.2 ha
    obtain ⟨b, v2, b1, b2, b3⟩ := transform_says h4 hk.1 a3
    obtain ⟨fs', rfl, hg⟩ := transform_record b1
    have hn : get "layered" fs' = none := by rw [hg _ (by simp), get_without_self]
    refine ⟨b, .record (("layered", .arr vs') :: fs'), ?_, ?_, ?_⟩
    · simp [kind, Mod.accum, patRest, h3, a1, b1, withField_of hn]
    · simp only [Codegen.mapAccum, NKey.Says]
      refine ⟨_, vs', rfl, ?_, ?_, a2⟩
      · simp [get_cons]
      · rw [without_head hn]; exact b2
    · simpa only [Codegen.mapAccum] using b3
  | .chorded cs p =>
    simp only [NKey.Says] at h
    obtain ⟨vs, w, h3, h4, h5⟩ := h
    obtain ⟨a, vs', a1, a2, a3⟩ := transformChords_says h4 hk.1 ha
    obtain ⟨b, v2, b1, b2, b3⟩ := transform_says h5 hk.2 a3
    refine ⟨b, .record [("chords", .arr vs'), ("passthrough", v2)], ?_, ?_, ?_⟩
    · simp [kind, Mod.accum, pat₂_iff.2 h3, a1, b1]
    · simp only [Codegen.mapAccum, NKey.Says]
      exact ⟨vs', v2, Two.record (by simp), a2, b2⟩
    · simpa only [Codegen.mapAccum] using b3
  | .aux p =>
    simp only [NKey.Says] at h
    obtain ⟨w, h3, h5⟩ := h
    obtain ⟨b, v2, b1, b2, b3⟩ := transform_says h5 hk ha
    refine ⟨b, .record [("passthrough", v2)], ?_, ?_, ?_⟩
    · simp [kind, Mod.accum, pat_iff.2 h3, b1]
    · simp only [Codegen.mapAccum, NKey.Says]
      exact ⟨v2, One.record, b2⟩
    · simpa only [Codegen.mapAccum] using b3

/-- A record which still says a layered key was one of a layered key. -/
theorem not_layered {m : Mod} {fs fs' : Fields} (hm : moduleFor (.record fs) = some m) (hr : 9 < m.rank) {k : NKey} (hk : k.Says true (.record fs'))
    (hg : get "layered" fs' = get "layered" fs) : get "layered" fs' = none := by
  cases h : get "layered" fs' with
  | none => rfl
  | some x =>
    exfalso
    obtain ⟨b, ls, rfl⟩ := get_layered_some hk h
    simp only [NKey.Says] at hk
    obtain ⟨_, vs, he, h1, _, h2⟩ := hk
    cases he
    rw [hg] at h1
    have := moduleFor_first hm (m' := .layered) (by simp only [Mod.accepts, patRest, h1, Option.map_some, both_eq, says_layers _ _ h2])
    simp only [Mod.rank] at this hr
    omega

theorem not_dances {m : Mod} {fs fs' : Fields} (hm : moduleFor (.record fs) = some m) (hr : 12 < m.rank) {k : NKey} (hk : k.Says true (.record fs'))
    (hl : get "layered" fs' = none) (hg : get "tap_dances" fs' = get "tap_dances" fs) : get "tap_dances" fs' = none := by
  cases h : get "tap_dances" fs' with
  | none => rfl
  | some x =>
    exfalso
    obtain ⟨b, ls, rfl⟩ := get_dances_some hk hl h
    simp only [NKey.Says] at hk
    obtain ⟨_, vs, he, _, h1, _, h2⟩ := hk
    cases he
    rw [hg] at h1
    have := moduleFor_first hm (m' := .tapDance) (by simp only [Mod.accepts, patRest, h1, Option.map_some, both_eq, says_modules _ _ h2])
    simp only [Mod.rank] at this hr
    omega

theorem accum_back {m : Mod} {v v' : Val} {accV accV' : List Val} (hm : moduleFor v = some m) (h : m.accum accV v = some (accV', v')) {k' : NKey}
    (hk : k'.Says true v') {acc' : List Automation.Instruction} (ha : InstructionsSaid acc' accV') :
    ∃ acc k, InstructionsSaid acc accV ∧ k.Says false v ∧ Codegen.mapAccum acc k = (acc', k') := by
  have leafy : (∀ k : NKey, kind k = m → ∃ l, k = .leaf l) → transform accV v = some (accV', v') →
      ∃ acc k, InstructionsSaid acc accV ∧ k.Says false v ∧ Codegen.mapAccum acc k = (acc', k') := by
    intro hl ht
    obtain ⟨acc, k, i, s, e, hc⟩ := transform_back ht hk ha
    rcases hc with ⟨mm, rfl⟩ | ⟨rfl, rfl⟩
    · exact ⟨acc, _, i, s, e⟩
    · have := says_module _ _ hk
      rw [hm] at this
      obtain ⟨l, rfl⟩ := hl k (Option.some.inj this).symm
      exact ⟨acc, _, i, s, e⟩
  have lf : ∀ m : Mod, m.isOpen = false → m ≠ .chorded → m ≠ .chordedAux → ∀ k : NKey, kind k = m → ∃ l, k = .leaf l := by
    intro m h1 h2 h3 k hk
    subst hk
    cases k with
    | leaf l => exact ⟨l, rfl⟩
    | hold _ _ => cases h1
    | dances _ _ => cases h1
    | layered _ _ => cases h1
    | chorded _ _ => exact absurd rfl h2
    | aux _ => exact absurd rfl h3
  cases m
  case chorded =>
    simp only [Mod.accum, Option.bind_eq_bind, Option.bind_eq_some_iff, Prod.exists] at h
    obtain ⟨cs, p, h1, h⟩ := h
    split at h
    · rename_i cs
      simp only [Option.bind_eq_some_iff, Prod.exists, Option.pure_def, Option.some.injEq, Prod.mk.injEq] at h
      obtain ⟨a, cs', h2, b, p', h3, rfl, rfl⟩ := h
      obtain ⟨_, _, rfl⟩ := get_chords_some hk (Two.record (by simp))
      simp only [NKey.Says] at hk
      obtain ⟨vs, w, ht, hk1, hk2⟩ := hk
      obtain ⟨he, rfl⟩ := ht.eq (Two.record (by simp))
      cases he
      obtain ⟨acc1, p0, i1, s1, e1, _⟩ := transform_back h3 hk2 ha
      obtain ⟨acc0, cs0, i0, s0, e0⟩ := transformChords_back h2 hk1 i1
      exact ⟨acc0, .chorded cs0 p0, i0, by simp only [NKey.Says]; exact ⟨cs, p, pat₂_iff.1 h1, s0, s1⟩, by simp [Codegen.mapAccum, e0, e1]⟩
    · cases h
  case chordedAux =>
    simp only [Mod.accum, Option.bind_eq_bind, Option.bind_eq_some_iff, Prod.exists, Option.pure_def, Option.some.injEq, Prod.mk.injEq] at h
    obtain ⟨p, h1, b, p', h3, rfl, rfl⟩ := h
    obtain ⟨_, rfl⟩ := get_aux_some hk One.record
    simp only [NKey.Says] at hk
    obtain ⟨w, ht, hk2⟩ := hk
    cases ht.eq One.record
    obtain ⟨acc1, p0, i1, s1, e1, _⟩ := transform_back h3 hk2 ha
    exact ⟨acc1, .aux p0, i1, by simp only [NKey.Says]; exact ⟨p, pat_iff.1 h1, s1⟩, by simp [Codegen.mapAccum, e1]⟩
  case layered =>
    simp only [Mod.accum, Option.bind_eq_bind, Option.bind_eq_some_iff, Prod.exists] at h
    obtain ⟨cs, p, h1, h⟩ := h
    split at h
    · rename_i cs
      simp only [Option.bind_eq_some_iff, Prod.exists, Option.pure_def, Option.some.injEq, Prod.mk.injEq] at h
      obtain ⟨a, cs', h2, b, p', h3, x, hx, rfl, rfl⟩ := h
      obtain ⟨fs', rfl, hn, rfl⟩ := withField_eq hx
      obtain ⟨fs, rfl, hg, rfl⟩ := patRest_eq h1
      obtain ⟨_, _, rfl⟩ := get_layered_some hk (x := .arr cs') (by simp [get_cons])
      simp only [NKey.Says] at hk
      obtain ⟨_, vs, he, hg', hk1, hk2⟩ := hk
      cases he
      rw [without_head hn] at hk1
      simp only [get_cons, if_true, Option.some.injEq, Val.arr.injEq] at hg'
      subst hg'
      obtain ⟨acc1, p0, i1, s1, e1, _⟩ := transform_back h3 hk1 ha
      obtain ⟨acc0, cs0, i0, s0, e0⟩ := transformLayers_back h2 hk2 i1
      exact ⟨acc0, .layered p0 cs0, i0, by simp only [NKey.Says]; exact ⟨fs, cs, rfl, hg, s1, s0⟩, by simp [Codegen.mapAccum, e0, e1]⟩
    · cases h
  case tapDance =>
    simp only [Mod.accum, Option.bind_eq_bind, Option.bind_eq_some_iff, Prod.exists] at h
    obtain ⟨cs, p, h1, h⟩ := h
    split at h
    · rename_i cs
      simp only [Option.bind_eq_some_iff, Prod.exists, Option.pure_def, Option.some.injEq, Prod.mk.injEq] at h
      obtain ⟨a, cs', h2, b, p', h3, x, hx, rfl, rfl⟩ := h
      obtain ⟨fs', rfl, hn, rfl⟩ := withField_eq hx
      obtain ⟨fs, rfl, hg, rfl⟩ := patRest_eq h1
      obtain ⟨fs'', he, hgs⟩ := transform_record h3
      cases he
      have hl : get "layered" (("tap_dances", Val.arr cs') :: fs') = get "layered" fs := by
        rw [get_cons, if_neg (by simp), hgs _ (by simp), get_without (by simp)]
      have hl' := not_layered hm (by simp [Mod.rank]) hk hl
      obtain ⟨_, _, rfl⟩ := get_dances_some hk hl' (x := .arr cs') (by simp [get_cons])
      simp only [NKey.Says] at hk
      obtain ⟨_, vs, he, _, hg', hk1, hk2⟩ := hk
      cases he
      rw [without_head hn] at hk1
      simp only [get_cons, if_true, Option.some.injEq, Val.arr.injEq] at hg'
      subst hg'
      obtain ⟨acc1, p0, i1, s1, e1, _⟩ := transform_back h3 hk1 ha
      obtain ⟨acc0, cs0, i0, s0, e0⟩ := transformAll_back h2 hk2 i1
      exact ⟨acc0, .dances p0 cs0, i0, by simp only [NKey.Says]; exact ⟨fs, cs, rfl, by rw [← hl, hl'], hg, s1, s0⟩, by simp [Codegen.mapAccum, e0, e1]⟩
    · cases h
  case tapHold =>
    simp only [Mod.accum, Option.bind_eq_bind, Option.bind_eq_some_iff, Prod.exists, Option.pure_def, Option.some.injEq, Prod.mk.injEq] at h
    obtain ⟨hv, p, h1, a, p', h3, b, hv', h2, x, hx, rfl, rfl⟩ := h
    obtain ⟨fs', rfl, hn, rfl⟩ := withField_eq hx
    obtain ⟨fs, rfl, hg, rfl⟩ := patRest_eq h1
    obtain ⟨fs'', he, hgs⟩ := transform_record h3
    cases he
    have hl : get "layered" (("hold", hv') :: fs') = get "layered" fs := by
      rw [get_cons, if_neg (by simp), hgs _ (by simp), get_without (by simp)]
    have hl' := not_layered hm (by simp [Mod.rank]) hk hl
    have hd : get "tap_dances" (("hold", hv') :: fs') = get "tap_dances" fs := by
      rw [get_cons, if_neg (by simp), hgs _ (by simp), get_without (by simp)]
    have hd' := not_dances hm (by simp [Mod.rank]) hk hl' hd
    obtain ⟨_, _, rfl⟩ := get_hold_some hk hl' hd' (x := hv') (by simp [get_cons])
    simp only [NKey.Says] at hk
    obtain ⟨_, w, he, _, _, hg', hk1, hk2⟩ := hk
    cases he
    rw [without_head hn] at hk1
    simp only [get_cons, if_true, Option.some.injEq] at hg'
    subst hg'
    obtain ⟨acc1, h0, i1, s1, e1, _⟩ := transform_back h2 hk2 ha
    obtain ⟨acc0, p0, i0, s0, e0, _⟩ := transform_back h3 hk1 i1
    exact ⟨acc0, .hold p0 h0, i0, by simp only [NKey.Says]; exact ⟨fs, hv, rfl, by rw [← hl, hl'], by rw [← hd, hd'], hg, s0, s1⟩,
      by simp [Codegen.mapAccum, e0, e1]⟩
  all_goals exact leafy (lf _ rfl (by simp) (by simp)) h

/-! ## All keys -/

def AllFresh₁ : List NKey → Prop
  | [] => True
  | k :: ks => Fresh₁ k ∧ AllFresh₁ ks

theorem accumAll_says : ∀ {ks : List NKey} {vs : List Val}, AllSay true ks vs → AllFresh₁ ks → ∀ {acc : List Automation.Instruction}
    {accV : List Val}, InstructionsSaid acc accV → ∃ accV' vs', accumAll accV vs = some (accV', vs') ∧ AllSay true (Codegen.mapAccumAll acc ks).2 vs' ∧
      InstructionsSaid (Codegen.mapAccumAll acc ks).1 accV'
  | [], vs, h, _, acc, accV, ha => by
    simp only [AllSay] at h; subst h
    exact ⟨accV, [], rfl, by simp [Codegen.mapAccumAll, AllSay], ha⟩
  | k :: ks, vs, h, hf, acc, accV, ha => by
    simp only [AllSay] at h
    obtain ⟨v, rest, rfl, h1, h2⟩ := h
    obtain ⟨a, v', a1, a2, a3⟩ := accum_says h1 hf.1 ha
    obtain ⟨b, vs', b1, b2, b3⟩ := accumAll_says h2 hf.2 a3
    refine ⟨b, v' :: vs', by simp [accumAll, says_module _ _ h1, a1, b1], ?_, ?_⟩
    · simp only [Codegen.mapAccumAll, AllSay]; exact ⟨v', vs', rfl, a2, b2⟩
    · simpa only [Codegen.mapAccumAll] using b3

theorem accumAll_back : ∀ {vs vs' : List Val} {accV accV' : List Val}, accumAll accV vs = some (accV', vs') → ∀ {ks' : List NKey},
    AllSay true ks' vs' → ∀ {acc' : List Automation.Instruction}, InstructionsSaid acc' accV' →
    ∃ acc ks, InstructionsSaid acc accV ∧ AllSay false ks vs ∧ Codegen.mapAccumAll acc ks = (acc', ks')
  | [], vs', accV, accV', h, ks', hk, acc', ha => by
    simp only [accumAll, Option.some.injEq, Prod.mk.injEq] at h
    obtain ⟨rfl, rfl⟩ := h
    cases ks' with
    | nil => exact ⟨acc', [], ha, by simp [AllSay], rfl⟩
    | cons k ks => simp [AllSay] at hk
  | v :: vs, vs', accV, accV', h, ks', hk, acc', ha => by
    simp only [accumAll, Option.bind_eq_bind, Option.bind_eq_some_iff, Option.pure_def, Option.some.injEq, Prod.mk.injEq, Prod.exists] at h
    obtain ⟨m, hm, a, w, h1, b, ws, h2, rfl, rfl⟩ := h
    cases ks' with
    | nil => simp [AllSay] at hk
    | cons k' ks' =>
      simp only [AllSay] at hk
      obtain ⟨_, _, he, hk1, hk2⟩ := hk
      cases he
      obtain ⟨acc1, ks, i1, s1, e1⟩ := accumAll_back h2 hk2 ha
      obtain ⟨acc0, k, i0, s0, e0⟩ := accum_back hm h1 hk1 i1
      exact ⟨acc0, k :: ks, i0, by simp only [AllSay]; exact ⟨v, vs, rfl, s0, s1⟩, by simp [Codegen.mapAccumAll, e0, e1]⟩

end Verif.Nickel
