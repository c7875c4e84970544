import Verif.Lemmas.NickelKey

/-!
# The JSON value of a key is read as the key; what is read was said; a value says one thing
-/

namespace Verif.Nickel

open Codegen (JKey NKey Leaf ModRec toJsonAll toJsonLayers toJsonChords)

/-! ## One meaning -/

theorem LeafSaid.not_null {t : Bool} {l : Leaf} : ¬ LeafSaid t l .null := by
  intro h
  cases h <;> rename_i h <;> obtain ⟨fs, h, _⟩ := h <;> cases h

theorem Says.not_null {t : Bool} : ∀ {k : NKey}, ¬ k.Says t .null
  | .leaf l => by simp only [NKey.Says]; exact LeafSaid.not_null
  | .hold _ _ => by simp [NKey.Says]
  | .dances _ _ => by simp [NKey.Says]
  | .layered _ _ => by simp [NKey.Says]
  | .chorded _ _ => by simp [NKey.Says, Two]
  | .aux _ => by simp [NKey.Says, One]

/-- A record with only these fields does not have this one. -/
theorem LeafSaid.get_none {t : Bool} {l : Leaf} {fs : Fields} (h : LeafSaid t l (.record fs)) {g : String}
    (hg : g ∈ ["layered", "tap_dances", "hold", "chords", "passthrough"]) : get g fs = none := by
  have key : ∀ {f : String} {x : Val}, One f x (.record fs) → f ∉ ["layered", "tap_dances", "hold", "chords", "passthrough"] → get g fs = none := by
    rintro f x ⟨fs', he, h1, _⟩ hf
    cases he
    exact h1.get_none (by simp only [List.mem_singleton]; rintro rfl; exact hf hg)
  cases h with
  | keyCodeModifiers _ h =>
    obtain ⟨fs', he, h1, _⟩ := h
    cases he
    refine h1.get_none ?_
    simp only [List.mem_cons, List.not_mem_nil, or_false] at hg ⊢
    rcases hg with rfl | rfl | rfl | rfl | rfl <;> simp
  | _ => exact key ‹One _ _ _› (by simp)

theorem LeafSaid.unique {t t' : Bool} {l l' : Leaf} {v : Val} (h : LeafSaid t l v) (h' : LeafSaid t' l' v) : l = l' := by
  cases h with
  | automation hm h =>
    cases h' with
    | automation hm' h' => rw [← h.eq h'] at hm'; rw [hm.unique hm']
    | compiled hm' h' => rw [← h.eq h'] at hm'; exact absurd hm' hm.not_places
    | capsWord => exact absurd h One.not_str
    | keyCodeModifiers _ h' => exact absurd h (h'.one (by simp))
    | _ => exact absurd ‹One _ _ _› (h.ne (by simp))
  | compiled hm h =>
    cases h' with
    | compiled hm' h' => rw [← h.eq h'] at hm'; rw [hm.unique hm']
    | automation hm' h' => rw [← h.eq h'] at hm'; exact absurd hm hm'.not_places
    | capsWord => exact absurd h One.not_str
    | keyCodeModifiers _ h' => exact absurd h (h'.one (by simp))
    | _ => exact absurd ‹One _ _ _› (h.ne (by simp))
  | callback hm h =>
    cases h' with
    | callback hm' h' => rw [← h.eq h'] at hm'; rw [hm.unique hm']
    | capsWord => exact absurd h One.not_str
    | keyCodeModifiers _ h' => exact absurd h (h'.one (by simp))
    | _ => exact absurd ‹One _ _ _› (h.ne (by simp))
  | capsWord =>
    cases h' with
    | capsWord => rfl
    | keyCodeModifiers _ h' => obtain ⟨_, h, _⟩ := h'; cases h
    | _ => exact absurd ‹One _ _ _› One.not_str
  | consumer h =>
    cases h' with
    | consumer h' => rw [ofByte_inj (h.eq h')]
    | capsWord => exact absurd h One.not_str
    | keyCodeModifiers _ h' => exact absurd h (h'.one (by simp))
    | _ => exact absurd ‹One _ _ _› (h.ne (by simp))
  | custom h =>
    cases h' with
    | custom h' => rw [ofByte_inj (h.eq h')]
    | capsWord => exact absurd h One.not_str
    | keyCodeModifiers _ h' => exact absurd h (h'.one (by simp))
    | _ => exact absurd ‹One _ _ _› (h.ne (by simp))
  | keyCode h =>
    cases h' with
    | keyCode h' => rw [ofByte_inj (h.eq h')]
    | capsWord => exact absurd h One.not_str
    | keyCodeModifiers _ h' => exact absurd h (h'.one (by simp))
    | _ => exact absurd ‹One _ _ _› (h.ne (by simp))
  | modifiers hm h =>
    cases h' with
    | modifiers hm' h' => rw [← h.eq h'] at hm'; rw [hm.unique hm']
    | capsWord => exact absurd h One.not_str
    | keyCodeModifiers _ h' => exact absurd h (h'.one (by simp))
    | _ => exact absurd ‹One _ _ _› (h.ne (by simp))
  | keyCodeModifiers hm h =>
    cases h' with
    | keyCodeModifiers hm' h' => obtain ⟨h1, h2⟩ := h.eq h'; rw [← h2] at hm'; rw [hm.unique hm', ofByte_inj h1]
    | capsWord => obtain ⟨_, h, _⟩ := h; cases h
    | _ => exact absurd ‹One _ _ _› (h.one (by simp))
  | layerModifier hm h =>
    cases h' with
    | layerModifier hm' h' => rw [← h.eq h'] at hm'; rw [hm.unique hm']
    | capsWord => exact absurd h One.not_str
    | keyCodeModifiers _ h' => exact absurd h (h'.one (by simp))
    | _ => exact absurd ‹One _ _ _› (h.ne (by simp))
  | mouse hm h =>
    cases h' with
    | mouse hm' h' => rw [← h.eq h'] at hm'; rw [hm.unique hm']
    | capsWord => exact absurd h One.not_str
    | keyCodeModifiers _ h' => exact absurd h (h'.one (by simp))
    | _ => exact absurd ‹One _ _ _› (h.ne (by simp))
  | sticky hm h =>
    cases h' with
    | sticky hm' h' => rw [← h.eq h'] at hm'; rw [hm.unique hm']
    | capsWord => exact absurd h One.not_str
    | keyCodeModifiers _ h' => exact absurd h (h'.one (by simp))
    | _ => exact absurd ‹One _ _ _› (h.ne (by simp))

theorem get_layered_some {t : Bool} : ∀ {k : NKey} {fs : Fields} {x : Val}, k.Says t (.record fs) → get "layered" fs = some x →
    ∃ b ls, k = .layered b ls
  | .leaf l, fs, x, h, hg => by
    rw [LeafSaid.get_none (by simpa [NKey.Says] using h) (by simp)] at hg; cases hg
  | .hold _ _, fs, x, h, hg => by
    simp only [NKey.Says] at h
    obtain ⟨fs', _, he, h1, _⟩ := h
    cases he; rw [h1] at hg; cases hg
  | .dances _ _, fs, x, h, hg => by
    simp only [NKey.Says] at h
    obtain ⟨fs', _, he, h1, _⟩ := h
    cases he; rw [h1] at hg; cases hg
  | .layered b ls, _, _, _, _ => ⟨b, ls, rfl⟩
  | .chorded _ _, fs, x, h, hg => by
    simp only [NKey.Says] at h
    obtain ⟨_, _, ⟨fs', he, h1, _⟩, _⟩ := h
    cases he; rw [h1.get_none (by simp)] at hg; cases hg
  | .aux _, fs, x, h, hg => by
    simp only [NKey.Says] at h
    obtain ⟨_, ⟨fs', he, h1, _⟩, _⟩ := h
    cases he; rw [h1.get_none (by simp)] at hg; cases hg

theorem get_dances_some {t : Bool} : ∀ {k : NKey} {fs : Fields} {x : Val}, k.Says t (.record fs) → get "layered" fs = none →
    get "tap_dances" fs = some x → ∃ b ls, k = .dances b ls
  | .leaf l, fs, x, h, _, hg => by
    rw [LeafSaid.get_none (by simpa [NKey.Says] using h) (by simp)] at hg; cases hg
  | .hold _ _, fs, x, h, _, hg => by
    simp only [NKey.Says] at h
    obtain ⟨fs', _, he, h1, h2, _⟩ := h
    cases he; rw [h2] at hg; cases hg
  | .dances b ls, _, _, _, _, _ => ⟨b, ls, rfl⟩
  | .layered b ls, fs, x, h, hn, _ => by
    simp only [NKey.Says] at h
    obtain ⟨fs', _, he, h1, _⟩ := h
    cases he; rw [h1] at hn; cases hn
  | .chorded _ _, fs, x, h, _, hg => by
    simp only [NKey.Says] at h
    obtain ⟨_, _, ⟨fs', he, h1, _⟩, _⟩ := h
    cases he; rw [h1.get_none (by simp)] at hg; cases hg
  | .aux _, fs, x, h, _, hg => by
    simp only [NKey.Says] at h
    obtain ⟨_, ⟨fs', he, h1, _⟩, _⟩ := h
    cases he; rw [h1.get_none (by simp)] at hg; cases hg

theorem get_hold_some {t : Bool} : ∀ {k : NKey} {fs : Fields} {x : Val}, k.Says t (.record fs) → get "layered" fs = none →
    get "tap_dances" fs = none → get "hold" fs = some x → ∃ b ls, k = .hold b ls
  | .leaf l, fs, x, h, _, _, hg => by
    rw [LeafSaid.get_none (by simpa [NKey.Says] using h) (by simp)] at hg; cases hg
  | .hold b ls, _, _, _, _, _, _ => ⟨b, ls, rfl⟩
  | .dances b ls, fs, x, h, _, hn, _ => by
    simp only [NKey.Says] at h
    obtain ⟨fs', _, he, _, h1, _⟩ := h
    cases he; rw [h1] at hn; cases hn
  | .layered b ls, fs, x, h, hn, _, _ => by
    simp only [NKey.Says] at h
    obtain ⟨fs', _, he, h1, _⟩ := h
    cases he; rw [h1] at hn; cases hn
  | .chorded _ _, fs, x, h, _, _, hg => by
    simp only [NKey.Says] at h
    obtain ⟨_, _, ⟨fs', he, h1, _⟩, _⟩ := h
    cases he; rw [h1.get_none (by simp)] at hg; cases hg
  | .aux _, fs, x, h, _, _, hg => by
    simp only [NKey.Says] at h
    obtain ⟨_, ⟨fs', he, h1, _⟩, _⟩ := h
    cases he; rw [h1.get_none (by simp)] at hg; cases hg

theorem get_chords_some {t : Bool} : ∀ {k : NKey} {v x y : Val}, k.Says t v → Two "chords" x "passthrough" y v → ∃ b ls, k = .chorded b ls
  | .leaf l, _, _, _, h, ⟨fs, hv, _, hg, _⟩ => by
    subst hv
    rw [LeafSaid.get_none (by simpa [NKey.Says] using h) (by simp)] at hg; cases hg
  | .hold b ls, _, _, _, h, ⟨fs, hv, ho, _, _⟩ => by
    subst hv
    simp only [NKey.Says] at h
    obtain ⟨fs', _, he, _, _, h1, _⟩ := h
    cases he; rw [ho.get_none (by simp)] at h1; cases h1
  | .dances b ls, _, _, _, h, ⟨fs, hv, ho, _, _⟩ => by
    subst hv
    simp only [NKey.Says] at h
    obtain ⟨fs', _, he, _, h1, _⟩ := h
    cases he; rw [ho.get_none (by simp)] at h1; cases h1
  | .layered b ls, _, _, _, h, ⟨fs, hv, ho, _, _⟩ => by
    subst hv
    simp only [NKey.Says] at h
    obtain ⟨fs', _, he, h1, _⟩ := h
    cases he; rw [ho.get_none (by simp)] at h1; cases h1
  | .chorded b ls, _, _, _, _, _ => ⟨b, ls, rfl⟩
  | .aux _, _, _, _, h, h2 => by
    simp only [NKey.Says] at h
    obtain ⟨_, h, _⟩ := h
    exact absurd h (h2.one (by simp))

theorem get_aux_some {t : Bool} : ∀ {k : NKey} {v y : Val}, k.Says t v → One "passthrough" y v → ∃ b, k = .aux b
  | .leaf l, _, _, h, ⟨fs, hv, _, hg⟩ => by
    subst hv
    rw [LeafSaid.get_none (by simpa [NKey.Says] using h) (by simp)] at hg; cases hg
  | .hold b ls, _, _, h, ⟨fs, hv, ho, _⟩ => by
    subst hv
    simp only [NKey.Says] at h
    obtain ⟨fs', _, he, _, _, h1, _⟩ := h
    cases he; rw [ho.get_none (by simp)] at h1; cases h1
  | .dances b ls, _, _, h, ⟨fs, hv, ho, _⟩ => by
    subst hv
    simp only [NKey.Says] at h
    obtain ⟨fs', _, he, _, h1, _⟩ := h
    cases he; rw [ho.get_none (by simp)] at h1; cases h1
  | .layered b ls, _, _, h, ⟨fs, hv, ho, _⟩ => by
    subst hv
    simp only [NKey.Says] at h
    obtain ⟨fs', _, he, h1, _⟩ := h
    cases he; rw [ho.get_none (by simp)] at h1; cases h1
  | .chorded b ls, _, _, h, h2 => by
    simp only [NKey.Says] at h
    obtain ⟨_, _, h, _⟩ := h
    exact absurd h2 (h.one (by simp))
  | .aux b, _, _, _, _ => ⟨b, rfl⟩

mutual

/-- A value says one key. -/
theorem Says.unique {t t' : Bool} : ∀ {k k' : NKey} {v : Val}, k.Says t v → k'.Says t' v → k = k'
  | .leaf l, k', v, h, h' => by
    match k' with
    | .leaf l' =>
      simp only [NKey.Says] at h h'
      rw [h.unique h']
    | .hold _ _ =>
      simp only [NKey.Says] at h'
      obtain ⟨fs, _, rfl, _, _, h1, _⟩ := h'
      rw [LeafSaid.get_none (by simpa [NKey.Says] using h) (by simp)] at h1; cases h1
    | .dances _ _ =>
      simp only [NKey.Says] at h'
      obtain ⟨fs, _, rfl, _, h1, _⟩ := h'
      rw [LeafSaid.get_none (by simpa [NKey.Says] using h) (by simp)] at h1; cases h1
    | .layered _ _ =>
      simp only [NKey.Says] at h'
      obtain ⟨fs, _, rfl, h1, _⟩ := h'
      rw [LeafSaid.get_none (by simpa [NKey.Says] using h) (by simp)] at h1; cases h1
    | .chorded _ _ =>
      simp only [NKey.Says] at h'
      obtain ⟨_, _, ⟨fs, rfl, _, h1, _⟩, _⟩ := h'
      rw [LeafSaid.get_none (by simpa [NKey.Says] using h) (by simp)] at h1; cases h1
    | .aux _ =>
      simp only [NKey.Says] at h'
      obtain ⟨_, ⟨fs, rfl, _, h1⟩, _⟩ := h'
      rw [LeafSaid.get_none (by simpa [NKey.Says] using h) (by simp)] at h1; cases h1
  | .hold tk hk, k', v, h, h' => by
    simp only [NKey.Says] at h
    obtain ⟨fs, w, rfl, h1, h2, h3, h4, h5⟩ := h
    obtain ⟨a, b, rfl⟩ := get_hold_some h' h1 h2 h3
    simp only [NKey.Says] at h'
    obtain ⟨fs', w', he, _, _, g3, g4, g5⟩ := h'
    cases he
    rw [h3] at g3; cases g3
    rw [Says.unique h4 g4, Says.unique h5 g5]
  | .dances tk ds, k', v, h, h' => by
    simp only [NKey.Says] at h
    obtain ⟨fs, w, rfl, h1, h3, h4, h5⟩ := h
    obtain ⟨a, b, rfl⟩ := get_dances_some h' h1 h3
    simp only [NKey.Says] at h'
    obtain ⟨fs', w', he, _, g3, g4, g5⟩ := h'
    cases he
    rw [h3] at g3; cases g3
    rw [Says.unique h4 g4, AllSay.unique h5 g5]
  | .layered tk ds, k', v, h, h' => by
    simp only [NKey.Says] at h
    obtain ⟨fs, w, rfl, h3, h4, h5⟩ := h
    obtain ⟨a, b, rfl⟩ := get_layered_some h' h3
    simp only [NKey.Says] at h'
    obtain ⟨fs', w', he, g3, g4, g5⟩ := h'
    cases he
    rw [h3] at g3; cases g3
    rw [Says.unique h4 g4, LayersSay.unique h5 g5]
  | .chorded cs p, k', v, h, h' => by
    simp only [NKey.Says] at h
    obtain ⟨vs, w, h1, h2, h3⟩ := h
    obtain ⟨a, b, rfl⟩ := get_chords_some h' h1
    simp only [NKey.Says] at h'
    obtain ⟨vs', w', g1, g2, g3⟩ := h'
    obtain ⟨e1, e2⟩ := h1.eq g1
    cases e1; cases e2
    rw [ChordsSay.unique h2 g2, Says.unique h3 g3]
  | .aux p, k', v, h, h' => by
    simp only [NKey.Says] at h
    obtain ⟨w, h1, h3⟩ := h
    obtain ⟨b, rfl⟩ := get_aux_some h' h1
    simp only [NKey.Says] at h'
    obtain ⟨w', g1, g3⟩ := h'
    cases h1.eq g1
    rw [Says.unique h3 g3]

theorem AllSay.unique {t t' : Bool} : ∀ {ks ks' : List NKey} {vs : List Val}, AllSay t ks vs → AllSay t' ks' vs → ks = ks'
  | [], [], _, _, _ => rfl
  | [], k :: ks, vs, h, h' => by
    simp only [AllSay] at h h'; subst h
    obtain ⟨_, _, h, _⟩ := h'; cases h
  | k :: ks, [], vs, h, h' => by
    simp only [AllSay] at h h'; subst h'
    obtain ⟨_, _, h, _⟩ := h; cases h
  | k :: ks, k' :: ks', vs, h, h' => by
    simp only [AllSay] at h h'
    obtain ⟨v, rest, rfl, h1, h2⟩ := h
    obtain ⟨v', rest', he, g1, g2⟩ := h'
    cases he
    rw [Says.unique h1 g1, AllSay.unique h2 g2]

theorem LayersSay.unique {t t' : Bool} : ∀ {ks ks' : List (Option NKey)} {vs : List Val}, LayersSay t ks vs → LayersSay t' ks' vs → ks = ks'
  | [], [], _, _, _ => rfl
  | [], none :: ks, vs, h, h' => by
    simp only [LayersSay] at h h'; subst h
    obtain ⟨_, h, _⟩ := h'; cases h
  | [], some k :: ks, vs, h, h' => by
    simp only [LayersSay] at h h'; subst h
    obtain ⟨_, _, h, _⟩ := h'; cases h
  | none :: ks, [], vs, h, h' => by
    simp only [LayersSay] at h h'; subst h'
    obtain ⟨_, h, _⟩ := h; cases h
  | some k :: ks, [], vs, h, h' => by
    simp only [LayersSay] at h h'; subst h'
    obtain ⟨_, _, h, _⟩ := h; cases h
  | none :: ks, none :: ks', vs, h, h' => by
    simp only [LayersSay] at h h'
    obtain ⟨rest, rfl, h2⟩ := h
    obtain ⟨rest', he, g2⟩ := h'
    cases he
    rw [LayersSay.unique h2 g2]
  | none :: ks, some k' :: ks', vs, h, h' => by
    simp only [LayersSay] at h h'
    obtain ⟨rest, rfl, h2⟩ := h
    obtain ⟨v', rest', he, g1, g2⟩ := h'
    cases he
    exact absurd g1 Says.not_null
  | some k :: ks, none :: ks', vs, h, h' => by
    simp only [LayersSay] at h h'
    obtain ⟨rest, rfl, h2⟩ := h'
    obtain ⟨v', rest', he, g1, g2⟩ := h
    cases he
    exact absurd g1 Says.not_null
  | some k :: ks, some k' :: ks', vs, h, h' => by
    simp only [LayersSay] at h h'
    obtain ⟨v, rest, rfl, h1, h2⟩ := h
    obtain ⟨v', rest', he, g1, g2⟩ := h'
    cases he
    rw [Says.unique h1 g1, LayersSay.unique h2 g2]

theorem ChordsSay.unique {t t' : Bool} : ∀ {ks ks' : List (Nat × NKey)} {vs : List Val}, ChordsSay t ks vs → ChordsSay t' ks' vs → ks = ks'
  | [], [], _, _, _ => rfl
  | [], (i, k) :: ks, vs, h, h' => by
    simp only [ChordsSay] at h h'; subst h
    obtain ⟨_, _, h, _⟩ := h'; cases h
  | (i, k) :: ks, [], vs, h, h' => by
    simp only [ChordsSay] at h h'; subst h'
    obtain ⟨_, _, h, _⟩ := h; cases h
  | (i, k) :: ks, (i', k') :: ks', vs, h, h' => by
    simp only [ChordsSay] at h h'
    obtain ⟨v, rest, rfl, h1, h2⟩ := h
    obtain ⟨v', rest', he, g1, g2⟩ := h'
    simp only [List.cons.injEq, Val.arr.injEq, Val.num.injEq, and_true] at he
    obtain ⟨⟨e1, e2⟩, e3⟩ := he
    subst e2 e3
    have : i = i' := by omega
    rw [Says.unique h1 g1, ChordsSay.unique h2 g2, this]

end

/-! ## What is said is read -/

theorem toJson_of {m : Mod} {v : Val} (h : moduleFor v = some m) : toJson v = m.value toJson v := by
  rw [toJson_eq, h]; rfl

theorem leaf_read {l : Leaf} {v : Val} {j : JKey} (h : LeafSaid true l v) (hj : l.toJson = some j) :
    ∃ w, toJson v = some w ∧ read w = some j := by
  rw [toJson_of (leaf_module h)]
  cases h with
  | automation hm h => simp [Leaf.toJson] at hj
  | compiled hm h =>
    simp only [Leaf.toJson, Option.some.injEq] at hj; subst hj
    refine ⟨v, by simp [kind, Mod.value, pat_iff.2 h], ?_⟩
    rw [read_of (m := .automation) (recordExact_one h (by simp [hm.json]))]
    simp [JMod.read, pat_iff.2 h, places_iff.2 hm]
  | callback hm h =>
    simp only [Leaf.toJson, Option.some.injEq] at hj; subst hj
    refine ⟨v, rfl, ?_⟩
    rw [read_of (m := .callback) (recordExact_one h (by simp [hm.json]))]
    simp [JMod.read, pat_iff.2 h, callback_iff.2 hm]
  | capsWord =>
    simp only [Leaf.toJson, Option.some.injEq] at hj; subst hj
    refine ⟨_, rfl, ?_⟩
    rw [read_of (m := .capsWord) rfl]
    rfl
  | consumer h =>
    simp only [Leaf.toJson, Option.some.injEq] at hj; subst hj
    refine ⟨v, rfl, ?_⟩
    rw [read_of (m := .consumer) (recordExact_one h (by simp [isNumber_ofByte]))]
    simp [JMod.read, pat_iff.2 h]
  | custom h =>
    simp only [Leaf.toJson, Option.some.injEq] at hj; subst hj
    refine ⟨v, rfl, ?_⟩
    rw [read_of (m := .custom) (recordExact_one h (by simp [isNumber_ofByte]))]
    simp [JMod.read, pat_iff.2 h]
  | keyCode h =>
    simp only [Leaf.toJson, Option.some.injEq] at hj; subst hj
    have h' := h
    obtain ⟨fs, rfl, h1, h2⟩ := h
    refine ⟨.record fs, by simp [kind, Mod.value, patRest, h1.get_none (f := "modifiers")], ?_⟩
    rw [read_of (m := .keyboard)]
    · simp [JMod.read, pat_iff.2 h']
    · simp only [JMod.accepts, recordOf, Bool.and_eq_true, hasOnly_iff, fieldsOk_cons, fieldsOk_nil, and_true, h2, Option.some.injEq, forall_eq',
        isNumber_ofByte, hasAnyOf_of h2 (List.mem_cons_self), true_and]
      exact ⟨fun n hn => by have := h1 n hn; simp_all, by simp [h1.get_none (f := "modifiers")]⟩
  | @modifiers m w v hm h =>
    simp only [Leaf.toJson, Option.some.injEq] at hj; subst hj
    obtain ⟨fs, rfl, h1, h2⟩ := h
    have ho : One "modifiers" (ofByte m.toByte) (.record (without "modifiers" fs ++ [("modifiers", ofByte m.toByte)])) := by
      refine ⟨_, rfl, ?_, ?_⟩
      rotate_left
      · have : get "modifiers" (without "modifiers" fs) = none := get_without_self _ _
        rw [show without "modifiers" fs = [] from ?_]
        · simp [get_cons]
        · rw [List.eq_nil_iff_forall_not_mem]
          rintro x hx
          simp only [without, List.mem_filter, decide_eq_true_eq] at hx
          have := h1 x.1 (List.mem_map.2 ⟨x, hx.1, rfl⟩)
          simp only [List.mem_singleton] at this
          exact hx.2 this
      · intro n hn
        simp only [names, List.map_append, List.mem_append] at hn
        rcases hn with hn | hn
        · obtain ⟨x, hx, rfl⟩ := List.mem_map.1 hn
          exact h1 x.1 (List.mem_map.2 ⟨x, (List.mem_filter.1 hx).1, rfl⟩)
        · simpa using hn
    refine ⟨.record (without "modifiers" fs ++ [("modifiers", ofByte m.toByte)]), by simp only [kind, Mod.value, patRest, h2, Option.map_some, hm.value], ?_⟩
    rw [read_of (m := .keyboard)]
    · simp [JMod.read, pat_iff.2 ho, ho.pat_ne (g := "key_code")]
    · generalize without "modifiers" fs ++ [("modifiers", ofByte m.toByte)] = gs at ho
      obtain ⟨_, he, h1, h2⟩ := ho
      cases he
      simp only [JMod.accepts, recordOf, Bool.and_eq_true, hasOnly_iff, fieldsOk_cons, fieldsOk_nil, and_true, h2, Option.some.injEq, forall_eq',
        isNumber_ofByte, modifiersJson, hasAnyOf_of h2 (List.mem_cons_of_mem _ List.mem_cons_self), true_and]
      exact ⟨fun n hn => by have := h1 n hn; simp_all, by simp [h1.get_none (f := "key_code")]⟩
  | @keyCodeModifiers kc m w v hm h =>
    simp only [Leaf.toJson, Option.some.injEq] at hj; subst hj
    obtain ⟨fs, rfl, h1, h2, h3⟩ := h
    have ho : Two "key_code" (ofByte kc) "modifiers" (ofByte m.toByte) (.record (without "modifiers" fs ++ [("modifiers", ofByte m.toByte)])) := by
      refine ⟨_, rfl, ?_, ?_, ?_⟩
      · intro n hn
        simp only [names, List.map_append, List.mem_append] at hn
        rcases hn with hn | hn
        · obtain ⟨x, hx, rfl⟩ := List.mem_map.1 hn
          exact h1 x.1 (List.mem_map.2 ⟨x, (List.mem_filter.1 hx).1, rfl⟩)
        · simp only [List.map_cons, List.map_nil, List.mem_singleton] at hn
          simp [hn]
      · have := get_without (f := "key_code") (g := "modifiers") (fs := fs) (by simp)
        rw [h2] at this
        unfold get at this ⊢
        rw [List.find?_append]
        obtain ⟨x, hx, hx'⟩ := Option.map_eq_some_iff.1 this
        simp [hx, hx']
      · have := get_without_self "modifiers" fs
        unfold get at this ⊢
        rw [List.find?_append]
        simp only [Option.map_eq_none_iff] at this
        simp [this]
    refine ⟨.record (without "modifiers" fs ++ [("modifiers", ofByte m.toByte)]), by simp only [kind, Mod.value, patRest, h3, Option.map_some, hm.value], ?_⟩
    generalize without "modifiers" fs ++ [("modifiers", ofByte m.toByte)] = gs at ho
    rw [read_of (m := .keyboard)]
    · simp [JMod.read, pat₂_iff.2 ho, ho.pat]
    · obtain ⟨_, he, h1, h2, h3⟩ := ho
      cases he
      simp only [JMod.accepts, recordOf, Bool.and_eq_true, hasOnly_iff, fieldsOk_cons, fieldsOk_nil, and_true, h2, h3, Option.some.injEq, forall_eq',
        isNumber_ofByte, modifiersJson, hasAnyOf_of h2 (List.mem_cons_self), true_and]
      exact h1
  | layerModifier hm h =>
    simp only [Leaf.toJson] at hj
    obtain ⟨i, hi, rfl⟩ := Option.map_eq_some_iff.1 hj
    obtain ⟨w, h1, h2, f, hf, n, ho⟩ := hm.value hi
    refine ⟨w, by simp [kind, Mod.value, pat_iff.2 h, h1], ?_⟩
    rw [read_of (m := .modifier)]
    · simp [JMod.read, h2]
    · obtain ⟨fs, rfl, g1, g2⟩ := ho
      simp only [JMod.accepts, recordOf, Bool.and_eq_true, hasOnly_iff, hasAnyOf_of g2 hf, true_and]
      refine ⟨fun n hn => by have := g1 n hn; simp only [List.mem_singleton] at this; rw [this]; exact hf, ?_⟩
      simp only [fieldsOk, List.all_eq_true]
      intro p hp
      split
      · rename_i y hy
        have := g1 _ (get_isSome.2 ⟨_, hy⟩)
        simp only [List.mem_singleton] at this
        rw [this, g2] at hy
        cases hy
        simp only [List.mem_cons, List.not_mem_nil, or_false] at hp
        rcases hp with rfl | rfl | rfl | rfl <;> rfl
      · rfl
  | mouse hm h =>
    simp only [Leaf.toJson, Option.some.injEq] at hj; subst hj
    refine ⟨v, rfl, ?_⟩
    rw [read_of (m := .mouse) (recordExact_one h (by simp [hm.json]))]
    simp [JMod.read, pat_iff.2 h, mouseKey_iff.2 hm]
  | sticky hm h =>
    simp only [Leaf.toJson, Option.some.injEq] at hj; subst hj
    refine ⟨_, by simp only [kind, Mod.value, pat_iff.2 h, Option.bind_eq_bind, Option.bind_some, hm.value]; rfl, ?_⟩
    rw [read_of (m := .sticky) (recordExact_one One.record (by simp [isNumber_ofByte, modifiersJson]))]
    simp [JMod.read, pat_iff.2 One.record]

end Verif.Nickel
