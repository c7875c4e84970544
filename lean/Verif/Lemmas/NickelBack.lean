import Verif.Lemmas.NickelRead

/-!
# The JSON value of a key is read as the key, and what is read was said
-/

namespace Verif.Nickel

open Codegen (JKey NKey Leaf ModRec toJsonAll toJsonLayers toJsonChords)

theorem read_null : read .null = none := by
  cases h : read .null with
  | none => rfl
  | some j =>
    obtain ⟨m, hm, _⟩ := read_some h
    rcases JMod.accepts_shape hm with ⟨_, h⟩ | ⟨_, h, _⟩ <;> cases h

theorem toJson_null : toJson .null = none := by
  cases h : moduleFor .null with
  | none => rw [toJson_eq, h]; rfl
  | some m =>
    have := moduleFor_accepts h
    cases m <;> simp [Mod.accepts, recordOf, equalsString, pat₂, patRest] at this

theorem orNull_of {v : Val} (h : v ≠ .null) (f : Val → Option Val) : orNull f v = f v := by
  cases v <;> first | rfl | exact absurd rfl h

theorem optional_of {v : Val} (h : v ≠ .null) (f : Val → Option JKey) : optional f v = (f v).map some := by
  cases v <;> first | rfl | exact absurd rfl h

/-! ## What is said is read -/

mutual

theorem says_read : ∀ (k : NKey) (v : Val) (j : JKey), k.Says true v → k.toJson = some j → ∃ w, toJson v = some w ∧ read w = some j
  | .leaf l, v, j, h, hj => leaf_read (by simpa [NKey.Says] using h) (by simpa [NKey.toJson] using hj)
  | .hold t hk, v, j, h, hj => by
    rw [toJson_of (says_module _ _ h)]
    simp only [NKey.Says] at h
    obtain ⟨fs, x, rfl, _, _, h3, h4, h5⟩ := h
    simp only [NKey.toJson, Option.bind_eq_bind, Option.bind_eq_some_iff, Option.pure_def, Option.some.injEq] at hj
    obtain ⟨jh, hjh, jt, hjt, rfl⟩ := hj
    obtain ⟨wh, a1, a2⟩ := says_read hk x jh h5 hjh
    obtain ⟨wt, b1, b2⟩ := says_read t _ jt h4 hjt
    refine ⟨.record [("hold", wh), ("tap", wt)], by simp [kind, Mod.value, patRest, h3, a1, b1], ?_⟩
    rw [read_of (m := .tapHold) (recordExact_two (Two.record (by simp)).swap (read_valid b2) (read_valid a2))]
    simp [JMod.read, pat₂_iff.2 (Two.record _), a2, b2]
  | .dances t ds, v, j, h, hj => by
    rw [toJson_of (says_module _ _ h)]
    simp only [NKey.Says] at h
    obtain ⟨fs, xs, rfl, _, h3, h4, h5⟩ := h
    simp only [NKey.toJson, Option.bind_eq_bind, Option.bind_eq_some_iff, Option.pure_def, Option.some.injEq] at hj
    obtain ⟨jt, hjt, js, hjs, rfl⟩ := hj
    obtain ⟨wt, b1, b2⟩ := says_read t _ jt h4 hjt
    obtain ⟨ws, a1, a2, a3⟩ := all_read ds xs js h5 hjs
    refine ⟨.record [("definitions", .arr (wt :: ws))], by simp [kind, Mod.value, patRest, h3, a1, b1], ?_⟩
    rw [read_of (m := .tapDance) (recordExact_one One.record (by simp only [List.mem_singleton, forall_eq]; intro; simp only [arrayOf, List.all_cons, read_valid b2, a3, Bool.and_self]))]
    simp [JMod.read, pat_iff.2 One.record, elements, mapAll, a2, b2]
  | .layered b ls, v, j, h, hj => by
    rw [toJson_of (says_module _ _ h)]
    simp only [NKey.Says] at h
    obtain ⟨fs, xs, rfl, h3, h4, h5⟩ := h
    simp only [NKey.toJson, Option.bind_eq_bind, Option.bind_eq_some_iff, Option.pure_def, Option.some.injEq] at hj
    obtain ⟨jt, hjt, js, hjs, rfl⟩ := hj
    obtain ⟨wt, b1, b2⟩ := says_read b _ jt h4 hjt
    obtain ⟨ws, a1, a2, a3⟩ := layers_read ls xs js h5 hjs
    refine ⟨.record [("base", wt), ("layered", .arr ws)], by simp [kind, Mod.value, patRest, h3, a1, b1, mapArray], ?_⟩
    rw [read_of (m := .layered) (recordExact_two (Two.record (by simp)) (read_valid b2) a3)]
    simp [JMod.read, pat₂_iff.2 (Two.record _), elements, a2, b2]
  | .chorded cs p, v, j, h, hj => by
    rw [toJson_of (says_module _ _ h)]
    simp only [NKey.Says] at h
    obtain ⟨xs, x, h3, h4, h5⟩ := h
    simp only [NKey.toJson, Option.bind_eq_bind, Option.bind_eq_some_iff, Option.pure_def, Option.some.injEq] at hj
    obtain ⟨js, hjs, jt, hjt, rfl⟩ := hj
    obtain ⟨wt, b1, b2⟩ := says_read p _ jt h5 hjt
    obtain ⟨ws, a1, a2, a3⟩ := chords_read cs xs js h4 hjs
    refine ⟨.record [("chords", .arr ws), ("passthrough", wt)], by simp [kind, Mod.value, pat₂_iff.2 h3, a1, b1, mapArray], ?_⟩
    rw [read_of (m := .chorded) (recordExact_two (Two.record (by simp)) a3 (read_valid b2))]
    simp [JMod.read, pat₂_iff.2 (Two.record _), elements, a2, b2]
  | .aux p, v, j, h, hj => by
    rw [toJson_of (says_module _ _ h)]
    simp only [NKey.Says] at h
    obtain ⟨x, h3, h5⟩ := h
    simp only [NKey.toJson, Option.bind_eq_bind, Option.bind_eq_some_iff, Option.pure_def, Option.some.injEq] at hj
    obtain ⟨jt, hjt, rfl⟩ := hj
    obtain ⟨wt, b1, b2⟩ := says_read p _ jt h5 hjt
    refine ⟨.record [("passthrough", wt)], by simp [kind, Mod.value, pat_iff.2 h3, b1], ?_⟩
    rw [read_of (m := .aux) (recordExact_one One.record (by simp [read_valid b2]))]
    simp [JMod.read, pat_iff.2 One.record, b2]

theorem all_read : ∀ (ks : List NKey) (vs : List Val) (js : List JKey), AllSay true ks vs → toJsonAll ks = some js →
    ∃ ws, mapAll toJson vs = some ws ∧ mapAll read ws = some js ∧ ws.all jsonValidator = true
  | [], vs, js, h, hj => by
    simp only [AllSay] at h; subst h
    simp only [toJsonAll, Option.some.injEq] at hj; subst hj
    exact ⟨[], rfl, rfl, rfl⟩
  | k :: ks, vs, js, h, hj => by
    simp only [AllSay] at h
    obtain ⟨v, rest, rfl, h1, h2⟩ := h
    simp only [toJsonAll, Option.bind_eq_bind, Option.bind_eq_some_iff, Option.pure_def, Option.some.injEq] at hj
    obtain ⟨j, hj1, js', hj2, rfl⟩ := hj
    obtain ⟨w, a1, a2⟩ := says_read k v j h1 hj1
    obtain ⟨ws, b1, b2, b3⟩ := all_read ks rest js' h2 hj2
    exact ⟨w :: ws, by simp [mapAll, a1, b1], by simp [mapAll, a2, b2], by simp only [List.all_cons, read_valid a2, b3, Bool.and_self]⟩

theorem layers_read : ∀ (ks : List (Option NKey)) (vs : List Val) (js : List (Option JKey)), LayersSay true ks vs → toJsonLayers ks = some js →
    ∃ ws, mapAll (orNull toJson) vs = some ws ∧ mapAll (optional read) ws = some js ∧ arrayOf (anyOf [isNull, jsonValidator]) (.arr ws) = true
  | [], vs, js, h, hj => by
    simp only [LayersSay] at h; subst h
    simp only [toJsonLayers, Option.some.injEq] at hj; subst hj
    exact ⟨[], rfl, rfl, rfl⟩
  | none :: ks, vs, js, h, hj => by
    simp only [LayersSay] at h
    obtain ⟨rest, rfl, h2⟩ := h
    simp only [toJsonLayers, Option.bind_eq_bind, Option.bind_eq_some_iff, Option.pure_def, Option.some.injEq] at hj
    obtain ⟨js', hj2, rfl⟩ := hj
    obtain ⟨ws, b1, b2, b3⟩ := layers_read ks rest js' h2 hj2
    refine ⟨.null :: ws, by simp [mapAll, orNull, b1], by simp [mapAll, optional, b2], ?_⟩
    simp only [arrayOf] at b3 ⊢
    simp only [List.all_cons, b3, anyOf, List.any_cons, isNull, Bool.true_or, Bool.and_self]
  | some k :: ks, vs, js, h, hj => by
    simp only [LayersSay] at h
    obtain ⟨v, rest, rfl, h1, h2⟩ := h
    simp only [toJsonLayers, Option.bind_eq_bind, Option.bind_eq_some_iff, Option.pure_def, Option.some.injEq] at hj
    obtain ⟨j, hj1, js', hj2, rfl⟩ := hj
    obtain ⟨w, a1, a2⟩ := says_read k v j h1 hj1
    obtain ⟨ws, b1, b2, b3⟩ := layers_read ks rest js' h2 hj2
    have hv : v ≠ .null := by rintro rfl; exact Says.not_null h1
    have hw : w ≠ .null := by rintro rfl; rw [read_null] at a2; cases a2
    refine ⟨w :: ws, by simp [mapAll, orNull_of hv, a1, b1], by simp [mapAll, optional_of hw, a2, b2], ?_⟩
    simp only [arrayOf] at b3 ⊢
    simp only [List.all_cons, b3, anyOf, List.any_cons, read_valid a2, Bool.true_or, Bool.or_true, Bool.and_self]

theorem chords_read : ∀ (ks : List (Nat × NKey)) (vs : List Val) (js : List (Nat × JKey)), ChordsSay true ks vs → toJsonChords ks = some js →
    ∃ ws, mapAll (inPair toJson) vs = some ws ∧ mapAll (numbered read) ws = some js ∧ arrayOf (tupleOf [isNumber, jsonValidator]) (.arr ws) = true
  | [], vs, js, h, hj => by
    simp only [ChordsSay] at h; subst h
    simp only [toJsonChords, Option.some.injEq] at hj; subst hj
    exact ⟨[], rfl, rfl, rfl⟩
  | (i, k) :: ks, vs, js, h, hj => by
    simp only [ChordsSay] at h
    obtain ⟨v, rest, rfl, h1, h2⟩ := h
    simp only [toJsonChords, Option.bind_eq_bind, Option.bind_eq_some_iff, Option.pure_def, Option.some.injEq] at hj
    obtain ⟨j, hj1, js', hj2, rfl⟩ := hj
    obtain ⟨w, a1, a2⟩ := says_read k v j h1 hj1
    obtain ⟨ws, b1, b2, b3⟩ := chords_read ks rest js' h2 hj2
    refine ⟨.arr [.num i, w] :: ws, by simp [mapAll, inPair, a1, b1], by simp [mapAll, numbered, a2, b2], ?_⟩
    simp only [arrayOf] at b3 ⊢
    simp only [List.all_cons, b3, tupleOf, tupleElements, read_valid a2, isNumber, Bool.and_self]

end

/-! ## What is read was said -/

theorem toJson_some {v w : Val} (h : toJson v = some w) : ∃ m, moduleFor v = some m ∧ m.value toJson v = some w := by
  rw [toJson_eq] at h
  exact Option.bind_eq_some_iff.1 h

/-- A key whose layers are not keys has no JSON value. -/
theorem bad_layers (n : Nat) : ∀ {fs : Fields} {ls : Val}, (Val.record fs).size ≤ n → get "layered" fs = some ls →
    arrayOf (anyOf [isNull, keyValidator]) ls = false → toJson (.record fs) = none := by
  induction n with
  | zero => intro fs ls h; have := (Val.record fs).size_pos; omega
  | succ n ih =>
    intro fs ls hn hg hl
    cases ht : toJson (.record fs) with
    | none => rfl
    | some w =>
      exfalso
      obtain ⟨m, hm, hv⟩ := toJson_some ht
      have ha := moduleFor_accepts hm
      have ho := open_rank ha (get_isSome.2 ⟨_, hg⟩) (by intro m; cases m <;> simp [Mod.isOpen, Mod.names])
      have rest : ∀ f, f ≠ "layered" → f ∈ names fs → toJson (.record (without f fs)) = none := by
        intro f hf hmem
        obtain ⟨x, hx⟩ := get_isSome.1 hmem
        have := without_lt hx
        refine ih ?_ (by rw [get_without (Ne.symm hf)]; exact hg) hl
        simp only [Val.size] at hn ⊢
        omega
      have hno := not_open ha
      cases m <;> simp only [Mod.isOpen, Bool.false_eq_true] at ho
      · simp [Mod.accepts, patRest, hg, hl, both_eq] at ha
      · have hr := rest "tap_dances" (by simp) (hno.2.1 rfl)
        obtain ⟨x, hx⟩ := get_isSome.1 (hno.2.1 rfl)
        simp [Mod.value, patRest, hx, hr] at hv
      · have hr := rest "hold" (by simp) (hno.2.2 rfl)
        obtain ⟨x, hx⟩ := get_isSome.1 (hno.2.2 rfl)
        simp [Mod.value, patRest, hx, hr] at hv

/-- A key whose tap dances are not keys has no JSON value. -/
theorem bad_dances (n : Nat) : ∀ {fs : Fields} {ls : Val}, (Val.record fs).size ≤ n → get "tap_dances" fs = some ls →
    arrayOf keyValidator ls = false → toJson (.record fs) = none := by
  induction n with
  | zero => intro fs ls h; have := (Val.record fs).size_pos; omega
  | succ n ih =>
    intro fs ls hn hg hl
    cases ht : toJson (.record fs) with
    | none => rfl
    | some w =>
      exfalso
      obtain ⟨m, hm, hv⟩ := toJson_some ht
      have ha := moduleFor_accepts hm
      have ho := open_rank ha (get_isSome.2 ⟨_, hg⟩) (by intro m; cases m <;> simp [Mod.isOpen, Mod.names])
      have rest : ∀ f, f ≠ "tap_dances" → f ∈ names fs → toJson (.record (without f fs)) = none := by
        intro f hf hmem
        obtain ⟨x, hx⟩ := get_isSome.1 hmem
        have := without_lt hx
        refine ih ?_ (by rw [get_without (Ne.symm hf)]; exact hg) hl
        simp only [Val.size] at hn ⊢
        omega
      have hno := not_open ha
      cases m <;> simp only [Mod.isOpen, Bool.false_eq_true] at ho
      · have hr := rest "layered" (by simp) (hno.1 rfl)
        obtain ⟨x, hx⟩ := get_isSome.1 (hno.1 rfl)
        simp [Mod.value, patRest, hx, hr] at hv
      · simp [Mod.accepts, patRest, hg, hl, both_eq] at ha
      · have hr := rest "hold" (by simp) (hno.2.2 rfl)
        obtain ⟨x, hx⟩ := get_isSome.1 (hno.2.2 rfl)
        simp [Mod.value, patRest, hx, hr] at hv

theorem mapAll_cons {α β : Type} {f : α → Option β} {a : α} {as : List α} {bs : List β} (h : mapAll f (a :: as) = some bs) :
    ∃ b rest, bs = b :: rest ∧ f a = some b ∧ mapAll f as = some rest := by
  simp only [mapAll, Option.bind_eq_bind, Option.bind_eq_some_iff, Option.pure_def, Option.some.injEq] at h
  obtain ⟨b, h1, rest, h2, rfl⟩ := h
  exact ⟨b, rest, rfl, h1, h2⟩

/-- The statement that what is read was said, for the values of at most this size. -/
def Back (n : Nat) : Prop := ∀ (v w : Val) (j : JKey), v.size ≤ n → toJson v = some w → read w = some j → ∃ k : NKey, k.Says true v ∧ k.toJson = some j

theorem Back.all {n : Nat} (ih : Back n) : ∀ (vs ws : List Val) (js : List JKey), (∀ v ∈ vs, v.size ≤ n) → mapAll toJson vs = some ws →
    mapAll read ws = some js → ∃ ks, AllSay true ks vs ∧ toJsonAll ks = some js
  | [], ws, js, _, h1, h2 => by
    simp only [mapAll, Option.some.injEq] at h1; subst h1
    simp only [mapAll, Option.some.injEq] at h2; subst h2
    exact ⟨[], by simp [AllSay], by simp [toJsonAll]⟩
  | v :: vs, ws, js, hs, h1, h2 => by
    obtain ⟨w, ws, rfl, a1, a2⟩ := mapAll_cons h1
    obtain ⟨j, js, rfl, b1, b2⟩ := mapAll_cons h2
    obtain ⟨k, c1, c2⟩ := ih v w j (hs v (by simp)) a1 b1
    obtain ⟨ks, d1, d2⟩ := Back.all ih vs ws js (fun v hv => hs v (by simp [hv])) a2 b2
    exact ⟨k :: ks, by simp only [AllSay]; exact ⟨v, vs, rfl, c1, d1⟩, by simp [toJsonAll, c2, d2]⟩

theorem Back.layers {n : Nat} (ih : Back n) : ∀ (vs ws : List Val) (js : List (Option JKey)), (∀ v ∈ vs, v.size ≤ n) →
    mapAll (orNull toJson) vs = some ws → mapAll (optional read) ws = some js → ∃ ks, LayersSay true ks vs ∧ toJsonLayers ks = some js
  | [], ws, js, _, h1, h2 => by
    simp only [mapAll, Option.some.injEq] at h1; subst h1
    simp only [mapAll, Option.some.injEq] at h2; subst h2
    exact ⟨[], by simp [LayersSay], by simp [toJsonLayers]⟩
  | v :: vs, ws, js, hs, h1, h2 => by
    obtain ⟨w, ws, rfl, a1, a2⟩ := mapAll_cons h1
    obtain ⟨j, js, rfl, b1, b2⟩ := mapAll_cons h2
    obtain ⟨ks, d1, d2⟩ := Back.layers ih vs ws js (fun v hv => hs v (by simp [hv])) a2 b2
    by_cases hv : v = .null
    · subst hv
      simp only [orNull, Option.some.injEq] at a1; subst a1
      simp only [optional, Option.some.injEq] at b1; subst b1
      exact ⟨none :: ks, by simp only [LayersSay]; exact ⟨vs, rfl, d1⟩, by simp [toJsonLayers, d2]⟩
    · rw [orNull_of hv] at a1
      by_cases hw : w = .null
      · subst hw
        obtain ⟨m, hm, hval⟩ := toJson_some a1
        exfalso
        have hacc := moduleFor_accepts hm
        cases m <;> simp only [Mod.value, Option.bind_eq_bind, Option.bind_eq_some_iff, Option.pure_def, Option.map_eq_some_iff,
          Option.some.injEq] at hval
        case automation => obtain ⟨_, _, rfl⟩ := hval; exact hv rfl
        case callback => exact hv hval
        case capsWord => exact hv hval
        case chorded => obtain ⟨_, _, _, _, _, _, h⟩ := hval; cases h
        case chordedAux => obtain ⟨_, _, _, _, h⟩ := hval; cases h
        case consumer => exact hv hval
        case custom => exact hv hval
        case keyboard =>
          split at hval
          · obtain ⟨_, _, h⟩ := Option.map_eq_some_iff.1 hval; cases h
          · exact hv (Option.some.inj hval)
        case layerModifier =>
          obtain ⟨m, _, h⟩ := hval
          unfold layerModifierValue at h
          split at h <;> first | (cases h; done) | (obtain ⟨_, _, h⟩ := Option.map_eq_some_iff.1 h; cases h) | (simp at h)
        case layered => obtain ⟨_, _, _, _, _, _, h⟩ := hval; cases h
        case mouse => exact hv hval
        case sticky => obtain ⟨_, _, _, _, h⟩ := hval; cases h
        case tapDance =>
          obtain ⟨⟨ds, _⟩, _, _, _, h⟩ := hval
          simp only at h
          split at h
          · obtain ⟨_, _, h⟩ := Option.bind_eq_some_iff.1 h; cases h
          · cases h
        case tapHold => obtain ⟨_, _, _, _, _, _, h⟩ := hval; cases h
      · rw [optional_of hw] at b1
        obtain ⟨j', b1', rfl⟩ := Option.map_eq_some_iff.1 b1
        obtain ⟨k, c1, c2⟩ := ih v w j' (hs v (by simp)) a1 b1'
        exact ⟨some k :: ks, by simp only [LayersSay]; exact ⟨v, vs, rfl, c1, d1⟩, by simp [toJsonLayers, c2, d2]⟩

theorem Back.chords {n : Nat} (ih : Back n) : ∀ (vs ws : List Val) (js : List (Nat × JKey)), (∀ v ∈ vs, v.size ≤ n) →
    mapAll (inPair toJson) vs = some ws → mapAll (numbered read) ws = some js → ∃ ks, ChordsSay true ks vs ∧ toJsonChords ks = some js
  | [], ws, js, _, h1, h2 => by
    simp only [mapAll, Option.some.injEq] at h1; subst h1
    simp only [mapAll, Option.some.injEq] at h2; subst h2
    exact ⟨[], by simp [ChordsSay], by simp [toJsonChords]⟩
  | v :: vs, ws, js, hs, h1, h2 => by
    obtain ⟨w, ws, rfl, a1, a2⟩ := mapAll_cons h1
    obtain ⟨j, js, rfl, b1, b2⟩ := mapAll_cons h2
    obtain ⟨ks, d1, d2⟩ := Back.chords ih vs ws js (fun v hv => hs v (by simp [hv])) a2 b2
    unfold inPair at a1
    split at a1
    · rename_i i kv
      obtain ⟨x, hx, rfl⟩ := Option.map_eq_some_iff.1 a1
      simp only [numbered, Option.bind_eq_bind, Option.bind_eq_some_iff, Option.pure_def, Option.some.injEq] at b1
      obtain ⟨i', hi, j', hj, rfl⟩ := b1
      rw [natural_iff] at hi; subst hi
      have hsz := hs (.arr [.num i', kv]) (by simp)
      obtain ⟨k, c1, c2⟩ := ih kv x j' (by simp only [Val.size, sizes] at hsz; omega) hx hj
      exact ⟨(i', k) :: ks, by simp only [ChordsSay]; exact ⟨kv, vs, rfl, c1, d1⟩, by simp [toJsonChords, c2, d2]⟩
    · cases a1

theorem says_of_read (n : Nat) : Back n := by
  induction n with
  | zero => intro v w j h; have := v.size_pos; omega
  | succ n ih =>
    intro v w j hn hw hj
    obtain ⟨m, hm, hval⟩ := toJson_some hw
    have hacc := moduleFor_accepts hm
    cases m <;> simp only [Mod.value, Option.bind_eq_bind, Option.bind_eq_some_iff, Option.pure_def, Option.map_eq_some_iff,
          Option.some.injEq] at hval
    case automation =>
      obtain ⟨e, he, rfl⟩ := hval
      have ho := pat_iff.1 he
      obtain ⟨jm, h1, h2, h3⟩ := read_one ho hj
      cases jm <;> simp [JMod.allowed, layerNames] at h1
      simp only [JMod.read, he, Option.bind_eq_bind, Option.bind_some, Option.map_eq_some_iff] at h3
      obtain ⟨k, hk, rfl⟩ := h3
      exact ⟨.leaf (.compiled k), by simp only [NKey.Says]; exact .compiled (places_iff.1 hk) ho, by simp [NKey.toJson, Leaf.toJson]⟩
    case callback =>
      subst hval
      simp only [Mod.accepts] at hacc
      split at hacc
      · rename_i c he
        have ho := pat_iff.1 he
        obtain ⟨jm, h1, h2, h3⟩ := read_one ho hj
        cases jm <;> simp [JMod.allowed, layerNames] at h1
        simp only [JMod.read, he, Option.bind_eq_bind, Option.bind_some, Option.map_eq_some_iff] at h3
        obtain ⟨k, hk, rfl⟩ := h3
        exact ⟨.leaf (.callback k), by simp only [NKey.Says]; exact .callback (callback_iff.1 hk) ho, by simp [NKey.toJson, Leaf.toJson]⟩
      · simp at hacc
    case capsWord =>
      subst hval
      simp only [Mod.accepts] at hacc
      cases v <;> simp only [equalsString, Bool.false_eq_true, decide_eq_true_eq] at hacc
      subst hacc
      rw [read_of (m := .capsWord) rfl] at hj
      simp only [JMod.read, Option.some.injEq] at hj
      subst hj
      exact ⟨.leaf .capsWord, by simp only [NKey.Says]; exact .capsWord, by simp [NKey.toJson, Leaf.toJson]⟩
    case chorded =>
      obtain ⟨⟨cs, p⟩, hp, cs', hcs, p', hp', rfl⟩ := hval
      have hsz := pat₂_size hp
      obtain ⟨jm, h1, h1', h2, h3⟩ := read_two (Two.record (by simp)) hj
      cases jm <;> simp [JMod.allowed, layerNames] at h1 h1'
      simp only [JMod.read, pat₂_iff.2 (Two.record _), Option.bind_eq_bind, Option.bind_some, Option.bind_eq_some_iff, Option.pure_def, Option.some.injEq] at h3
      rw [pat₂_iff.2 (Two.record (by simp))] at h3
      obtain ⟨_, he, js, hjs, jp, hjp, rfl⟩ := h3
      cases he
      cases cs <;> simp only [mapArray, reduceCtorEq, Option.map_eq_some_iff] at hcs
      rename_i vs
      obtain ⟨ws, hws, rfl⟩ := hcs
      obtain ⟨ks, a1, a2⟩ := ih.chords vs ws js (fun v hv => by have := size_mem hv; simp only [Val.size] at hsz; omega) hws hjs
      obtain ⟨k, b1, b2⟩ := ih p p' jp (by omega) hp' hjp
      exact ⟨.chorded ks k, by simp only [NKey.Says]; exact ⟨vs, p, pat₂_iff.1 hp, a1, b1⟩, by simp [NKey.toJson, a2, b2]⟩
    case chordedAux =>
      obtain ⟨p, hp, p', hp', rfl⟩ := hval
      have hsz := pat_size hp
      obtain ⟨jm, h1, h2, h3⟩ := read_one One.record hj
      cases jm <;> simp [JMod.allowed, layerNames] at h1
      case chorded =>
        simp [JMod.accepts, recordOf, hasExact, hasAll, names] at h2
      simp only [JMod.read, pat_iff.2 One.record, Option.bind_eq_bind, Option.bind_some, Option.map_eq_some_iff] at h3
      obtain ⟨jp, hjp, rfl⟩ := h3
      obtain ⟨k, b1, b2⟩ := ih p p' jp (by omega) hp' hjp
      exact ⟨.aux k, by simp only [NKey.Says]; exact ⟨p, pat_iff.1 hp, b1⟩, by simp [NKey.toJson, b2]⟩
    case consumer =>
      subst hval
      obtain ⟨x, ho, _⟩ := recordExact_iff.1 hacc
      obtain ⟨jm, h1, h2, h3⟩ := read_one ho hj
      cases jm <;> simp [JMod.allowed, layerNames] at h1
      simp only [JMod.read, pat_iff.2 ho, Option.bind_eq_bind, Option.bind_some, Option.map_eq_some_iff] at h3
      obtain ⟨k, hk, rfl⟩ := h3
      rw [byte_iff] at hk; subst hk
      exact ⟨.leaf (.consumer k), by simp only [NKey.Says]; exact .consumer ho, by simp [NKey.toJson, Leaf.toJson]⟩
    case custom =>
      subst hval
      simp only [Mod.accepts] at hacc
      split at hacc
      · rename_i c he
        have ho := pat_iff.1 he
        obtain ⟨jm, h1, h2, h3⟩ := read_one ho hj
        cases jm <;> simp [JMod.allowed, layerNames] at h1
        simp only [JMod.read, he, Option.bind_eq_bind, Option.bind_some, Option.map_eq_some_iff] at h3
        obtain ⟨k, hk, rfl⟩ := h3
        rw [byte_iff] at hk; subst hk
        exact ⟨.leaf (.custom k), by simp only [NKey.Says]; exact .custom ho, by simp [NKey.toJson, Leaf.toJson]⟩
      · simp at hacc
    case keyboard =>
      obtain ⟨fs, rfl, hs, hok⟩ := recordOf_eq hacc
      obtain ⟨hon, n, hn', hnm⟩ := hasAny_shape hs
      simp only [fieldsOk_cons, fieldsOk_nil, and_true] at hok
      cases hmod : get "modifiers" fs with
      | none =>
        simp only [patRest, hmod, Option.map_none] at hval
        cases hval
        have hn : n = "key_code" := by
          simp only [List.mem_cons, List.not_mem_nil, or_false] at hnm
          rcases hnm with h | h
          · exact h
          · subst h; exact absurd hn' (get_eq_none.1 hmod)
        subst hn
        obtain ⟨x, hx⟩ := get_isSome.1 hn'
        have ho : One "key_code" x (.record fs) := ⟨fs, rfl, fun n hn => by
          have := hon n hn
          simp only [List.mem_cons, List.not_mem_nil, or_false] at this
          rcases this with h | h
          · simp [h]
          · subst h; exact absurd hn (get_eq_none.1 hmod), hx⟩
        obtain ⟨jm, h1, h2, h3⟩ := read_one ho hj
        cases jm <;> simp [JMod.allowed, layerNames] at h1
        simp only [JMod.read, pat_iff.2 ho, Option.map_eq_some_iff] at h3
        obtain ⟨k, hk, rfl⟩ := h3
        rw [byte_iff] at hk; subst hk
        exact ⟨.leaf (.keyCode k), by simp only [NKey.Says]; exact .keyCode ho, by simp [NKey.toJson, Leaf.toJson]⟩
      | some mv =>
        obtain ⟨mr, hmr⟩ := ModsSaid.of_ok (hok.2 mv hmod)
        cases hkc : get "key_code" fs with
        | none =>
          have ho : One "modifiers" mv (.record fs) := ⟨fs, rfl, fun n hn => by
            have := hon n hn
            simp only [List.mem_cons, List.not_mem_nil, or_false] at this
            rcases this with h | h
            · subst h; exact absurd hn (get_eq_none.1 hkc)
            · simp [h], hmod⟩
          have hsay : LeafSaid true (.modifiers mr) (.record fs) := .modifiers hmr ho
          obtain ⟨w', h1, h2⟩ := leaf_read (j := (.modifiers mr.toByte)) hsay (by simp [Leaf.toJson])
          rw [hw] at h1; cases h1
          rw [hj] at h2; cases h2
          exact ⟨.leaf (.modifiers mr), by simp only [NKey.Says]; exact hsay, by simp [NKey.toJson, Leaf.toJson]⟩
        | some x =>
          simp only [patRest, hmod, Option.map_some, hmr.value] at hval
          cases hval
          have hx : ∃ kc, x = ofByte kc := by
            have hT : Two "key_code" x "modifiers" (ofByte mr.toByte) (.record (without "modifiers" fs ++ [("modifiers", ofByte mr.toByte)])) := by
              refine ⟨_, rfl, ?_, ?_, ?_⟩
              · intro n hn
                simp only [names, List.map_append, List.mem_append] at hn
                rcases hn with hn | hn
                · obtain ⟨x, hx, rfl⟩ := List.mem_map.1 hn
                  exact hon x.1 (List.mem_map.2 ⟨x, (List.mem_filter.1 hx).1, rfl⟩)
                · simp only [List.map_cons, List.map_nil, List.mem_singleton] at hn
                  simp [hn]
              · have := get_without (f := "key_code") (g := "modifiers") (fs := fs) (by simp)
                rw [hkc] at this
                unfold get at this ⊢
                rw [List.find?_append]
                obtain ⟨x, hx, hx'⟩ := Option.map_eq_some_iff.1 this
                simp [hx, hx']
              · have := get_without_self "modifiers" fs
                unfold get at this ⊢
                rw [List.find?_append]
                simp only [Option.map_eq_none_iff] at this
                simp [this]
            obtain ⟨jm, h1, h1', h2, h3⟩ := read_two hT hj
            cases jm <;> simp [JMod.allowed, layerNames] at h1
            simp only [JMod.read, pat₂_iff.2 hT, hT.pat (h := "key_code") (by simp), hT.pat (h := "modifiers") (by simp), Option.bind_eq_bind,
              Option.bind_eq_some_iff] at h3
            obtain ⟨kc, hkc, _⟩ := h3
            exact ⟨kc, byte_iff.1 hkc⟩
          obtain ⟨kc, rfl⟩ := hx
          have hsay : LeafSaid true (.keyCodeModifiers kc mr) (.record fs) := .keyCodeModifiers hmr ⟨fs, rfl, hon, hkc, hmod⟩
          obtain ⟨w', h1, h2⟩ := leaf_read (j := (.keyCodeModifiers kc mr.toByte)) hsay (by simp [Leaf.toJson])
          rw [hw] at h1; cases h1
          rw [hj] at h2; cases h2
          exact ⟨.leaf (.keyCodeModifiers kc mr), by simp only [NKey.Says]; exact hsay, by simp [NKey.toJson, Leaf.toJson]⟩
    case layerModifier =>
      obtain ⟨lm, hp, hlv⟩ := hval
      simp only [Mod.accepts, hp] at hacc
      obtain ⟨jm, h2, h3⟩ := read_some hj
      have hone : ∃ f ∈ layerNames, ∃ x, One f x w := by
        unfold layerModifierValue at hlv
        split at hlv
        · cases hlv; exact ⟨_, by simp [layerNames], _, One.record⟩
        · cases hlv; exact ⟨_, by simp [layerNames], _, One.record⟩
        · cases hlv; exact ⟨_, by simp [layerNames], _, One.record⟩
        · cases hlv; exact ⟨_, by simp [layerNames], _, One.record⟩
        · obtain ⟨n, _, rfl⟩ := Option.map_eq_some_iff.1 hlv
          exact ⟨_, by simp [layerNames], _, One.record⟩
        · cases hlv
      obtain ⟨f, hf, x, hfx⟩ := hone
      obtain ⟨jm, h1, h2, h3⟩ := read_one hfx hj
      have : jm = .modifier := by
        simp only [layerNames, List.mem_cons, List.not_mem_nil, or_false] at hf
        rcases hf with rfl | rfl | rfl | rfl | rfl <;> cases jm <;> simp [JMod.allowed] at h1 <;> rfl
      subst this
      simp only [JMod.read, Option.map_eq_some_iff] at h3
      obtain ⟨k, hk, rfl⟩ := h3
      obtain ⟨m, a, b⟩ := LayerSaid.of_value hacc hlv hk
      exact ⟨.leaf (.layerModifier m), by simp only [NKey.Says]; exact .layerModifier a (pat_iff.1 hp), by simp [NKey.toJson, Leaf.toJson, b]⟩
    case layered =>
      obtain ⟨⟨ls, b⟩, hp, b', hb', ls', hls, rfl⟩ := hval
      have hsz := patRest_size hp
      obtain ⟨fs, rfl, hg, rfl⟩ := patRest_eq hp
      obtain ⟨jm, h1, h1', h2, h3⟩ := read_two (Two.record (by simp)) hj
      cases jm <;> simp [JMod.allowed, layerNames] at h1 h1'
      simp only [JMod.read] at h3
      rw [pat₂_iff.2 (Two.record (by simp))] at h3
      simp only [Option.bind_eq_bind, Option.bind_some, Option.bind_eq_some_iff, Option.pure_def, Option.some.injEq] at h3
      obtain ⟨jb, hjb, js, hjs, rfl⟩ := h3
      cases ls <;> simp only [mapArray, reduceCtorEq, Option.map_eq_some_iff] at hls
      rename_i vs
      obtain ⟨ws, hws, rfl⟩ := hls
      obtain ⟨ks, a1, a2⟩ := ih.layers vs ws js (fun v hv => by have := size_mem hv; simp only [Val.size] at hsz hn; omega) hws hjs
      obtain ⟨k, b1, b2⟩ := ih _ b' jb (by simp only; omega) hb' hjb
      exact ⟨.layered k ks, by simp only [NKey.Says]; exact ⟨fs, vs, rfl, hg, b1, a1⟩, by simp [NKey.toJson, a2, b2]⟩
    case mouse =>
      subst hval
      obtain ⟨x, ho, _⟩ := recordExact_iff.1 hacc
      obtain ⟨jm, h1, h2, h3⟩ := read_one ho hj
      cases jm <;> simp [JMod.allowed, layerNames] at h1
      simp only [JMod.read, pat_iff.2 ho, Option.bind_eq_bind, Option.bind_some, Option.map_eq_some_iff] at h3
      obtain ⟨k, hk, rfl⟩ := h3
      exact ⟨.leaf (.mouse k), by simp only [NKey.Says]; exact .mouse (mouseKey_iff.1 hk) ho, by simp [NKey.toJson, Leaf.toJson]⟩
    case sticky =>
      obtain ⟨x, ho, hx⟩ := recordExact_iff.1 hacc
      obtain ⟨mr, hmr⟩ := ModsSaid.of_ok hx
      have hsay : LeafSaid true (.sticky mr) v := .sticky hmr ho
      obtain ⟨w', h1, h2⟩ := leaf_read (j := (.sticky mr.toByte)) hsay (by simp [Leaf.toJson])
      rw [hw] at h1; cases h1
      rw [hj] at h2; cases h2
      exact ⟨.leaf (.sticky mr), by simp only [NKey.Says]; exact hsay, by simp [NKey.toJson, Leaf.toJson]⟩
    case tapDance =>
      obtain ⟨⟨ls, b⟩, hp, b', hb', hls⟩ := hval
      have hsz := patRest_size hp
      obtain ⟨fs, rfl, hg, rfl⟩ := patRest_eq hp
      simp only at hls
      split at hls
      · rename_i vs
        simp only [Option.bind_eq_some_iff, Option.some.injEq] at hls
        obtain ⟨ws, hws, rfl⟩ := hls
        have hlay : get "layered" fs = none := by
          cases hgl : get "layered" fs with
          | none => rfl
          | some x =>
            cases hax : arrayOf (anyOf [isNull, keyValidator]) x with
            | true =>
              have := moduleFor_first hm (m' := .layered) (by simp only [Mod.accepts, patRest, hgl, Option.map_some, both_eq, hax])
              simp [Mod.rank] at this
            | false =>
              rw [bad_layers _ (Nat.le_refl _) (by rw [get_without (by simp)]; exact hgl) hax] at hb'
              cases hb'
        obtain ⟨jm, h1, h2, h3⟩ := read_one One.record hj
        cases jm <;> simp [JMod.allowed, layerNames] at h1
        simp only [JMod.read, pat_iff.2 One.record, Option.bind_eq_bind, Option.bind_some, Option.bind_eq_some_iff, Option.pure_def, Option.some.injEq, elements] at h3
        obtain ⟨js, hjs, rfl⟩ := h3
        obtain ⟨jb, js, rfl, hjb, hjs⟩ := mapAll_cons hjs
        obtain ⟨ks, a1, a2⟩ := ih.all vs ws js (fun v hv => by have := size_mem hv; simp only [Val.size] at hsz hn; omega) hws hjs
        obtain ⟨k, b1, b2⟩ := ih _ b' jb (by simp only; omega) hb' hjb
        exact ⟨.dances k ks, by simp only [NKey.Says]; exact ⟨fs, vs, rfl, hlay, hg, b1, a1⟩, by simp [NKey.toJson, a2, b2]⟩
      · cases hls
    case tapHold =>
      obtain ⟨⟨hv, tv⟩, hp, h', hh', t', ht', rfl⟩ := hval
      have hsz := patRest_size hp
      obtain ⟨fs, rfl, hg, rfl⟩ := patRest_eq hp
      have hlay : get "layered" fs = none := by
        cases hgl : get "layered" fs with
        | none => rfl
        | some x =>
          cases hax : arrayOf (anyOf [isNull, keyValidator]) x with
          | true =>
            have := moduleFor_first hm (m' := .layered) (by simp only [Mod.accepts, patRest, hgl, Option.map_some, both_eq, hax])
            simp [Mod.rank] at this
          | false =>
            rw [bad_layers _ (Nat.le_refl _) (by rw [get_without (by simp)]; exact hgl) hax] at ht'
            cases ht'
      have hdan : get "tap_dances" fs = none := by
        cases hgl : get "tap_dances" fs with
        | none => rfl
        | some x =>
          cases hax : arrayOf keyValidator x with
          | true =>
            have := moduleFor_first hm (m' := .tapDance) (by simp only [Mod.accepts, patRest, hgl, Option.map_some, both_eq, hax])
            simp [Mod.rank] at this
          | false =>
            rw [bad_dances _ (Nat.le_refl _) (by rw [get_without (by simp)]; exact hgl) hax] at ht'
            cases ht'
      obtain ⟨jm, h1, h1', h2, h3⟩ := read_two (Two.record (by simp)) hj
      cases jm <;> simp [JMod.allowed, layerNames] at h1 h1'
      simp only [JMod.read] at h3
      rw [pat₂_iff.2 (Two.record (by simp))] at h3
      simp only [Option.bind_eq_bind, Option.bind_some, Option.bind_eq_some_iff, Option.pure_def, Option.some.injEq] at h3
      obtain ⟨jh, hjh, jt, hjt, rfl⟩ := h3
      obtain ⟨kh, a1, a2⟩ := ih _ h' jh (by simp only; omega) hh' hjh
      obtain ⟨kt, b1, b2⟩ := ih _ t' jt (by simp only; omega) ht' hjt
      exact ⟨.hold kt kh, by simp only [NKey.Says]; exact ⟨fs, hv, rfl, hlay, hdan, hg, b1, a1⟩, by simp [NKey.toJson, a2, b2]⟩

/-- The JSON value of a value is read as a key exactly if the value says a key with this meaning. -/
theorem read_iff {v : Val} {j : JKey} : (toJson v).bind read = some j ↔ ∃ k : NKey, k.Says true v ∧ k.toJson = some j := by
  constructor
  · intro h
    obtain ⟨w, h1, h2⟩ := Option.bind_eq_some_iff.1 h
    exact says_of_read v.size v w j (Nat.le_refl _) h1 h2
  · rintro ⟨k, h1, h2⟩
    obtain ⟨w, a, b⟩ := says_read k v j h1 h2
    rw [a]
    exact b

theorem read_eq_toJson {k : NKey} {v : Val} (h : k.Says true v) : (toJson v).bind read = k.toJson := by
  apply Option.ext
  intro j
  rw [read_iff]
  constructor
  · rintro ⟨k', h', hj⟩
    rw [Says.unique h h']
    exact hj
  · intro hj
    exact ⟨k, h, hj⟩

end Verif.Nickel
