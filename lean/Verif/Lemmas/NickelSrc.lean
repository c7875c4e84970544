import Verif.Lemmas.NickelAccum

/-!
# A keymap file compiles as what it says
-/

namespace Verif.Nickel

open Codegen (NKey Leaf Src SrcChord JKey)

/-! ## Layers -/

/-- The layers say the same at one position. -/
def Rows (t : Bool) (idx : Nat) : List (List Val) → List (List (Option NKey)) → Prop
  | [], [] => True
  | vs :: r, ks :: s =>
    (match vs[idx]?, ks[idx]? with
      | some v, some k => Cell t k v
      | none, none => True
      | _, _ => False) ∧ Rows t idx r s
  | _, _ => False

theorem rows_of {t : Bool} {idx : Nat} : ∀ {r : List (List Val)} {s : List (List (Option NKey))}, s.map List.length = r.map List.length →
    (∀ (l : Nat) vs ks v k, r[l]? = some vs → s[l]? = some ks → vs[idx]? = some v → ks[idx]? = some k → Cell t k v) → Rows t idx r s
  | [], [], _, _ => trivial
  | [], _ :: _, h, _ => by simp at h
  | _ :: _, [], h, _ => by simp at h
  | vs :: r, ks :: s, h, hc => by
    simp only [List.map_cons, List.cons.injEq] at h
    refine ⟨?_, rows_of h.2 fun l vs ks v k h1 h2 => hc (l + 1) vs ks v k (by simpa using h1) (by simpa using h2)⟩
    cases hv : vs[idx]? with
    | none =>
      have : ks[idx]? = none := by rw [List.getElem?_eq_none_iff] at hv ⊢; omega
      rw [this]
      trivial
    | some v =>
      obtain ⟨hlt, _⟩ := List.getElem?_eq_some_iff.1 hv
      rw [List.getElem?_eq_getElem (by omega : idx < ks.length)]
      exact hc 0 vs ks v _ rfl rfl hv (List.getElem?_eq_getElem (by omega : idx < ks.length))

theorem Cell.checked {k : Option NKey} {v : Val} (h : Cell true k v) : checked v = some v := by
  unfold Nickel.checked nullableKey
  cases k with
  | none => cases h; rfl
  | some k =>
    have := moduleFor_valid (says_module _ _ h)
    simp only [anyOf, List.any_cons, this, Bool.true_or, if_true]

theorem checked_eq {v w : Val} (h : checked v = some w) : w = v := by
  unfold checked at h
  split at h
  · exact (Option.some.inj h).symm
  · cases h

theorem column_says {idx : Nat} : ∀ {r : List (List Val)} {s : List (List (Option NKey))}, Rows true idx r s → ∀ {ls : List (Option NKey)},
    Codegen.column idx s = some ls → ∃ vs, column idx r = some vs ∧ LayersSay true ls vs
  | [], [], _, ls, h => by
    simp only [Codegen.column, Option.some.injEq] at h; subst h
    exact ⟨[], rfl, by simp [LayersSay]⟩
  | [], _ :: _, h, _, _ => by cases h
  | _ :: _, [], h, _, _ => by cases h
  | vs :: r, ks :: s, h, ls, hl => by
    simp only [Codegen.column, Option.bind_eq_bind, Option.bind_eq_some_iff, Option.pure_def, Option.some.injEq] at hl
    obtain ⟨k, hk, ls', hls, rfl⟩ := hl
    obtain ⟨h1, h2⟩ := h
    obtain ⟨vs', a1, a2⟩ := column_says h2 hls
    rw [hk] at h1
    cases hv : vs[idx]? with
    | none => rw [hv] at h1; cases h1
    | some v =>
      rw [hv] at h1
      have hc : Cell true k v := h1
      refine ⟨v :: vs', by simp [column, hv, hc.checked, a1], ?_⟩
      cases k with
      | none => cases hc; simp only [LayersSay]; exact ⟨vs', rfl, a2⟩
      | some k => simp only [LayersSay]; exact ⟨v, vs', rfl, hc, a2⟩

theorem column_back {t : Bool} {idx : Nat} : ∀ {r : List (List Val)} {s : List (List (Option NKey))}, Rows t idx r s → ∀ {vs : List Val},
    column idx r = some vs → ∀ {ls : List (Option NKey)}, LayersSay false ls vs → Codegen.column idx s = some ls
  | [], [], _, vs, h, ls, hl => by
    simp only [column, Option.some.injEq] at h; subst h
    cases ls with
    | nil => rfl
    | cons l ls => cases l <;> simp [LayersSay] at hl
  | [], _ :: _, h, _, _, _, _ => by cases h
  | _ :: _, [], h, _, _, _, _ => by cases h
  | vs :: r, ks :: s, h, ws, hw, ls, hl => by
    simp only [column, Option.bind_eq_bind, Option.bind_eq_some_iff, Option.pure_def, Option.some.injEq] at hw
    obtain ⟨v, hv, v', hv', ws', hws, rfl⟩ := hw
    cases checked_eq hv'
    obtain ⟨h1, h2⟩ := h
    rw [hv] at h1
    cases hk : ks[idx]? with
    | none => rw [hk] at h1; cases h1
    | some k =>
      rw [hk] at h1
      have hc : Cell t k v := h1
      cases ls with
      | nil => simp [LayersSay] at hl
      | cons l ls =>
        cases l with
        | none =>
          simp only [LayersSay] at hl
          obtain ⟨_, he, hl⟩ := hl
          cases he
          cases k with
          | none => simp [Codegen.column, hk, column_back h2 hws hl]
          | some k => exact absurd hc Says.not_null
        | some l =>
          simp only [LayersSay] at hl
          obtain ⟨_, _, he, hl1, hl⟩ := hl
          cases he
          cases k with
          | none => cases hc; exact absurd hl1 Says.not_null
          | some k =>
            have hc' : k.Says t v := hc
            rw [Says.unique hl1 hc']
            simp [Codegen.column, hk, column_back h2 hws hl]

theorem layers_null {t : Bool} : ∀ {ls : List (Option NKey)} {vs : List Val}, LayersSay t ls vs → vs.all isNull = ls.all (·.isNone)
  | [], vs, h => by simp only [LayersSay] at h; subst h; rfl
  | none :: ls, vs, h => by
    simp only [LayersSay] at h
    obtain ⟨rest, rfl, h⟩ := h
    simp [isNull, layers_null h]
  | some k :: ls, vs, h => by
    simp only [LayersSay] at h
    obtain ⟨v, rest, rfl, h1, h⟩ := h
    have : isNull v = false := by cases v <;> first | rfl | exact absurd h1 Says.not_null
    simp [this]

theorem all_null {t : Bool} : ∀ {vs : List Val}, vs.all isNull = true → LayersSay t (vs.map fun _ => none) vs
  | [], _ => by simp [LayersSay]
  | v :: vs, h => by
    simp only [List.all_cons, Bool.and_eq_true] at h
    cases v <;> simp only [isNull, Bool.false_eq_true, false_and] at h
    simp only [List.map_cons, LayersSay]
    exact ⟨vs, rfl, all_null h.2⟩

theorem stacked_says {b : Option NKey} {vb : Val} (hb : Cell true b vb) {idx : Nat} {r : List (List Val)} {s : List (List (Option NKey))}
    (hr : Rows true idx r s) {k : NKey} (h : Codegen.stacked b idx s = some k) : ∃ v, stacked vb idx r = some v ∧ k.Says true v := by
  simp only [Codegen.stacked, Option.bind_eq_bind, Option.bind_eq_some_iff] at h
  obtain ⟨ls, hls, h⟩ := h
  obtain ⟨vs, hvs, hsay⟩ := column_says hr hls
  simp only [stacked, hvs, hb.checked, Option.bind_eq_bind, Option.bind_some, layers_null hsay]
  split at h
  · rename_i hn
    subst h
    simp only [hn, if_true, Option.pure_def]
    exact ⟨vb, rfl, hb⟩
  · rename_i hn
    simp only [hn, if_false]
    have fine : ∀ k0 : NKey, b = some k0 → (∀ l, k0 = .leaf l → l ≠ .capsWord) → (∀ b l, k0 ≠ .layered b l) → k = .layered k0 ls →
        ∃ v, withField "layered" (.arr vs) vb = some v ∧ k.Says true v := by
      rintro k0 rfl h1 h2 rfl
      have hs : k0.Says true vb := hb
      obtain ⟨fs, rfl⟩ : ∃ fs, vb = .record fs := by
        cases k0 with
        | leaf l =>
          simp only [NKey.Says] at hs
          cases hs with
          | capsWord => exact absurd rfl (h1 _ rfl)
          | automation _ h => exact ⟨h.choose, h.choose_spec.1⟩
          | compiled _ h => exact ⟨h.choose, h.choose_spec.1⟩
          | callback _ h => exact ⟨h.choose, h.choose_spec.1⟩
          | consumer h => exact ⟨h.choose, h.choose_spec.1⟩
          | custom h => exact ⟨h.choose, h.choose_spec.1⟩
          | keyCode h => exact ⟨h.choose, h.choose_spec.1⟩
          | modifiers _ h => exact ⟨h.choose, h.choose_spec.1⟩
          | keyCodeModifiers _ h => exact ⟨h.choose, h.choose_spec.1⟩
          | layerModifier _ h => exact ⟨h.choose, h.choose_spec.1⟩
          | mouse _ h => exact ⟨h.choose, h.choose_spec.1⟩
          | sticky _ h => exact ⟨h.choose, h.choose_spec.1⟩
        | hold _ _ => simp only [NKey.Says] at hs; obtain ⟨fs, _, h, _⟩ := hs; exact ⟨fs, h⟩
        | dances _ _ => simp only [NKey.Says] at hs; obtain ⟨fs, _, h, _⟩ := hs; exact ⟨fs, h⟩
        | layered _ _ => exact absurd rfl (h2 _ _)
        | chorded _ _ => simp only [NKey.Says] at hs; obtain ⟨_, _, ⟨fs, h, _⟩, _⟩ := hs; exact ⟨fs, h⟩
        | aux _ => simp only [NKey.Says] at hs; obtain ⟨_, ⟨fs, h, _⟩, _⟩ := hs; exact ⟨fs, h⟩
      have hg : get "layered" fs = none := by
        cases hg : get "layered" fs with
        | none => rfl
        | some x =>
          obtain ⟨b, l, rfl⟩ := get_layered_some hs hg
          exact absurd rfl (h2 _ _)
      refine ⟨_, withField_of hg, ?_⟩
      simp only [NKey.Says]
      exact ⟨_, vs, rfl, by simp [get_cons], by rw [without_head hg]; exact hs, hsay⟩
    unfold Codegen.withLayers at h
    split at h
    · cases h
    · cases h
    · cases h
    · rename_i k0 h1 h2
      refine fine k0 rfl ?_ ?_ (Option.some.inj h).symm
      · rintro l rfl rfl; exact h1 rfl
      · rintro b l rfl; exact h2 _ _ rfl

/-- The value says something, or it is `null`. -/
def Said (v : Val) : Prop := v = .null ∨ ∃ k : NKey, k.Says false v

theorem LayersSay.said {t : Bool} : ∀ {ls : List (Option NKey)} {vs : List Val}, LayersSay t ls vs → ∀ v ∈ vs, v = .null ∨ ∃ k : NKey, k.Says t v
  | [], vs, h => by simp only [LayersSay] at h; subst h; simp
  | none :: ls, vs, h => by
    simp only [LayersSay] at h
    obtain ⟨rest, rfl, h⟩ := h
    intro v hv
    rcases List.mem_cons.1 hv with rfl | hv
    · exact .inl rfl
    · exact h.said v hv
  | some k :: ls, vs, h => by
    simp only [LayersSay] at h
    obtain ⟨v, rest, rfl, h1, h⟩ := h
    intro v hv
    rcases List.mem_cons.1 hv with rfl | hv
    · exact .inr ⟨k, h1⟩
    · exact h.said v hv

theorem column_mem {idx : Nat} : ∀ {r : List (List Val)} {vs : List Val}, column idx r = some vs → ∀ row ∈ r, ∀ v, row[idx]? = some v → v ∈ vs
  | [], vs, h, row, hr => by cases hr
  | vs :: r, ws, h, row, hr => by
    simp only [column, Option.bind_eq_bind, Option.bind_eq_some_iff, Option.pure_def, Option.some.injEq] at h
    obtain ⟨v, hv, v', hv', ws', hws, rfl⟩ := h
    cases checked_eq hv'
    intro x hx
    rcases List.mem_cons.1 hr with rfl | hr
    · rw [hv] at hx; cases hx; simp
    · exact List.mem_cons_of_mem _ (column_mem hws row hr x hx)

theorem stacked_cases {vb v : Val} {idx : Nat} {r : List (List Val)} (h : stacked vb idx r = some v) {k : NKey} (hk : k.Says false v) :
    ∃ vs, column idx r = some vs ∧ ((vs.all isNull = true ∧ v = vb) ∨
      (vs.all isNull = false ∧ ∃ b ls fs, k = .layered b ls ∧ vb = .record fs ∧ get "layered" fs = none ∧ b.Says false vb ∧ LayersSay false ls vs)) := by
  simp only [stacked, Option.bind_eq_bind, Option.bind_eq_some_iff] at h
  obtain ⟨vs, hvs, vb', hc, h⟩ := h
  cases checked_eq hc
  refine ⟨vs, hvs, ?_⟩
  split at h
  · rename_i hn
    simp only [Option.pure_def, Option.some.injEq] at h
    exact .inl ⟨hn, h.symm⟩
  · rename_i hn
    obtain ⟨fs, rfl, hg, rfl⟩ := withField_eq h
    refine .inr ⟨by simpa using hn, ?_⟩
    obtain ⟨b, ls, rfl⟩ := get_layered_some hk (x := .arr vs) (by simp [get_cons])
    simp only [NKey.Says] at hk
    obtain ⟨_, ws, he, h1, h2, h3⟩ := hk
    cases he
    rw [without_head hg] at h2
    simp only [get_cons, if_true, Option.some.injEq, Val.arr.injEq] at h1
    subst h1
    exact ⟨b, ls, fs, rfl, rfl, hg, h2, h3⟩

theorem stacked_said {vb v : Val} {idx : Nat} {r : List (List Val)} (h : stacked vb idx r = some v) {k : NKey} (hk : k.Says false v) :
    Said vb ∧ ∀ row ∈ r, ∀ x, row[idx]? = some x → Said x := by
  obtain ⟨vs, hvs, ⟨hn, rfl⟩ | ⟨hn, b, ls, fs, rfl, rfl, hg, h2, h3⟩⟩ := stacked_cases h hk
  · refine ⟨.inr ⟨k, hk⟩, fun row hrow x hx => ?_⟩
    exact (all_null hn).said x (column_mem hvs row hrow x hx)
  · refine ⟨.inr ⟨b, h2⟩, fun row hrow x hx => ?_⟩
    exact h3.said x (column_mem hvs row hrow x hx)

theorem stacked_back {t : Bool} {b : Option NKey} {vb v : Val} (hb : Cell t b vb) {idx : Nat} {r : List (List Val)} {s : List (List (Option NKey))}
    (hr : Rows t idx r s) (h : stacked vb idx r = some v) {k : NKey} (hk : k.Says false v) : Codegen.stacked b idx s = some k := by
  have base : ∀ {k0 : NKey}, k0.Says false vb → b = some k0 := by
    intro k0 h0
    cases b with
    | none => cases hb; exact absurd h0 Says.not_null
    | some b =>
      have hb' : b.Says t vb := hb
      rw [Says.unique h0 hb']
  obtain ⟨vs, hvs, ⟨hn, rfl⟩ | ⟨hn, b', ls, fs, rfl, rfl, hg, h2, h3⟩⟩ := stacked_cases h hk
  · have h3 : LayersSay false _ vs := all_null hn
    simp [Codegen.stacked, column_back hr hvs h3, base hk]
  · have : ls.all (·.isNone) = false := by rw [← layers_null h3]; exact hn
    simp only [Codegen.stacked, column_back hr hvs h3, Option.bind_eq_bind, Option.bind_some, this, Bool.false_eq_true, if_false]
    rw [base h2]
    unfold Codegen.withLayers
    split
    · rename_i he; cases he
    · rename_i he; cases he
      simp only [NKey.Says] at h2
      cases h2
    · rename_i he; cases he
      simp only [NKey.Says] at h2
      obtain ⟨_, _, he, h, _⟩ := h2
      cases he
      rw [hg] at h; cases h
    · rename_i he; cases he; rfl

theorem stackedFrom_says {r : List (List Val)} {s : List (List (Option NKey))} : ∀ {vbs : List Val} {bs : List (Option NKey)} {idx : Nat},
    vbs.length = bs.length → (∀ (j : Nat) v k, vbs[j]? = some v → bs[j]? = some k → Cell true k v) → (∀ j < vbs.length, Rows true (idx + j) r s) →
    ∀ {ks : List NKey}, Codegen.stackedFrom s idx bs = some ks → ∃ vs, stackedFrom r idx vbs = some vs ∧ AllSay true ks vs
  | [], [], idx, _, _, _, ks, h => by
    simp only [Codegen.stackedFrom, Option.some.injEq] at h; subst h
    exact ⟨[], rfl, by simp [AllSay]⟩
  | [], _ :: _, _, h, _, _, _, _ => by simp at h
  | _ :: _, [], _, h, _, _, _, _ => by simp at h
  | vb :: vbs, b :: bs, idx, hlen, hc, hr, ks, h => by
    simp only [Codegen.stackedFrom, Option.bind_eq_bind, Option.bind_eq_some_iff, Option.pure_def, Option.some.injEq] at h
    obtain ⟨k, h1, ks', h2, rfl⟩ := h
    obtain ⟨v, a1, a2⟩ := stacked_says (hc 0 vb b rfl rfl) (by simpa using hr 0 (by simp)) h1
    obtain ⟨vs, b1, b2⟩ := stackedFrom_says (idx := idx + 1) (by simpa using hlen) (fun j v k h1 h2 => hc (j + 1) v k (by simpa using h1) (by simpa using h2))
      (fun j hj => by have := hr (j + 1) (by simpa using hj); rwa [← Nat.add_assoc, Nat.add_right_comm] at this) h2
    exact ⟨v :: vs, by simp [stackedFrom, a1, b1], by simp only [AllSay]; exact ⟨v, vs, rfl, a2, b2⟩⟩

theorem stackedFrom_said {r : List (List Val)} : ∀ {vbs vs : List Val} {idx : Nat} {ks : List NKey}, stackedFrom r idx vbs = some vs → AllSay false ks vs →
    (∀ v ∈ vbs, Said v) ∧ ∀ j < vbs.length, ∀ row ∈ r, ∀ x, row[idx + j]? = some x → Said x
  | [], vs, idx, ks, h, hk => by simp
  | vb :: vbs, vs, idx, ks, h, hk => by
    simp only [stackedFrom, Option.bind_eq_bind, Option.bind_eq_some_iff, Option.pure_def, Option.some.injEq] at h
    obtain ⟨v, h1, vs', h2, rfl⟩ := h
    cases ks with
    | nil => simp [AllSay] at hk
    | cons k ks =>
      simp only [AllSay] at hk
      obtain ⟨_, _, he, hk1, hk2⟩ := hk
      cases he
      obtain ⟨a1, a2⟩ := stacked_said h1 hk1
      obtain ⟨b1, b2⟩ := stackedFrom_said h2 hk2
      refine ⟨by simpa using ⟨a1, b1⟩, fun j hj row hrow x hx => ?_⟩
      cases j with
      | zero => exact a2 row hrow x (by simpa using hx)
      | succ j => exact b2 j (by simpa using hj) row hrow x (by rwa [← Nat.add_assoc, Nat.add_right_comm] at hx)

theorem stackedFrom_back {t : Bool} {r : List (List Val)} {s : List (List (Option NKey))} : ∀ {vbs : List Val} {bs : List (Option NKey)} {idx : Nat},
    vbs.length = bs.length → (∀ (j : Nat) v k, vbs[j]? = some v → bs[j]? = some k → Cell t k v) → (∀ j < vbs.length, Rows t (idx + j) r s) →
    ∀ {vs : List Val}, stackedFrom r idx vbs = some vs → ∀ {ks : List NKey}, AllSay false ks vs → Codegen.stackedFrom s idx bs = some ks
  | [], [], idx, _, _, _, vs, h, ks, hk => by
    simp only [stackedFrom, Option.some.injEq] at h; subst h
    cases ks with
    | nil => rfl
    | cons k ks => simp [AllSay] at hk
  | [], _ :: _, _, h, _, _, _, _, _, _ => by simp at h
  | _ :: _, [], _, h, _, _, _, _, _, _ => by simp at h
  | vb :: vbs, b :: bs, idx, hlen, hc, hr, vs, h, ks, hk => by
    simp only [stackedFrom, Option.bind_eq_bind, Option.bind_eq_some_iff, Option.pure_def, Option.some.injEq] at h
    obtain ⟨v, h1, vs', h2, rfl⟩ := h
    cases ks with
    | nil => simp [AllSay] at hk
    | cons k ks =>
      simp only [AllSay] at hk
      obtain ⟨_, _, he, hk1, hk2⟩ := hk
      cases he
      have a := stacked_back (hc 0 vb b rfl rfl) (by simpa using hr 0 (by simp)) h1 hk1
      have b := stackedFrom_back (idx := idx + 1) (by simpa using hlen) (fun j v k h1 h2 => hc (j + 1) v k (by simpa using h1) (by simpa using h2))
        (fun j hj => by have := hr (j + 1) (by simpa using hj); rwa [← Nat.add_assoc, Nat.add_right_comm] at this) h2 hk2
      simp [Codegen.stackedFrom, a, b]

/-! ## Chords -/

/-- The chords say the same for one position. -/
def Chs (t : Bool) (idx : Nat) : List RawChord → List SrcChord → Prop
  | [], [] => True
  | c :: cs, d :: ds => d.indices = c.indices ∧ (c.indices.head? = some idx → d.key.Says t c.key) ∧ Chs t idx cs ds
  | _, _ => False

theorem chs_of {t : Bool} {idx : Nat} : ∀ {cs : List RawChord} {ds : List SrcChord}, ds.map (·.indices) = cs.map (·.indices) →
    (∀ (n : Nat) c d, cs[n]? = some c → ds[n]? = some d → c.indices.head? = some idx → d.key.Says t c.key) → Chs t idx cs ds
  | [], [], _, _ => trivial
  | [], _ :: _, h, _ => by simp at h
  | _ :: _, [], h, _ => by simp at h
  | c :: cs, d :: ds, h, hc => by
    simp only [List.map_cons, List.cons.injEq] at h
    exact ⟨h.1, hc 0 c d rfl rfl, chs_of h.2 fun n c d h1 h2 => hc (n + 1) c d (by simpa using h1) (by simpa using h2)⟩

theorem Chs.any {t : Bool} {idx i : Nat} : ∀ {cs : List RawChord} {ds : List SrcChord}, Chs t idx cs ds →
    ds.any (fun c => c.indices.contains i) = cs.any (fun c => c.indices.contains i)
  | [], [], _ => rfl
  | [], _ :: _, h => by cases h
  | _ :: _, [], h => by cases h
  | c :: cs, d :: ds, h => by
    obtain ⟨h1, _, h3⟩ := h
    simp only [List.any_cons, h1, h3.any]

theorem primary_says {idx : Nat} : ∀ {n : Nat} {cs : List RawChord} {ds : List SrcChord}, Chs true idx cs ds → ∀ {xs : List (Nat × NKey)},
    Codegen.primaryChords idx n ds = some xs → ∃ vs, primaryChords idx n cs = some vs ∧ ChordsSay true xs vs
  | n, [], [], _, xs, h => by
    simp only [Codegen.primaryChords, Option.some.injEq] at h; subst h
    exact ⟨[], rfl, by simp [ChordsSay]⟩
  | _, [], _ :: _, h, _, _ => by cases h
  | _, _ :: _, [], h, _, _ => by cases h
  | n, c :: cs, d :: ds, h, xs, hx => by
    obtain ⟨h1, h2, h3⟩ := h
    unfold Codegen.primaryChords at hx
    unfold primaryChords
    rw [h1] at hx
    cases hi : c.indices with
    | nil => rw [hi] at hx; cases hx
    | cons i rest =>
      rw [hi] at hx
      simp only [Option.bind_eq_bind, Option.bind_eq_some_iff, Option.pure_def, Option.some.injEq] at hx
      obtain ⟨ys, hy, rfl⟩ := hx
      obtain ⟨vs, a1, a2⟩ := primary_says h3 hy
      simp only [a1, Option.bind_eq_bind, Option.bind_some]
      by_cases he : i = idx
      · subst he
        have hs := h2 (by rw [hi]; rfl)
        have hc : checked c.key = some c.key := Cell.checked (k := some d.key) hs
        rw [if_pos rfl, if_pos rfl, hc]
        exact ⟨_, rfl, by simp only [ChordsSay]; exact ⟨c.key, vs, rfl, hs, a2⟩⟩
      · rw [if_neg he, if_neg he]
        exact ⟨vs, rfl, a2⟩

theorem primary_said {idx : Nat} : ∀ {n : Nat} {cs : List RawChord} {vs : List Val} {xs : List (Nat × NKey)}, primaryChords idx n cs = some vs →
    ChordsSay false xs vs → ∀ c ∈ cs, c.indices.head? = some idx → ∃ k : NKey, k.Says false c.key
  | n, [], vs, xs, _, _ => by simp
  | n, c :: cs, vs, xs, h, hk => by
    unfold primaryChords at h
    cases hi : c.indices with
    | nil => rw [hi] at h; cases h
    | cons i rest =>
      rw [hi] at h
      simp only [Option.bind_eq_bind, Option.bind_eq_some_iff] at h
      obtain ⟨ws, h1, h⟩ := h
      by_cases he : i = idx
      · rw [if_pos he] at h
        simp only [Option.bind_eq_some_iff, Option.pure_def, Option.some.injEq] at h
        obtain ⟨v, hv, rfl⟩ := h
        cases checked_eq hv
        cases xs with
        | nil => simp [ChordsSay] at hk
        | cons x xs =>
          obtain ⟨j, k⟩ := x
          simp only [ChordsSay] at hk
          obtain ⟨_, _, hh, hk1, hk2⟩ := hk
          cases hh
          intro d hd hh
          rcases List.mem_cons.1 hd with rfl | hd
          · exact ⟨k, hk1⟩
          · exact primary_said h1 hk2 d hd hh
      · rw [if_neg he] at h
        simp only [Option.pure_def, Option.some.injEq] at h
        subst h
        intro d hd hh
        rcases List.mem_cons.1 hd with rfl | hd
        · rw [hi] at hh; exact absurd (Option.some.inj hh) he
        · exact primary_said h1 hk d hd hh

theorem primary_back {t : Bool} {idx : Nat} : ∀ {n : Nat} {cs : List RawChord} {ds : List SrcChord}, Chs t idx cs ds → ∀ {vs : List Val},
    primaryChords idx n cs = some vs → ∀ {xs : List (Nat × NKey)}, ChordsSay false xs vs → Codegen.primaryChords idx n ds = some xs
  | n, [], [], _, vs, h, xs, hk => by
    simp only [primaryChords, Option.some.injEq] at h; subst h
    cases xs with
    | nil => rfl
    | cons k ks => simp [ChordsSay] at hk
  | _, [], _ :: _, h, _, _, _, _ => by cases h
  | _, _ :: _, [], h, _, _, _, _ => by cases h
  | n, c :: cs, d :: ds, h, vs, hv, xs, hk => by
    obtain ⟨h1, h2, h3⟩ := h
    unfold primaryChords at hv
    unfold Codegen.primaryChords
    rw [h1]
    cases hi : c.indices with
    | nil => rw [hi] at hv; cases hv
    | cons i rest =>
      rw [hi] at hv
      simp only [Option.bind_eq_bind, Option.bind_eq_some_iff] at hv
      obtain ⟨ws, hw, hv⟩ := hv
      by_cases he : i = idx
      · subst he
        rw [if_pos rfl] at hv
        simp only [Option.bind_eq_some_iff, Option.pure_def, Option.some.injEq] at hv
        obtain ⟨v, hc, rfl⟩ := hv
        cases checked_eq hc
        cases xs with
        | nil => simp [ChordsSay] at hk
        | cons x xs =>
          obtain ⟨j, k⟩ := x
          simp only [ChordsSay] at hk
          obtain ⟨_, _, hh, hk1, hk2⟩ := hk
          simp only [List.cons.injEq, Val.arr.injEq, Val.num.injEq, and_true] at hh
          obtain ⟨⟨hj, rfl⟩, rfl⟩ := hh
          have : j = n := by omega
          subst this
          have hs := h2 (by rw [hi]; rfl)
          rw [Says.unique hk1 hs]
          simp [primary_back h3 hw hk2]
      · rw [if_neg he] at hv
        simp only [Option.pure_def, Option.some.injEq] at hv
        subst hv
        simp [primary_back h3 hw hk, he]

theorem chordedKey_says {idx : Nat} {cs : List RawChord} {ds : List SrcChord} (hc : Chs true idx cs ds) {k k' : NKey} {v : Val} (hk : k.Says true v)
    (h : Codegen.chordedKey ds idx k = some k') : ∃ v', chordedKey cs idx v = some v' ∧ k'.Says true v' := by
  simp only [Codegen.chordedKey, Option.bind_eq_bind, Option.bind_eq_some_iff] at h
  obtain ⟨xs, hx, h⟩ := h
  obtain ⟨vs, a1, a2⟩ := primary_says hc hx
  simp only [chordedKey, a1, Option.bind_eq_bind, Option.bind_some]
  cases xs with
  | nil =>
    simp only [ChordsSay] at a2; subst a2
    simp only [Option.pure_def, Option.some.injEq, hc.any] at h ⊢
    subst h
    refine ⟨_, rfl, ?_⟩
    split
    · simp only [NKey.Says]; exact ⟨v, One.record, hk⟩
    · exact hk
  | cons x xs =>
    simp only [Option.pure_def, Option.some.injEq] at h
    subst h
    obtain ⟨j, kk⟩ := x
    have a2' := a2
    simp only [ChordsSay] at a2
    obtain ⟨w, rest, rfl, _⟩ := a2
    refine ⟨_, rfl, ?_⟩
    simp only [NKey.Says]
    exact ⟨_, v, Two.record (by simp), a2', hk⟩

theorem chordedKey_back {idx : Nat} {cs : List RawChord} {v v' : Val} (h : chordedKey cs idx v = some v') {k' : NKey} (hk : k'.Says false v') :
    ∃ k : NKey, k.Says false v ∧ (∀ c ∈ cs, c.indices.head? = some idx → ∃ k : NKey, k.Says false c.key) ∧
      ∀ {t : Bool} {ds : List SrcChord}, Chs t idx cs ds → Codegen.chordedKey ds idx k = some k' := by
  simp only [chordedKey, Option.bind_eq_bind, Option.bind_eq_some_iff] at h
  obtain ⟨vs, hv, h⟩ := h
  cases vs with
  | nil =>
    simp only [Option.pure_def, Option.some.injEq] at h
    have hnil : ChordsSay false [] [] := by simp [ChordsSay]
    by_cases ha : cs.any (fun c => c.indices.contains idx) = true
    · rw [if_pos ha] at h
      subst h
      obtain ⟨k, rfl⟩ := get_aux_some hk One.record
      simp only [NKey.Says] at hk
      obtain ⟨w, ho, hk⟩ := hk
      cases ho.eq One.record
      refine ⟨k, hk, primary_said hv hnil, fun {t ds} hc => ?_⟩
      have := primary_back hc hv hnil
      have hany := hc.any (i := idx)
      rw [ha] at hany
      simp only [Codegen.chordedKey, this, Option.bind_eq_bind, Option.bind_some, hany, if_true, Option.pure_def]
    · rw [if_neg ha] at h
      subst h
      refine ⟨k', hk, primary_said hv hnil, fun {t ds} hc => ?_⟩
      have := primary_back hc hv hnil
      have hany := hc.any (i := idx)
      simp only [Bool.not_eq_true] at ha
      rw [ha] at hany
      simp only [Codegen.chordedKey, this, Option.bind_eq_bind, Option.bind_some, hany, Bool.false_eq_true, if_false, Option.pure_def]
  | cons w ws =>
    simp only [Option.pure_def, Option.some.injEq] at h
    subst h
    obtain ⟨xs, k, rfl⟩ := get_chords_some hk (Two.record (by simp))
    simp only [NKey.Says] at hk
    obtain ⟨vs, p, ht, hk1, hk2⟩ := hk
    obtain ⟨he, rfl⟩ := ht.eq (Two.record (by simp))
    cases he
    refine ⟨k, hk2, primary_said hv hk1, fun {t ds} hc => ?_⟩
    have := primary_back hc hv hk1
    simp only [Codegen.chordedKey, this, Option.bind_eq_bind, Option.bind_some]
    cases xs with
    | nil => simp [ChordsSay] at hk1
    | cons x xs => rfl

theorem chordedFrom_says {cs : List RawChord} {ds : List SrcChord} : ∀ {ks : List NKey} {vs : List Val} {idx : Nat}, AllSay true ks vs →
    (∀ j < ks.length, Chs true (idx + j) cs ds) → ∀ {ks' : List NKey}, Codegen.chordedFrom ds idx ks = some ks' →
    ∃ vs', chordedFrom cs idx vs = some vs' ∧ AllSay true ks' vs'
  | [], vs, idx, h, _, ks', hk => by
    simp only [AllSay] at h; subst h
    simp only [Codegen.chordedFrom, Option.some.injEq] at hk; subst hk
    exact ⟨[], rfl, by simp [AllSay]⟩
  | k :: ks, vs, idx, h, hc, ks', hk => by
    simp only [AllSay] at h
    obtain ⟨v, rest, rfl, h1, h2⟩ := h
    simp only [Codegen.chordedFrom, Option.bind_eq_bind, Option.bind_eq_some_iff, Option.pure_def, Option.some.injEq] at hk
    obtain ⟨k', hk1, ks'', hk2, rfl⟩ := hk
    obtain ⟨v', a1, a2⟩ := chordedKey_says (by simpa using hc 0 (by simp)) h1 hk1
    obtain ⟨vs', b1, b2⟩ := chordedFrom_says (idx := idx + 1) h2
      (fun j hj => by have := hc (j + 1) (by simpa using hj); rwa [← Nat.add_assoc, Nat.add_right_comm] at this) hk2
    exact ⟨v' :: vs', by simp [chordedFrom, a1, b1], by simp only [AllSay]; exact ⟨v', vs', rfl, a2, b2⟩⟩

theorem chordedFrom_back {cs : List RawChord} : ∀ {vs vs' : List Val} {idx : Nat}, chordedFrom cs idx vs = some vs' → ∀ {ks' : List NKey}, AllSay false ks' vs' →
    ∃ ks, AllSay false ks vs ∧ (∀ j < vs.length, ∀ c ∈ cs, c.indices.head? = some (idx + j) → ∃ k : NKey, k.Says false c.key) ∧
      ∀ {t : Bool} {ds : List SrcChord}, (∀ j < vs.length, Chs t (idx + j) cs ds) → Codegen.chordedFrom ds idx ks = some ks'
  | [], vs', idx, h, ks', hk => by
    simp only [chordedFrom, Option.some.injEq] at h; subst h
    cases ks' with
    | nil => exact ⟨[], by simp [AllSay], by simp, fun _ => rfl⟩
    | cons k ks => simp [AllSay] at hk
  | v :: vs, vs', idx, h, ks', hk => by
    simp only [chordedFrom, Option.bind_eq_bind, Option.bind_eq_some_iff, Option.pure_def, Option.some.injEq] at h
    obtain ⟨v', h1, vs'', h2, rfl⟩ := h
    cases ks' with
    | nil => simp [AllSay] at hk
    | cons k' ks' =>
      simp only [AllSay] at hk
      obtain ⟨_, _, he, hk1, hk2⟩ := hk
      cases he
      obtain ⟨k, a1, a2, a3⟩ := chordedKey_back h1 hk1
      obtain ⟨ks, b1, b2, b3⟩ := chordedFrom_back h2 hk2
      refine ⟨k :: ks, by simp only [AllSay]; exact ⟨v, vs, rfl, a1, b1⟩, fun j hj c hc hh => ?_, fun {t ds} hc => ?_⟩
      · cases j with
        | zero => exact a2 c hc (by simpa using hh)
        | succ j => exact b2 j (by simpa using hj) c hc (by rw [hh]; congr 1; omega)
      · have := b3 (t := t) (ds := ds) (fun j hj => by have := hc (j + 1) (by simpa using hj); rwa [← Nat.add_assoc, Nat.add_right_comm] at this)
        simp [Codegen.chordedFrom, a3 (t := t) (ds := ds) (by simpa using hc 0 (by simp)), this]

/-! ## Keymaps -/

theorem AllSay.length {t : Bool} : ∀ {ks : List NKey} {vs : List Val}, AllSay t ks vs → ks.length = vs.length
  | [], vs, h => by simp only [AllSay] at h; subst h; rfl
  | k :: ks, vs, h => by
    simp only [AllSay] at h
    obtain ⟨v, rest, rfl, _, h⟩ := h
    simp [h.length]

theorem stackedFrom_length {r : List (List Val)} : ∀ {vbs vs : List Val} {idx : Nat}, stackedFrom r idx vbs = some vs → vs.length = vbs.length
  | [], vs, idx, h => by simp only [stackedFrom, Option.some.injEq] at h; subst h; rfl
  | v :: vbs, vs, idx, h => by
    simp only [stackedFrom, Option.bind_eq_bind, Option.bind_eq_some_iff, Option.pure_def, Option.some.injEq] at h
    obtain ⟨v', h1, vs'', h2, rfl⟩ := h
    simp [stackedFrom_length h2]

theorem mapAll_comp {α β γ : Type} {f : α → Option β} {g : β → Option γ} : ∀ {as : List α} {bs : List β} {cs : List γ}, mapAll f as = some bs →
    mapAll g bs = some cs → mapAll (fun a => (f a).bind g) as = some cs
  | [], bs, cs, h1, h2 => by
    simp only [mapAll, Option.some.injEq] at h1; subst h1
    exact h2
  | a :: as, bs, cs, h1, h2 => by
    obtain ⟨b, bs, rfl, a1, a2⟩ := mapAll_cons h1
    obtain ⟨c, cs, rfl, b1, b2⟩ := mapAll_cons h2
    simp [mapAll, a1, b1, mapAll_comp a2 b2]

/-- The parts of a file and of its source. -/
theorem Raw.Says.parts {t : Bool} {r : Raw} {s : Src} (h : r.Says t s) {vbs : List Val} {upper : List (List Val)} (hl : r.layers = vbs :: upper) :
    ∃ bs us, s.layers = bs :: us ∧ vbs.length = bs.length ∧ (∀ (j : Nat) v k, vbs[j]? = some v → bs[j]? = some k → Cell t k v) ∧
      (∀ j < vbs.length, Rows t (0 + j) upper us) ∧ ∀ j < vbs.length, Chs t (0 + j) r.chords s.chords := by
  have hcount : r.count = vbs.length := by simp [Raw.count, hl]
  have hlen := h.layers
  cases hs : s.layers with
  | nil => rw [hl, hs] at hlen; simp at hlen
  | cons bs us =>
    rw [hl, hs] at hlen
    simp only [List.map_cons, List.cons.injEq] at hlen
    refine ⟨bs, us, rfl, hlen.1.symm, fun j v k h1 h2 => ?_, fun j hj => ?_, fun j hj => ?_⟩
    · refine h.cells 0 j vbs bs v k (by simp [hl]) (by simp [hs]) h1 h2 ?_
      rw [hcount]
      exact (List.getElem?_eq_some_iff.1 h1).1
    · rw [Nat.zero_add]
      refine rows_of hlen.2 fun l vs ks v k h1 h2 h3 h4 => ?_
      exact h.cells (l + 1) j vs ks v k (by simpa [hl] using h1) (by simpa [hs] using h2) h3 h4 (by rw [hcount]; exact hj)
    · rw [Nat.zero_add]
      exact chs_of h.indices fun n c d h1 h2 h3 => h.chords n c d j h1 h2 h3 (by rw [hcount]; exact hj)

/-- What the steps of the compiler were, if it succeeded. -/
theorem compile_steps {r : Raw} {c : Codegen.Compiled} (h : compile r = some c) :
    ∃ vbs upper vs0 vs ks is ks' js, r.layers = vbs :: upper ∧ stackedFrom upper 0 vbs = some vs0 ∧ chordedFrom r.chords 0 vs0 = some vs ∧
      AllSay false ks vs ∧ Codegen.mapAccumAll [] ks = (is, ks') ∧ Codegen.toJsonAll ks' = some js ∧
      Codegen.Json.gen ⟨js, is, r.chords.map (·.indices), r.options⟩ = some c := by
  simp only [compile, Raw.json, Option.bind_eq_bind, Option.bind_eq_some_iff, Option.pure_def, Option.some.injEq, Prod.exists, Prod.mk.injEq] at h
  obtain ⟨js, isV, ⟨vs0, h0, vs, h1, isV', vs', h2, js', h3, rfl, rfl⟩, keys, h4, is, h5, h6⟩ := h
  unfold Raw.layeredKeys at h0
  cases hl : r.layers with
  | nil => rw [hl] at h0; cases h0
  | cons vbs upper =>
    rw [hl] at h0
    have hBack : Back (sizes vs') := says_of_read _
    obtain ⟨ks', a1, a2⟩ := hBack.all vs' js' keys (fun v hv => by have := size_mem hv; omega) h3 h4
    obtain ⟨acc, ks, i0, s0, e0⟩ := accumAll_back h2 a1 (InstructionsSaid.iff.1 h5)
    have : acc = [] := by
      have := i0.length
      simpa using this
    subst this
    exact ⟨vbs, upper, vs0, vs, ks, is, ks', keys, rfl, h0, h1, s0, e0, a2, h6⟩

/-- What compiles says something. -/
theorem compile_said {r : Raw} {c : Codegen.Compiled} (h : compile r = some c) : ∃ s : Src, r.Says false s := by
  obtain ⟨vbs, upper, vs0, vs, ks, is, ks', js, hl, h0, h1, h2, _⟩ := compile_steps h
  obtain ⟨ks0, a1, a2, _⟩ := chordedFrom_back h1 h2
  obtain ⟨b1, b2⟩ := stackedFrom_said h0 a1
  have hcount : r.count = vbs.length := by simp [Raw.count, hl]
  have hlen := stackedFrom_length h0
  let pick : Val → Option NKey := fun v => open Classical in if h : ∃ k : NKey, k.Says false v then some h.choose else none
  have hpick : ∀ v, Said v → Cell false (pick v) v := by
    intro v hv
    rcases hv with rfl | hv
    · have : pick .null = none := by
        simp only [pick]
        rw [dif_neg]
        rintro ⟨k, hk⟩
        exact Says.not_null hk
      rw [this]
      rfl
    · simp only [pick]
      rw [dif_pos hv]
      exact hv.choose_spec
  refine ⟨⟨r.layers.map (·.map pick), r.chords.map fun c => ⟨c.indices, (pick c.key).getD (.leaf .capsWord)⟩, r.options⟩, rfl, ?_, ?_, ?_, ?_⟩
  · simp [Function.comp_def]
  · intro l i vs ks v k h1 h2 h3 h4 hi
    simp only [List.getElem?_map, h1, Option.map_some, Option.some.injEq] at h2
    subst h2
    simp only [List.getElem?_map, h3, Option.map_some, Option.some.injEq] at h4
    subst h4
    refine hpick v ?_
    rw [hcount] at hi
    rw [hl] at h1
    cases l with
    | zero =>
      simp only [List.getElem?_cons_zero, Option.some.injEq] at h1
      subst h1
      exact b1 v (List.mem_of_getElem? h3)
    | succ l =>
      exact b2 i hi vs (List.mem_of_getElem? (by simpa using h1)) v (by simpa using h3)
  · simp [Function.comp_def]
  · intro n c d i h1 h2 h3 hi
    simp only [List.getElem?_map, h1, Option.map_some, Option.some.injEq] at h2
    subst h2
    rw [hcount, ← hlen] at hi
    have hs := a2 i hi c (List.mem_of_getElem? h1) (by rw [Nat.zero_add]; exact h3)
    have := hpick c.key (.inr hs)
    cases hp : pick c.key with
    | none =>
      rw [hp] at this
      have hn : c.key = .null := this
      rw [hn] at hs
      exact absurd hs.choose_spec Says.not_null
    | some k =>
      rw [hp] at this
      exact this

/-- What compiles compiles as what it says. -/
theorem compile_back {t : Bool} {r : Raw} {s : Src} (hs : r.Says t s) {c : Codegen.Compiled} (h : compile r = some c) : Codegen.compile s = some c := by
  obtain ⟨vbs, upper, vs0, vs, ks, is, ks', js, hl, h0, h1, h2, h3, h4, h5⟩ := compile_steps h
  obtain ⟨bs, us, e1, e2, e3, e4, e5⟩ := hs.parts hl
  obtain ⟨ks0, a1, _, a3⟩ := chordedFrom_back h1 h2
  have hk := stackedFrom_back e2 e3 e4 h0 a1
  have hc := a3 (t := t) (ds := s.chords) (by rw [stackedFrom_length h0]; exact e5)
  have hj : s.json = some ⟨js, is, s.chords.map (·.indices), s.options⟩ := by
    simp [Src.json, Src.chordedKeys, Src.layeredKeys, e1, hk, hc, h3, h4]
  simp only [Codegen.compile, hj, Option.bind_eq_bind, Option.bind_some, hs.indices, hs.options]
  exact h5

/-! ## What is said tidily compiles -/

theorem fresh_of_written {k : NKey} (h : k.Written) : Fresh k := by
  cases k with
  | leaf l => cases l <;> simp_all [Fresh, NKey.Written]
  | _ => trivial

theorem allFresh_of_written : ∀ {ks : List NKey}, Codegen.AllWritten ks → AllFresh ks
  | [], _ => trivial
  | k :: ks, h => by
    simp only [Codegen.AllWritten] at h
    exact ⟨fresh_of_written h.1, allFresh_of_written h.2⟩

theorem layersFresh_of_written : ∀ {ks : List (Option NKey)}, Codegen.LayersWritten ks → LayersFresh ks
  | [], _ => trivial
  | none :: ks, h => by
    simp only [Codegen.LayersWritten] at h
    exact layersFresh_of_written (ks := ks) h
  | some k :: ks, h => by
    simp only [Codegen.LayersWritten] at h
    exact ⟨fresh_of_written h.1, layersFresh_of_written h.2⟩

theorem fresh₁_of_written {k : NKey} (h : k.Written) : Fresh₁ k := by
  cases k with
  | leaf l => exact fresh_of_written h
  | hold t hh => simp only [NKey.Written] at h; exact ⟨fresh_of_written h.1, fresh_of_written h.2⟩
  | dances t ds => simp only [NKey.Written] at h; exact ⟨fresh_of_written h.1, allFresh_of_written h.2⟩
  | layered b ls => simp only [NKey.Written] at h; exact ⟨fresh_of_written h.1, layersFresh_of_written h.2⟩
  | chorded _ _ => simp [NKey.Written] at h
  | aux _ => simp [NKey.Written] at h

/-- The keys of a source are ones which can be written. -/
def Written (s : Src) : Prop := (∀ l ∈ s.layers, ∀ k : NKey, some k ∈ l → k.Written) ∧ ∀ c ∈ s.chords, c.key.Written

theorem column_written {idx : Nat} : ∀ {s : List (List (Option NKey))}, (∀ l ∈ s, ∀ k : NKey, some k ∈ l → k.Written) → ∀ {ls : List (Option NKey)},
    Codegen.column idx s = some ls → Codegen.LayersWritten ls
  | [], _, ls, h => by
    simp only [Codegen.column, Option.some.injEq] at h; subst h
    simp [Codegen.LayersWritten]
  | l :: s, hw, ls, h => by
    simp only [Codegen.column, Option.bind_eq_bind, Option.bind_eq_some_iff, Option.pure_def, Option.some.injEq] at h
    obtain ⟨k, hk, ls', hls, rfl⟩ := h
    have := column_written (fun l hl => hw l (List.mem_cons_of_mem _ hl)) hls
    cases k with
    | none => simpa only [Codegen.LayersWritten] using this
    | some k =>
      simp only [Codegen.LayersWritten]
      exact ⟨hw l (by simp) k (List.mem_of_getElem? hk), this⟩

theorem stacked_written {b : Option NKey} (hb : ∀ k, b = some k → k.Written) {idx : Nat} {s : List (List (Option NKey))}
    (hw : ∀ l ∈ s, ∀ k : NKey, some k ∈ l → k.Written) {k : NKey} (h : Codegen.stacked b idx s = some k) : k.Written := by
  simp only [Codegen.stacked, Option.bind_eq_bind, Option.bind_eq_some_iff] at h
  obtain ⟨ls, hls, h⟩ := h
  split at h
  · exact hb k h
  · unfold Codegen.withLayers at h
    split at h
    · cases h
    · cases h
    · cases h
    · cases h
      simp only [NKey.Written]
      exact ⟨hb _ rfl, column_written hw hls⟩

theorem stackedFrom_written {s : List (List (Option NKey))} (hw : ∀ l ∈ s, ∀ k : NKey, some k ∈ l → k.Written) : ∀ {bs : List (Option NKey)} {idx : Nat},
    (∀ k, some k ∈ bs → k.Written) → ∀ {ks : List NKey}, Codegen.stackedFrom s idx bs = some ks → ∀ k ∈ ks, k.Written
  | [], idx, _, ks, h => by
    simp only [Codegen.stackedFrom, Option.some.injEq] at h; subst h; simp
  | b :: bs, idx, hb, ks, h => by
    simp only [Codegen.stackedFrom, Option.bind_eq_bind, Option.bind_eq_some_iff, Option.pure_def, Option.some.injEq] at h
    obtain ⟨k, h1, ks', h2, rfl⟩ := h
    intro k' hk'
    rcases List.mem_cons.1 hk' with rfl | hk'
    · exact stacked_written (fun k hk => hb k (by simp [hk])) hw h1
    · exact stackedFrom_written hw (fun k hk => hb k (by simp [hk])) h2 k' hk'

theorem primary_fresh {idx : Nat} : ∀ {n : Nat} {ds : List SrcChord}, (∀ c ∈ ds, c.key.Written) → ∀ {xs : List (Nat × NKey)},
    Codegen.primaryChords idx n ds = some xs → ChordsFresh xs
  | n, [], _, xs, h => by
    simp only [Codegen.primaryChords, Option.some.injEq] at h; subst h; trivial
  | n, d :: ds, hw, xs, h => by
    unfold Codegen.primaryChords at h
    split at h
    · cases h
    · simp only [Option.bind_eq_bind, Option.bind_eq_some_iff, Option.pure_def, Option.some.injEq] at h
      obtain ⟨ys, hy, rfl⟩ := h
      have := primary_fresh (fun c hc => hw c (List.mem_cons_of_mem _ hc)) hy
      split
      · exact ⟨fresh_of_written (hw d (by simp)), this⟩
      · exact this

theorem chordedFrom_fresh {ds : List SrcChord} (hw : ∀ c ∈ ds, c.key.Written) : ∀ {ks : List NKey} {idx : Nat}, (∀ k ∈ ks, k.Written) →
    ∀ {ks' : List NKey}, Codegen.chordedFrom ds idx ks = some ks' → AllFresh₁ ks'
  | [], idx, _, ks', h => by
    simp only [Codegen.chordedFrom, Option.some.injEq] at h; subst h; trivial
  | k :: ks, idx, hk, ks', h => by
    simp only [Codegen.chordedFrom, Option.bind_eq_bind, Option.bind_eq_some_iff, Option.pure_def, Option.some.injEq] at h
    obtain ⟨k', hk1, ks'', hk2, rfl⟩ := h
    refine ⟨?_, chordedFrom_fresh hw (fun k h => hk k (by simp [h])) hk2⟩
    simp only [Codegen.chordedKey, Option.bind_eq_bind, Option.bind_eq_some_iff] at hk1
    obtain ⟨xs, hx, h⟩ := hk1
    cases xs with
    | nil =>
      simp only [Option.pure_def, Option.some.injEq] at h
      subst h
      split
      · exact fresh_of_written (hk k (by simp))
      · exact fresh₁_of_written (hk k (by simp))
    | cons x xs =>
      simp only [Option.pure_def, Option.some.injEq] at h
      subst h
      exact ⟨primary_fresh hw hx, fresh_of_written (hk k (by simp))⟩

/-- What is said tidily compiles as what it says. -/
theorem compile_says {r : Raw} {s : Src} (hs : r.Says true s) (hw : Written s) {c : Codegen.Compiled} (h : Codegen.compile s = some c) :
    compile r = some c := by
  simp only [Codegen.compile, Src.json, Src.chordedKeys, Option.bind_eq_bind, Option.bind_eq_some_iff, Option.pure_def, Option.some.injEq] at h
  obtain ⟨j, ⟨ks, ⟨ks0, h0, h1⟩, js, h2, rfl⟩, h3⟩ := h
  unfold Src.layeredKeys at h0
  cases hl : r.layers with
  | nil =>
    have := hs.layers
    rw [hl] at this
    simp only [List.map_nil, List.map_eq_nil_iff] at this
    rw [this] at h0; cases h0
  | cons vbs upper =>
    obtain ⟨bs, us, e1, e2, e3, e4, e5⟩ := hs.parts hl
    rw [e1] at h0
    have hw1 := hw.1
    rw [e1] at hw1
    have hk0 := stackedFrom_written (fun l hl => hw1 l (by simp [hl])) (fun k hk => hw1 bs (by simp) k hk) h0
    have hfresh := chordedFrom_fresh hw.2 hk0 h1
    obtain ⟨vs0, a1, a2⟩ := stackedFrom_says e2 e3 e4 h0
    obtain ⟨vs, b1, b2⟩ := chordedFrom_says (idx := 0) a2 (by rw [a2.length, stackedFrom_length a1]; exact e5) h1
    obtain ⟨isV, vs', c1, c2, c3⟩ := accumAll_says b2 hfresh (acc := []) (accV := []) trivial
    obtain ⟨ws, d1, d2, _⟩ := all_read _ vs' js c2 h2
    simp only [compile, Raw.json, Raw.layeredKeys, hl, a1, b1, c1, d1, d2, InstructionsSaid.iff.2 c3, Option.bind_eq_bind, Option.bind_some, Option.pure_def]
    rw [← hs.indices, ← hs.options]
    exact h3

theorem compile_eq {r : Raw} {s : Src} (hs : r.Says true s) (hw : Written s) : compile r = Codegen.compile s := by
  apply Option.ext
  intro c
  exact ⟨compile_back hs, compile_says hs hw⟩

end Verif.Nickel
