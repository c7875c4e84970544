import Verif.Lemmas.Codegen

/-! # The keymap compiler: macros, layers and chords -/

namespace Verif.Codegen

open Comp (Ref Keys)

/-! ## Macros -/

section
variable {K : Keys} {I : List Automation.Instruction}

theorem runs_append {acc is : List Automation.Instruction} (h : (append acc is).1 <+: I) : Runs I (append acc is).2 is := by
  obtain ⟨t, rfl⟩ := h
  simp [Runs, append]

theorem prefix_append (acc is : List Automation.Instruction) : acc <+: (append acc is).1 := by simp [append]

theorem prefix_transform (acc : List Automation.Instruction) (k : NKey) : acc <+: (transform acc k).1 := by
  unfold transform
  split
  · exact (prefix_append _ _).trans ((prefix_append _ _).trans (prefix_append _ _))
  · exact List.prefix_refl _

theorem transform_means {acc : List Automation.Instruction} {k : NKey} {r : Ref} (h : (transform acc k).1 <+: I)
    (hm : Means K I (transform acc k).2 r) : Means K I k r := by
  unfold transform at h hm
  split at h
  · rename_i m
    simp only at h hm
    cases hm with
    | leaf hm =>
      cases hm with
      | compiled hi =>
        have h3 := runs_append h
        have h2 := runs_append ((prefix_append _ _).trans h)
        have h1 := runs_append ((prefix_append _ _).trans ((prefix_append _ _).trans h))
        exact .leaf (.automation hi h1 h2 h3)
  · rename_i hne
    split at hm
    · rename_i m; exact absurd rfl (hne m)
    · exact hm

theorem prefix_transformAll : ∀ (ks : List NKey) (acc : List Automation.Instruction), acc <+: (transformAll acc ks).1
  | [], acc => List.prefix_refl _
  | k :: ks, acc => (prefix_transform acc k).trans (prefix_transformAll ks _)

theorem transformAll_means : ∀ (ks : List NKey) (acc : List Automation.Instruction), (transformAll acc ks).1 <+: I →
    (transformAll acc ks).2.length = ks.length ∧ ∀ (i : Nat) k k', ks[i]? = some k → (transformAll acc ks).2[i]? = some k' →
      ∀ r, Means K I k' r → Means K I k r
  | [], acc, _ => by simp [transformAll]
  | k :: ks, acc, h => by
    have h1 : (transform acc k).1 <+: I := (prefix_transformAll ks _).trans h
    obtain ⟨hl, h2⟩ := transformAll_means ks (transform acc k).1 h
    refine ⟨by simp [transformAll, hl], ?_⟩
    intro i k1 k2 hk hk' r hr
    cases i with
    | zero =>
      simp only [transformAll, List.getElem?_cons_zero, Option.some.injEq] at hk hk'
      subst hk hk'
      exact transform_means h1 hr
    | succ i => exact h2 i k1 k2 (by simpa using hk) (by simpa [transformAll] using hk') r hr

theorem prefix_transformLayers : ∀ (ks : List (Option NKey)) (acc : List Automation.Instruction), acc <+: (transformLayers acc ks).1
  | [], acc => List.prefix_refl _
  | none :: ks, acc => prefix_transformLayers ks acc
  | some k :: ks, acc => (prefix_transform acc k).trans (prefix_transformLayers ks _)

theorem transformLayers_means : ∀ (ks : List (Option NKey)) (acc : List Automation.Instruction), (transformLayers acc ks).1 <+: I →
    (transformLayers acc ks).2.map Option.isSome = ks.map Option.isSome ∧
    ∀ (i : Nat) k k', ks[i]? = some (some k) → (transformLayers acc ks).2[i]? = some (some k') → ∀ r, Means K I k' r → Means K I k r
  | [], acc, _ => by simp [transformLayers]
  | none :: ks, acc, h => by
    obtain ⟨hl, h2⟩ := transformLayers_means ks acc h
    refine ⟨by simp [transformLayers, hl], ?_⟩
    intro i k1 k2 hk hk' r hr
    cases i with
    | zero => simp at hk
    | succ i => exact h2 i k1 k2 (by simpa using hk) (by simpa [transformLayers] using hk') r hr
  | some k :: ks, acc, h => by
    have h1 : (transform acc k).1 <+: I := (prefix_transformLayers ks _).trans h
    obtain ⟨hl, h2⟩ := transformLayers_means ks (transform acc k).1 h
    refine ⟨by simp [transformLayers, hl], ?_⟩
    intro i k1 k2 hk hk' r hr
    cases i with
    | zero =>
      simp only [transformLayers, List.getElem?_cons_zero, Option.some.injEq] at hk hk'
      subst hk hk'
      exact transform_means h1 hr
    | succ i => exact h2 i k1 k2 (by simpa using hk) (by simpa [transformLayers] using hk') r hr

theorem prefix_transformChords : ∀ (ks : List (Nat × NKey)) (acc : List Automation.Instruction), acc <+: (transformChords acc ks).1
  | [], acc => List.prefix_refl _
  | (_, k) :: ks, acc => (prefix_transform acc k).trans (prefix_transformChords ks _)

theorem transformChords_means : ∀ (ks : List (Nat × NKey)) (acc : List Automation.Instruction), (transformChords acc ks).1 <+: I →
    (transformChords acc ks).2.map (·.1) = ks.map (·.1) ∧
    ∀ (i : Nat) n k n' k', ks[i]? = some (n, k) → (transformChords acc ks).2[i]? = some (n', k') → ∀ r, Means K I k' r → Means K I k r
  | [], acc, _ => by simp [transformChords]
  | (m, k) :: ks, acc, h => by
    have h1 : (transform acc k).1 <+: I := (prefix_transformChords ks _).trans h
    obtain ⟨hl, h2⟩ := transformChords_means ks (transform acc k).1 h
    refine ⟨by simp [transformChords, hl], ?_⟩
    intro i n k1 n' k2 hk hk' r hr
    cases i with
    | zero =>
      simp only [transformChords, List.getElem?_cons_zero, Option.some.injEq, Prod.mk.injEq] at hk hk'
      obtain ⟨_, rfl⟩ := hk
      obtain ⟨_, rfl⟩ := hk'
      exact transform_means h1 hr
    | succ i => exact h2 i n k1 n' k2 (by simpa using hk) (by simpa [transformChords] using hk') r hr

theorem prefix_mapAccum (k : NKey) (acc : List Automation.Instruction) : acc <+: (mapAccum acc k).1 := by
  cases k with
  | leaf l => exact prefix_transform _ _
  | hold t h => exact (prefix_transform _ _).trans (prefix_transform _ _)
  | dances t ds => exact (prefix_transformAll _ _).trans (prefix_transform _ _)
  | layered b ls => exact (prefix_transformLayers _ _).trans (prefix_transform _ _)
  | chorded cs p => exact (prefix_transformChords _ _).trans (prefix_transform _ _)
  | aux p => exact prefix_transform _ _

theorem mapAccum_means {acc : List Automation.Instruction} {k : NKey} {r : Ref} (h : (mapAccum acc k).1 <+: I)
    (hm : Means K I (mapAccum acc k).2 r) : Means K I k r := by
  cases k with
  | leaf l => exact transform_means h hm
  | hold t h' =>
    simp only [mapAccum] at h hm
    cases hm with
    | hold he ht hh => exact .hold he (transform_means ((prefix_transform _ _).trans h) ht) (transform_means h hh)
  | dances t ds =>
    simp only [mapAccum] at h hm
    obtain ⟨hl, h2⟩ := transformAll_means (K := K) (I := I) ds acc ((prefix_transform _ _).trans h)
    cases hm with
    | dances he hs hd =>
      refine .dances he ?_ ?_
      · intro j
        rw [hs j]
        cases j with
        | zero => simp
        | succ j =>
          simp only [List.getElem?_cons_succ]
          rw [Bool.eq_iff_iff]
          simp [hl]
      · intro j k r hk hr
        cases j with
        | zero =>
          simp only [List.getElem?_cons_zero, Option.some.injEq] at hk
          subst hk
          exact transform_means h (hd 0 _ r (by simp) hr)
        | succ j =>
          simp only [List.getElem?_cons_succ] at hk
          have hj := (List.getElem?_eq_some_iff.1 hk).1
          obtain ⟨k', hk'⟩ : ∃ k', (transformAll acc ds).2[j]? = some k' := by
            rw [← hl] at hj; exact ⟨_, List.getElem?_eq_getElem hj⟩
          exact h2 j k k' hk hk' r (hd (j + 1) k' r (by simpa using hk') hr)
  | layered b ls =>
    simp only [mapAccum] at h hm
    obtain ⟨hl, h2⟩ := transformLayers_means (K := K) (I := I) ls acc ((prefix_transform _ _).trans h)
    have hi : ∀ j : Nat, ((((transformLayers acc ls).2[j]?).join).isSome = ((ls[j]?).join).isSome) := by
      intro j
      have hj := congrArg (fun l => l[j]?) hl
      simp only [List.getElem?_map] at hj
      cases h : (transformLayers acc ls).2[j]? <;> cases h' : ls[j]? <;> simp_all
    cases hm with
    | layered he hb hs hd =>
      refine .layered he (transform_means h hb) (fun j => (hs j).trans (hi j)) ?_
      intro j k r hk hr
      have := hi j
      rw [hk] at this
      simp only [Option.join_some, Option.isSome_some] at this
      obtain ⟨k', hk'⟩ := Option.isSome_iff_exists.1 this
      rw [Option.join_eq_some_iff] at hk'
      exact h2 j k k' hk hk' r (hd j k' r hk' hr)
  | chorded cs p =>
    simp only [mapAccum] at h hm
    obtain ⟨hl, h2⟩ := transformChords_means (K := K) (I := I) cs acc ((prefix_transform _ _).trans h)
    cases hm with
    | chorded he hs hd hp =>
      refine .chorded he (hs.trans hl) ?_ (transform_means h hp)
      intro j n k n' r hk hr
      have hlen : (transformChords acc cs).2.length = cs.length := by simpa using congrArg List.length hl
      have hj := (List.getElem?_eq_some_iff.1 hk).1
      obtain ⟨⟨m, k'⟩, hk'⟩ : ∃ k', (transformChords acc cs).2[j]? = some k' := by
        rw [← hlen] at hj; exact ⟨_, List.getElem?_eq_getElem hj⟩
      exact h2 j n k m k' hk hk' r (hd j m k' n' r hk' hr)
  | aux p =>
    simp only [mapAccum] at h hm
    cases hm with
    | aux he hp => exact .aux he (transform_means h hp)

theorem prefix_mapAccumAll : ∀ (ks : List NKey) (acc : List Automation.Instruction), acc <+: (mapAccumAll acc ks).1
  | [], acc => List.prefix_refl _
  | k :: ks, acc => (prefix_mapAccum k acc).trans (prefix_mapAccumAll ks _)

theorem mapAccumAll_means : ∀ (ks : List NKey) (acc : List Automation.Instruction), (mapAccumAll acc ks).1 <+: I →
    (mapAccumAll acc ks).2.length = ks.length ∧ ∀ (i : Nat) k k', ks[i]? = some k → (mapAccumAll acc ks).2[i]? = some k' →
      ∀ r, Means K I k' r → Means K I k r
  | [], acc, _ => by simp [mapAccumAll]
  | k :: ks, acc, h => by
    have h1 : (mapAccum acc k).1 <+: I := (prefix_mapAccumAll ks _).trans h
    obtain ⟨hl, h2⟩ := mapAccumAll_means ks (mapAccum acc k).1 h
    refine ⟨by simp [mapAccumAll, hl], ?_⟩
    intro i k1 k2 hk hk' r hr
    cases i with
    | zero =>
      simp only [mapAccumAll, List.getElem?_cons_zero, Option.some.injEq] at hk hk'
      subst hk hk'
      exact mapAccum_means h1 hr
    | succ i => exact h2 i k1 k2 (by simpa using hk) (by simpa [mapAccumAll] using hk') r hr

/-! ## Layers -/

theorem column_get {idx : Nat} : ∀ {ls : List (List (Option NKey))} {col : List (Option NKey)}, column idx ls = some col →
    ∀ j : Nat, col[j]? = ls[j]?.bind (·[idx]?)
  | [], col, h, j => by
    simp only [column, Option.some.injEq] at h
    subst h
    simp
  | l :: ls, col, h, j => by
    simp only [column, Option.pure_def, Option.bind_eq_bind, Option.bind_eq_some_iff, Option.some.injEq] at h
    obtain ⟨k, hk, ks, hks, rfl⟩ := h
    cases j with
    | zero => simp [hk]
    | succ j => simpa using column_get hks j

theorem stackedFrom_get {upper : List (List (Option NKey))} : ∀ {idx : Nat} {bs : List (Option NKey)} {ks : List NKey},
    stackedFrom upper idx bs = some ks → ks.length = bs.length ∧
      ∀ (i : Nat) k, ks[i]? = some k → ∃ b, bs[i]? = some b ∧ stacked b (idx + i) upper = some k
  | idx, [], ks, h => by
    simp only [stackedFrom, Option.some.injEq] at h
    subst h
    simp
  | idx, b :: bs, ks, h => by
    simp only [stackedFrom, Option.pure_def, Option.bind_eq_bind, Option.bind_eq_some_iff, Option.some.injEq] at h
    obtain ⟨k, hk, ks, hks, rfl⟩ := h
    obtain ⟨hl, h2⟩ := stackedFrom_get hks
    refine ⟨by simp [hl], ?_⟩
    intro i k' hi
    cases i with
    | zero =>
      simp only [List.getElem?_cons_zero, Option.some.injEq] at hi
      subst hi
      exact ⟨b, by simp, hk⟩
    | succ i =>
      obtain ⟨b', hb, hs⟩ := h2 i k' (by simpa using hi)
      exact ⟨b', by simpa using hb, by rw [show idx + (i + 1) = idx + 1 + i by omega]; exact hs⟩

theorem stacked_means {s : Src} {base : List (Option NKey)} {upper : List (List (Option NKey))} (hs : s.layers = base :: upper)
    {i : Nat} {b : Option NKey} (hb : base[i]? = some b) {k : NKey} (hk : stacked b i upper = some k) {r : Ref}
    (hm : Means K I k r) : Stacks K I s i r := by
  have h0 : s.at 0 i = b := by simp [Src.at, hs, hb]
  simp only [stacked, Option.pure_def, Option.bind_eq_bind, Option.bind_eq_some_iff] at hk
  obtain ⟨col, hc, hk⟩ := hk
  have hat : ∀ l, s.at (l + 1) i = (col[l]?).join := by
    intro l
    rw [column_get hc l]
    simp [Src.at, hs]
  split at hk
  · rename_i hall
    subst hk
    refine .base h0 ?_ hm
    intro l hl
    obtain ⟨l, rfl⟩ : ∃ l', l = l' + 1 := ⟨l - 1, by omega⟩
    rw [hat]
    rw [List.all_eq_true] at hall
    cases h : col[l]? with
    | none => rfl
    | some o =>
      have := hall o (List.mem_of_getElem? h)
      cases o <;> simp at this ⊢
  · rename_i hall
    have : ∃ kb, b = some kb ∧ k = .layered kb col := by
      unfold withLayers at hk
      split at hk <;> simp_all
    obtain ⟨kb, rfl, rfl⟩ := this
    cases hm with
    | layered he hb' hs' hd =>
      refine .layered h0 ?_ he hb' ?_ ?_
      · simp only [List.all_eq_true, Classical.not_forall] at hall
        obtain ⟨o, ho, hn⟩ := hall
        obtain ⟨l, hl⟩ := List.getElem?_of_mem ho
        refine ⟨l + 1, by omega, ?_⟩
        rw [hat, hl]
        cases o <;> simp at hn ⊢
      · intro l
        rw [hs' l, hat]
      · intro l k r hk hr
        rw [hat, Option.join_eq_some_iff] at hk
        exact hd l k r hk hr

/-! ## Chords -/

theorem primaryChords_spec {idx : Nat} : ∀ {cs : List SrcChord} {n : Nat} {ps : List (Nat × NKey)}, primaryChords idx n cs = some ps →
    (ps.map (·.1)).Pairwise (· < ·) ∧
    (∀ m k, (m, k) ∈ ps ↔ ∃ c, n ≤ m ∧ cs[m - n]? = some c ∧ c.indices.head? = some idx ∧ c.key = k) ∧ ∀ c ∈ cs, c.indices ≠ []
  | [], n, ps, h => by
    simp only [primaryChords, Option.some.injEq] at h
    subst h
    simp
  | c :: cs, n, ps, h => by
    unfold primaryChords at h
    split at h
    · simp at h
    rename_i i rest hi
    simp only [Option.pure_def, Option.bind_eq_bind, Option.bind_eq_some_iff, Option.some.injEq] at h
    obtain ⟨qs, hq, rfl⟩ := h
    obtain ⟨h1, h2, h3⟩ := primaryChords_spec hq
    have hge : ∀ m ∈ qs.map (·.1), n + 1 ≤ m := by
      intro m hm
      obtain ⟨⟨m', k⟩, hmk, rfl⟩ := List.mem_map.1 hm
      obtain ⟨_, h, _⟩ := (h2 m' k).1 hmk
      exact h
    have hstep : ∀ m c', (n + 1 ≤ m ∧ cs[m - (n + 1)]? = some c') ↔ (n < m ∧ (c :: cs)[m - n]? = some c') := by
      intro m c'
      constructor
      · rintro ⟨h, h'⟩
        rw [show m - n = (m - (n + 1)) + 1 by omega]
        exact ⟨h, by simpa using h'⟩
      · rintro ⟨h, h'⟩
        rw [show m - n = (m - (n + 1)) + 1 by omega] at h'
        exact ⟨h, by simpa using h'⟩
    have hmem : ∀ m k, (m, k) ∈ qs ↔ ∃ c', n < m ∧ (c :: cs)[m - n]? = some c' ∧ c'.indices.head? = some idx ∧ c'.key = k := by
      intro m k
      rw [h2]
      constructor
      · rintro ⟨c', h, h', h''⟩
        obtain ⟨h, h'⟩ := (hstep m c').1 ⟨h, h'⟩
        exact ⟨c', h, h', h''⟩
      · rintro ⟨c', h, h', h''⟩
        obtain ⟨h, h'⟩ := (hstep m c').2 ⟨h, h'⟩
        exact ⟨c', h, h', h''⟩
    refine ⟨?_, ?_, ?_⟩
    · split
      · simp only [List.map_cons, List.pairwise_cons]
        exact ⟨fun m hm => by have := hge m hm; omega, h1⟩
      · exact h1
    · intro m k
      by_cases hm : m = n
      · subst hm
        have hno : (m, k) ∉ qs := by
          intro h
          obtain ⟨c', h, _⟩ := (hmem m k).1 h
          omega
        split
        · rename_i hii
          simp only [List.mem_cons, Prod.mk.injEq, true_and, hno, or_false, Nat.le_refl, Nat.sub_self, List.getElem?_cons_zero,
            Option.some.injEq]
          constructor
          · rintro rfl; exact ⟨c, rfl, by simp [hi, hii], rfl⟩
          · rintro ⟨_, rfl, _, rfl⟩; rfl
        · rename_i hii
          simp only [hno, false_iff]
          rintro ⟨c', _, hc, hh, _⟩
          simp only [Nat.sub_self, List.getElem?_cons_zero, Option.some.injEq] at hc
          subst hc
          rw [hi] at hh
          simp only [List.head?_cons, Option.some.injEq] at hh
          exact hii hh
      · have : (m, k) ∈ (if i = idx then (n, c.key) :: qs else qs) ↔ (m, k) ∈ qs := by
          split
          · simp [hm]
          · rfl
        rw [this, hmem]
        constructor
        · rintro ⟨c', h, h'⟩; exact ⟨c', by omega, h'⟩
        · rintro ⟨c', h, h'⟩; exact ⟨c', by omega, h'⟩
    · intro c' hc'
      rcases List.mem_cons.1 hc' with rfl | hc'
      · rw [hi]; simp
      · exact h3 c' hc'

theorem chordedFrom_get {chords : List SrcChord} : ∀ {idx : Nat} {bs ks : List NKey}, chordedFrom chords idx bs = some ks →
    ks.length = bs.length ∧ ∀ (i : Nat) k, ks[i]? = some k → ∃ b, bs[i]? = some b ∧ chordedKey chords (idx + i) b = some k
  | idx, [], ks, h => by
    simp only [chordedFrom, Option.some.injEq] at h
    subst h
    simp
  | idx, b :: bs, ks, h => by
    simp only [chordedFrom, Option.pure_def, Option.bind_eq_bind, Option.bind_eq_some_iff, Option.some.injEq] at h
    obtain ⟨k, hk, ks, hks, rfl⟩ := h
    obtain ⟨hl, h2⟩ := chordedFrom_get hks
    refine ⟨by simp [hl], ?_⟩
    intro i k' hi
    cases i with
    | zero =>
      simp only [List.getElem?_cons_zero, Option.some.injEq] at hi
      subst hi
      exact ⟨b, by simp, hk⟩
    | succ i =>
      obtain ⟨b', hb, hs⟩ := h2 i k' (by simpa using hi)
      exact ⟨b', by simpa using hb, by rw [show idx + (i + 1) = idx + 1 + i by omega]; exact hs⟩

theorem chordedKey_means {s : Src} {i : Nat} {b k : NKey} (hk : chordedKey s.chords i b = some k) {r : Ref} (hm : Means K I k r)
    (hst : ∀ r, Means K I b r → Stacks K I s i r) : Position K I s i r := by
  simp only [chordedKey, Option.bind_eq_bind, Option.bind_eq_some_iff] at hk
  obtain ⟨ps, hp, hk⟩ := hk
  obtain ⟨h1, h2, h3⟩ := primaryChords_spec hp
  split at hk
  · have hno : ∀ c ∈ s.chords, c.indices.head? ≠ some i := by
      intro c hc hh
      obtain ⟨n, hn⟩ := List.getElem?_of_mem hc
      have := (h2 n c.key).2 ⟨c, by omega, by simpa using hn, hh, rfl⟩
      simp at this
    simp only [Option.pure_def, Option.some.injEq] at hk
    split at hk
    · rename_i hany
      subst hk
      rw [List.any_eq_true] at hany
      obtain ⟨c, hc, hin⟩ := hany
      cases hm with
      | aux he hp => exact .member ⟨c, hc, by simpa using hin⟩ hno he (hst _ hp)
    · rename_i hany
      subst hk
      refine .alone ?_ (hst _ hm)
      intro c hc hin
      exact hany (List.any_eq_true.2 ⟨c, hc, by simpa using hin⟩)
  · rename_i hne
    simp only [Option.pure_def, Option.some.injEq] at hk
    subst hk
    cases hm with
    | chorded he hs hd hp =>
      rename_i j e
      have hlen : e.chords.length = ps.length := by simpa using congrArg List.length hs
      refine .first he (hst _ hp) ?_ ?_ ?_ ?_
      · intro h
        rw [h] at hs
        exact hne (by simpa using hs.symm)
      · rw [hs]; exact h1
      · intro n
        rw [hs]
        constructor
        · intro hn
          obtain ⟨⟨m, k⟩, hmk, rfl⟩ := List.mem_map.1 hn
          obtain ⟨c, _, hc, hh, _⟩ := (h2 m k).1 hmk
          exact ⟨c, by simpa using hc, hh⟩
        · rintro ⟨c, hc, hh⟩
          exact List.mem_map.2 ⟨(n, c.key), (h2 n c.key).2 ⟨c, by omega, by simpa using hc, hh, rfl⟩, rfl⟩
      · intro n r c hnr hc
        obtain ⟨q, hq⟩ := List.getElem?_of_mem hnr
        have hql := (List.getElem?_eq_some_iff.1 hq).1
        obtain ⟨⟨m, k⟩, hmk⟩ : ∃ x, ps[q]? = some x := by
          rw [hlen] at hql; exact ⟨_, List.getElem?_eq_getElem hql⟩
        have hnm : n = m := by
          have := congrArg (fun l => l[q]?) hs
          simpa [List.getElem?_map, hq, hmk] using this
        subst hnm
        obtain ⟨c', _, hc', _, rfl⟩ := (h2 n k).1 (List.mem_of_getElem? hmk)
        have : c' = c := by
          rw [Nat.sub_zero] at hc'
          exact Option.some.inj (hc'.symm.trans hc)
        subst this
        exact hd q n _ n r hmk hq

end

end Verif.Codegen
