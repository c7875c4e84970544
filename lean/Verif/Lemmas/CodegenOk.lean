import Verif.Lemmas.CodegenTables

/-! # The keymap compiler: acceptable sources compile -/

namespace Verif.Codegen

open Comp (Ref Keys)

/-! ## Keys without macros have a JSON form -/

theorem sum_pow_lt : ∀ (ls : List Nat) (n : Nat), ls.Nodup → (∀ l ∈ ls, l < n) → (ls.map (2 ^ ·)).sum < 2 ^ n := by
  intro ls n
  induction n generalizing ls with
  | zero =>
    intro _ h
    cases ls with
    | nil => simp
    | cons l ls => exact absurd (h l (by simp)) (by omega)
  | succ n ih =>
    intro hn h
    by_cases hm : n ∈ ls
    · have hp := List.perm_cons_erase hm
      have hs : (ls.map (2 ^ ·)).sum = ((n :: ls.erase n).map (2 ^ ·)).sum := (hp.map _).sum_nat
      have := ih (ls.erase n) (hn.erase n) (by
        intro l hl
        have h1 := h l (List.mem_of_mem_erase hl)
        have h2 : l ≠ n := by
          rintro rfl
          exact (hn.not_mem_erase) hl
        omega)
      rw [hs]
      simp only [List.map_cons, List.sum_cons]
      rw [Nat.pow_succ]
      omega
    · have := ih ls hn (by
        intro l hl
        have h1 := h l hl
        have h2 : l ≠ n := by
          rintro rfl
          exact hm hl
        omega)
      rw [Nat.pow_succ]
      omega

theorem leaf_toJson_isSome {l : Leaf} (hs : l.SetsOk) (hm : ∀ m, l ≠ .automation m) : l.toJson.isSome := by
  cases l with
  | automation m => exact absurd rfl (hm m)
  | layerModifier m =>
    cases m with
    | setActiveLayersTo ls =>
      obtain ⟨h1, h2, h3⟩ := hs
      have := sum_pow_lt ls 32 h2 h3
      simp only [Leaf.toJson, LayerMod.toJson, if_neg h1]
      rw [if_pos this]
      rfl
    | _ => rfl
  | _ => rfl

mutual

theorem toJson_isSome : ∀ (k : NKey), k.Shallow 0 → k.toJson.isSome
  | .leaf l, h => by
    refine leaf_toJson_isSome (l := l) ?_ ?_
    · cases l <;> first | exact h | trivial
    · rintro m rfl; exact absurd h (by simp [NKey.Shallow])
  | .hold t h', h => by
    obtain ⟨_, h1⟩ := Option.isSome_iff_exists.1 (toJson_isSome t h.1)
    obtain ⟨_, h2⟩ := Option.isSome_iff_exists.1 (toJson_isSome h' h.2)
    simp [NKey.toJson, h1, h2]
  | .dances t ds, h => by
    obtain ⟨_, h1⟩ := Option.isSome_iff_exists.1 (toJson_isSome t h.1)
    obtain ⟨_, h2⟩ := Option.isSome_iff_exists.1 (toJsonAll_isSome ds h.2)
    simp [NKey.toJson, h1, h2]
  | .layered b ls, h => by
    obtain ⟨_, h1⟩ := Option.isSome_iff_exists.1 (toJson_isSome b h.1)
    obtain ⟨_, h2⟩ := Option.isSome_iff_exists.1 (toJsonLayers_isSome ls h.2)
    simp [NKey.toJson, h1, h2]
  | .chorded cs p, h => by
    obtain ⟨_, h1⟩ := Option.isSome_iff_exists.1 (toJsonChords_isSome cs h.1)
    obtain ⟨_, h2⟩ := Option.isSome_iff_exists.1 (toJson_isSome p h.2)
    simp [NKey.toJson, h1, h2]
  | .aux p, h => by
    obtain ⟨_, h1⟩ := Option.isSome_iff_exists.1 (toJson_isSome p h)
    simp [NKey.toJson, h1]

theorem toJsonAll_isSome : ∀ (ks : List NKey), AllShallow 0 ks → (toJsonAll ks).isSome
  | [], _ => rfl
  | k :: ks, h => by
    obtain ⟨_, h1⟩ := Option.isSome_iff_exists.1 (toJson_isSome k h.1)
    obtain ⟨_, h2⟩ := Option.isSome_iff_exists.1 (toJsonAll_isSome ks h.2)
    simp [toJsonAll, h1, h2]

theorem toJsonLayers_isSome : ∀ (ks : List (Option NKey)), LayersShallow 0 ks → (toJsonLayers ks).isSome
  | [], _ => rfl
  | none :: ks, h => by
    obtain ⟨_, h2⟩ := Option.isSome_iff_exists.1 (toJsonLayers_isSome ks h)
    simp [toJsonLayers, h2]
  | some k :: ks, h => by
    obtain ⟨_, h1⟩ := Option.isSome_iff_exists.1 (toJson_isSome k h.1)
    obtain ⟨_, h2⟩ := Option.isSome_iff_exists.1 (toJsonLayers_isSome ks h.2)
    simp [toJsonLayers, h1, h2]

theorem toJsonChords_isSome : ∀ (ks : List (Nat × NKey)), ChordsShallow 0 ks → (toJsonChords ks).isSome
  | [], _ => rfl
  | (_, k) :: ks, h => by
    obtain ⟨_, h1⟩ := Option.isSome_iff_exists.1 (toJson_isSome k h.1)
    obtain ⟨_, h2⟩ := Option.isSome_iff_exists.1 (toJsonChords_isSome ks h.2)
    simp [toJsonChords, h1, h2]

end

/-! ## Numbering removes the macros of the outer two levels -/

theorem transform_shallow (acc : List Automation.Instruction) {k : NKey} (h : k.Shallow 1) : (transform acc k).2.Shallow 0 := by
  unfold transform
  split
  · trivial
  · rename_i hne
    cases k with
    | leaf l =>
      cases l with
      | automation m => exact absurd rfl (hne m)
      | _ => exact h
    | _ => exact h

theorem transformAll_shallow : ∀ (ks : List NKey) (acc : List Automation.Instruction), AllShallow 1 ks → AllShallow 0 (transformAll acc ks).2
  | [], _, _ => trivial
  | k :: ks, acc, h => ⟨transform_shallow acc h.1, transformAll_shallow ks (transform acc k).1 h.2⟩

theorem transformLayers_shallow : ∀ (ks : List (Option NKey)) (acc : List Automation.Instruction), LayersShallow 1 ks →
    LayersShallow 0 (transformLayers acc ks).2
  | [], _, _ => trivial
  | none :: ks, acc, h => transformLayers_shallow ks acc h
  | some k :: ks, acc, h => ⟨transform_shallow acc h.1, transformLayers_shallow ks (transform acc k).1 h.2⟩

theorem transformChords_shallow : ∀ (ks : List (Nat × NKey)) (acc : List Automation.Instruction), ChordsShallow 1 ks →
    ChordsShallow 0 (transformChords acc ks).2
  | [], _, _ => trivial
  | (_, k) :: ks, acc, h => ⟨transform_shallow acc h.1, transformChords_shallow ks (transform acc k).1 h.2⟩

theorem mapAccum_shallow (acc : List Automation.Instruction) {k : NKey} (h : k.Shallow 2) : (mapAccum acc k).2.Shallow 0 := by
  cases k with
  | leaf l =>
    refine transform_shallow acc ?_
    cases l with
    | automation m => simp [NKey.Shallow]
    | _ => exact h
  | hold t h' => exact ⟨transform_shallow _ h.1, transform_shallow _ h.2⟩
  | dances t ds => exact ⟨transform_shallow _ h.1, transformAll_shallow _ _ h.2⟩
  | layered b ls => exact ⟨transform_shallow _ h.1, transformLayers_shallow _ _ h.2⟩
  | chorded cs p => exact ⟨transformChords_shallow _ _ h.1, transform_shallow _ h.2⟩
  | aux p => exact transform_shallow acc (k := p) h

theorem mapAccumAll_shallow : ∀ (ks : List NKey) (acc : List Automation.Instruction), (∀ k ∈ ks, k.Shallow 2) → AllShallow 0 (mapAccumAll acc ks).2
  | [], _, _ => trivial
  | k :: ks, acc, h => ⟨mapAccum_shallow acc (h k (by simp)), mapAccumAll_shallow ks (mapAccum acc k).1 (fun k hk => h k (by simp [hk]))⟩

theorem mapAccumAll_length : ∀ (ks : List NKey) (acc : List Automation.Instruction), (mapAccumAll acc ks).2.length = ks.length
  | [], _ => rfl
  | k :: ks, acc => by
    have := mapAccumAll_length ks (mapAccum acc k).1
    simp [mapAccumAll, this]

/-! ## The longest list of chords -/

mutual

def NKey.alts : NKey → Nat
  | .leaf _ => 0
  | .hold t h => max t.alts h.alts
  | .dances t ds => max t.alts (altsAll ds)
  | .layered b ls => max b.alts (altsLayers ls)
  | .chorded cs p => max cs.length (max (altsChords cs) p.alts)
  | .aux p => p.alts

def altsAll : List NKey → Nat
  | [] => 0
  | k :: ks => max k.alts (altsAll ks)

def altsLayers : List (Option NKey) → Nat
  | [] => 0
  | none :: ks => altsLayers ks
  | some k :: ks => max k.alts (altsLayers ks)

def altsChords : List (Nat × NKey) → Nat
  | [] => 0
  | (_, k) :: ks => max k.alts (altsChords ks)

end

mutual

def JKey.alts : JKey → Nat
  | .aux p => p.alts
  | .chorded cs p => max cs.length (max (jAltsChords cs) p.alts)
  | .layered b ls => max b.alts (jAltsLayers ls)
  | .tapDance ds => jAltsAll ds
  | .tapHold t h => max t.alts h.alts
  | _ => 0

def jAltsAll : List JKey → Nat
  | [] => 0
  | k :: ks => max k.alts (jAltsAll ks)

def jAltsLayers : List (Option JKey) → Nat
  | [] => 0
  | none :: ks => jAltsLayers ks
  | some k :: ks => max k.alts (jAltsLayers ks)

def jAltsChords : List (Nat × JKey) → Nat
  | [] => 0
  | (_, k) :: ks => max k.alts (jAltsChords ks)

end

mutual

theorem alts_written : ∀ (k : NKey), k.Written → k.alts = 0
  | .leaf l, _ => rfl
  | .hold t h', h => by simp [NKey.alts, alts_written t h.1, alts_written h' h.2]
  | .dances t ds, h => by simp [NKey.alts, alts_written t h.1, altsAll_written ds h.2]
  | .layered b ls, h => by simp [NKey.alts, alts_written b h.1, altsLayers_written ls h.2]
  | .chorded cs p, h => h.elim
  | .aux p, h => h.elim

theorem altsAll_written : ∀ (ks : List NKey), AllWritten ks → altsAll ks = 0
  | [], _ => rfl
  | k :: ks, h => by simp [altsAll, alts_written k h.1, altsAll_written ks h.2]

theorem altsLayers_written : ∀ (ks : List (Option NKey)), LayersWritten ks → altsLayers ks = 0
  | [], _ => rfl
  | none :: ks, h => altsLayers_written ks h
  | some k :: ks, h => by simp [altsLayers, alts_written k h.1, altsLayers_written ks h.2]

end

theorem transform_alts (acc : List Automation.Instruction) (k : NKey) : (transform acc k).2.alts = k.alts := by
  unfold transform
  split <;> rfl

theorem transformAll_alts : ∀ (ks : List NKey) (acc : List Automation.Instruction), altsAll (transformAll acc ks).2 = altsAll ks
  | [], _ => rfl
  | k :: ks, acc => by
    have := transformAll_alts ks (transform acc k).1
    simp [transformAll, altsAll, this, transform_alts]

theorem transformLayers_alts : ∀ (ks : List (Option NKey)) (acc : List Automation.Instruction), altsLayers (transformLayers acc ks).2 = altsLayers ks
  | [], _ => rfl
  | none :: ks, acc => transformLayers_alts ks acc
  | some k :: ks, acc => by
    have := transformLayers_alts ks (transform acc k).1
    simp [transformLayers, altsLayers, this, transform_alts]

theorem transformChords_alts : ∀ (ks : List (Nat × NKey)) (acc : List Automation.Instruction), altsChords (transformChords acc ks).2 = altsChords ks ∧
    (transformChords acc ks).2.length = ks.length
  | [], _ => ⟨rfl, rfl⟩
  | (_, k) :: ks, acc => by
    have := transformChords_alts ks (transform acc k).1
    simp [transformChords, altsChords, this, transform_alts]

theorem mapAccum_alts (acc : List Automation.Instruction) (k : NKey) : (mapAccum acc k).2.alts = k.alts := by
  cases k with
  | leaf l => exact transform_alts acc _
  | hold t h' => simp [mapAccum, NKey.alts, transform_alts]
  | dances t ds => simp [mapAccum, NKey.alts, transform_alts, transformAll_alts]
  | layered b ls => simp [mapAccum, NKey.alts, transform_alts, transformLayers_alts]
  | chorded cs p => simp [mapAccum, NKey.alts, transform_alts, transformChords_alts]
  | aux p => simp [mapAccum, NKey.alts, transform_alts]

theorem mapAccumAll_alts : ∀ (ks : List NKey) (acc : List Automation.Instruction), altsAll (mapAccumAll acc ks).2 = altsAll ks
  | [], _ => rfl
  | k :: ks, acc => by
    have := mapAccumAll_alts ks (mapAccum acc k).1
    simp [mapAccumAll, altsAll, this, mapAccum_alts]

mutual

theorem toJson_alts : ∀ (k : NKey) {j : JKey}, k.toJson = some j → j.alts = k.alts
  | .leaf l, j, h => by
    cases l with
    | layerModifier m =>
      simp only [NKey.toJson, Leaf.toJson, Option.map_eq_some_iff] at h
      obtain ⟨_, _, rfl⟩ := h
      rfl
    | automation m => simp [NKey.toJson, Leaf.toJson] at h
    | _ =>
      simp only [NKey.toJson, Leaf.toJson, Option.some.injEq] at h
      subst h
      rfl
  | .hold t h', j, h => by
    simp only [NKey.toJson, Option.pure_def, Option.bind_eq_bind, Option.bind_eq_some_iff, Option.some.injEq] at h
    obtain ⟨_, h1, _, h2, rfl⟩ := h
    simp [JKey.alts, NKey.alts, toJson_alts _ h1, toJson_alts _ h2]
  | .dances t ds, j, h => by
    simp only [NKey.toJson, Option.pure_def, Option.bind_eq_bind, Option.bind_eq_some_iff, Option.some.injEq] at h
    obtain ⟨_, h1, _, h2, rfl⟩ := h
    simp [JKey.alts, jAltsAll, NKey.alts, toJson_alts _ h1, toJsonAll_alts _ h2]
  | .layered b ls, j, h => by
    simp only [NKey.toJson, Option.pure_def, Option.bind_eq_bind, Option.bind_eq_some_iff, Option.some.injEq] at h
    obtain ⟨_, h1, _, h2, rfl⟩ := h
    simp [JKey.alts, NKey.alts, toJson_alts _ h1, toJsonLayers_alts _ h2]
  | .chorded cs p, j, h => by
    simp only [NKey.toJson, Option.pure_def, Option.bind_eq_bind, Option.bind_eq_some_iff, Option.some.injEq] at h
    obtain ⟨_, h1, _, h2, rfl⟩ := h
    simp [JKey.alts, NKey.alts, toJsonChords_alts _ h1, toJson_alts _ h2]
  | .aux p, j, h => by
    simp only [NKey.toJson, Option.pure_def, Option.bind_eq_bind, Option.bind_eq_some_iff, Option.some.injEq] at h
    obtain ⟨_, h1, rfl⟩ := h
    simp [JKey.alts, NKey.alts, toJson_alts _ h1]

theorem toJsonAll_alts : ∀ (ks : List NKey) {js : List JKey}, toJsonAll ks = some js → jAltsAll js = altsAll ks
  | [], js, h => by
    simp only [toJsonAll, Option.some.injEq] at h
    subst h
    rfl
  | k :: ks, js, h => by
    simp only [toJsonAll, Option.pure_def, Option.bind_eq_bind, Option.bind_eq_some_iff, Option.some.injEq] at h
    obtain ⟨_, h1, _, h2, rfl⟩ := h
    simp [jAltsAll, altsAll, toJson_alts _ h1, toJsonAll_alts _ h2]

theorem toJsonLayers_alts : ∀ (ks : List (Option NKey)) {js : List (Option JKey)}, toJsonLayers ks = some js → jAltsLayers js = altsLayers ks
  | [], js, h => by
    simp only [toJsonLayers, Option.some.injEq] at h
    subst h
    rfl
  | none :: ks, js, h => by
    simp only [toJsonLayers, Option.pure_def, Option.bind_eq_bind, Option.bind_eq_some_iff, Option.some.injEq] at h
    obtain ⟨_, h2, rfl⟩ := h
    simp [jAltsLayers, altsLayers, toJsonLayers_alts _ h2]
  | some k :: ks, js, h => by
    simp only [toJsonLayers, Option.pure_def, Option.bind_eq_bind, Option.bind_eq_some_iff, Option.some.injEq] at h
    obtain ⟨_, h1, _, h2, rfl⟩ := h
    simp [jAltsLayers, altsLayers, toJson_alts _ h1, toJsonLayers_alts _ h2]

theorem toJsonChords_alts : ∀ (ks : List (Nat × NKey)) {js : List (Nat × JKey)}, toJsonChords ks = some js →
    jAltsChords js = altsChords ks ∧ js.length = ks.length
  | [], js, h => by
    simp only [toJsonChords, Option.some.injEq] at h
    subst h
    exact ⟨rfl, rfl⟩
  | (_, k) :: ks, js, h => by
    simp only [toJsonChords, Option.pure_def, Option.bind_eq_bind, Option.bind_eq_some_iff, Option.some.injEq] at h
    obtain ⟨_, h1, _, h2, rfl⟩ := h
    simp [jAltsChords, altsChords, toJson_alts _ h1, toJsonChords_alts _ h2]

end

/-! ## The sizes of the entries -/

/-- The entries added to the tables have at most `n` layers and `m` chords. -/
structure Grows (d d' : Data) (n m : Nat) : Prop where
  layered : ∀ e ∈ d'.layered, e ∈ d.layered ∨ e.layered.length ≤ n
  chorded : ∀ e ∈ d'.chorded, e ∈ d.chorded ∨ e.chords.length ≤ m

theorem Grows.refl (d : Data) (n m : Nat) : Grows d d n m := ⟨fun _ h => .inl h, fun _ h => .inl h⟩

theorem Grows.trans {a b c : Data} {n m n1 m1 n2 m2 : Nat} (h1 : Grows a b n1 m1) (h2 : Grows b c n2 m2)
    (h : n1 ≤ n ∧ n2 ≤ n ∧ m1 ≤ m ∧ m2 ≤ m) : Grows a c n m := by
  constructor
  · intro e he
    rcases h2.1 e he with he | he
    · rcases h1.1 e he with he | he
      · exact .inl he
      · exact .inr (by omega)
    · exact .inr (by omega)
  · intro e he
    rcases h2.2 e he with he | he
    · rcases h1.2 e he with he | he
      · exact .inl he
      · exact .inr (by omega)
    · exact .inr (by omega)

theorem Grows.mono {a b : Data} {n m n1 m1 : Nat} (h : Grows a b n1 m1) (h' : n1 ≤ n ∧ m1 ≤ m) : Grows a b n m :=
  h.trans (.refl b 0 0) (by omega)

theorem dataAndRefLayers_length : ∀ (ks : List (Option JKey)) (d : Data), (dataAndRefLayers d ks).2.length = ks.length
  | [], _ => rfl
  | none :: ks, d => by simp [dataAndRefLayers, dataAndRefLayers_length ks d]
  | some k :: ks, d => by simp [dataAndRefLayers, dataAndRefLayers_length ks]

theorem dataAndRefChords_length : ∀ (ks : List (Nat × JKey)) (d : Data), (dataAndRefChords d ks).2.length = ks.length
  | [], _ => rfl
  | (_, k) :: ks, d => by simp [dataAndRefChords, dataAndRefChords_length ks]

mutual

theorem grows : ∀ (k : JKey) (d : Data), Grows d (dataAndRef d k).1 k.maxLayers k.alts
  | .automation k, d => ⟨fun _ h => .inl h, fun _ h => .inl h⟩
  | .callback c, d => ⟨fun _ h => .inl h, fun _ h => .inl h⟩
  | .capsWord, d => .refl d _ _
  | .aux p, d => ⟨(grows p d).1, (grows p d).2⟩
  | .chorded cs p, d => by
    refine ((growsChords cs d).trans (n := (JKey.chorded cs p).maxLayers) (m := (JKey.chorded cs p).alts) (grows p _) (by simp only [JKey.maxLayers, JKey.alts]; omega)).trans
      (n2 := 0) (m2 := cs.length) ⟨fun _ h => .inl h, ?_⟩ (by simp only [JKey.maxLayers, JKey.alts]; omega)
    intro e he
    simp only [dataAndRef, List.mem_append, List.mem_singleton] at he
    rcases he with he | rfl
    · exact .inl he
    · exact .inr (by simp [dataAndRefChords_length])
  | .consumer uc, d => .refl d _ _
  | .custom cc, d => .refl d _ _
  | .keyCode kc, d => .refl d _ _
  | .modifiers m, d => .refl d _ _
  | .keyCodeModifiers kc m, d => ⟨fun _ h => .inl h, fun _ h => .inl h⟩
  | .mouse r, d => .refl d _ _
  | .layered b ls, d => by
    refine ((grows b d).trans (n := (JKey.layered b ls).maxLayers) (m := (JKey.layered b ls).alts) (growsLayers ls _) (by simp only [JKey.maxLayers, JKey.alts]; omega)).trans
      (n2 := ls.length) (m2 := 0) ⟨?_, fun _ h => .inl h⟩ (by simp only [JKey.maxLayers, JKey.alts]; omega)
    intro e he
    simp only [dataAndRef, List.mem_append, List.mem_singleton] at he
    rcases he with he | rfl
    · exact .inl he
    · exact .inr (by simp [dataAndRefLayers_length])
  | .modifier m, d => ⟨fun _ h => .inl h, fun _ h => .inl h⟩
  | .sticky m, d => ⟨fun _ h => .inl h, fun _ h => .inl h⟩
  | .tapDance ds, d => ⟨(growsAll ds d).1, (growsAll ds d).2⟩
  | .tapHold t h, d =>
    have := (grows t d).trans (n := (JKey.tapHold t h).maxLayers) (m := (JKey.tapHold t h).alts) (grows h _) (by simp only [JKey.maxLayers, JKey.alts]; omega)
    ⟨this.1, this.2⟩

theorem growsAll : ∀ (ks : List JKey) (d : Data), Grows d (dataAndRefAll d ks).1 (maxLayersAll ks) (jAltsAll ks)
  | [], d => .refl d _ _
  | k :: ks, d => (grows k d).trans (growsAll ks _) (by simp only [maxLayersAll, jAltsAll]; omega)

theorem growsLayers : ∀ (ks : List (Option JKey)) (d : Data), Grows d (dataAndRefLayers d ks).1 (maxLayersLayers ks) (jAltsLayers ks)
  | [], d => .refl d _ _
  | none :: ks, d => growsLayers ks d
  | some k :: ks, d => (grows k d).trans (growsLayers ks _) (by simp only [maxLayersLayers, jAltsLayers]; omega)

theorem growsChords : ∀ (ks : List (Nat × JKey)) (d : Data), Grows d (dataAndRefChords d ks).1 (maxLayersChords ks) (jAltsChords ks)
  | [], d => .refl d _ _
  | (_, k) :: ks, d => (grows k d).trans (growsChords ks _) (by simp only [maxLayersChords, jAltsChords]; omega)

end

theorem mapM_isSome {α β : Type} {f : α → Option β} : ∀ {l : List α}, (∀ a ∈ l, (f a).isSome) → (l.mapM f).isSome
  | [], _ => rfl
  | a :: l, h => by
    obtain ⟨_, h1⟩ := Option.isSome_iff_exists.1 (h a (by simp))
    obtain ⟨_, h2⟩ := Option.isSome_iff_exists.1 (mapM_isSome (fun a ha => h a (List.mem_cons_of_mem _ ha)))
    simp [List.mapM_cons, h1, h2]

/-- The Rust constructors succeed if the constants are the compiler's. -/
theorem build_isSome {z : Sizes} {js : List JKey} (h1 : maxLayersAll js ≤ z.layers) (h2 : jAltsAll js ≤ z.overlap) :
    ((dataAndRefAll {} js).1.build z).isSome := by
  have hg := growsAll js {}
  obtain ⟨_, hl⟩ := Option.isSome_iff_exists.1 (mapM_isSome (f := buildLayered z.layers) (l := (dataAndRefAll {} js).1.layered) (by
    intro e he
    rcases hg.1 e he with h | h
    · simp at h
    · simp only [buildLayered]
      rw [if_neg (by omega)]
      rfl))
  obtain ⟨_, hc⟩ := Option.isSome_iff_exists.1 (mapM_isSome (f := buildChorded z.overlap) (l := (dataAndRefAll {} js).1.chorded) (by
    intro e he
    rcases hg.2 e he with h | h
    · simp at h
    · simp only [buildChorded]
      rw [if_neg (by omega)]
      rfl))
  simp [Data.build, hl, hc]

/-! ## Putting layers and chords together -/

mutual

theorem shallow_mono : ∀ (k : NKey) {n m : Nat}, n ≤ m → k.Shallow n → k.Shallow m
  | .leaf l, n, m, h, hk => by
    cases l with
    | automation _ => simp only [NKey.Shallow] at hk ⊢; omega
    | _ => exact hk
  | .hold t h', n, m, h, hk => ⟨shallow_mono t (by omega) hk.1, shallow_mono h' (by omega) hk.2⟩
  | .dances t ds, n, m, h, hk => ⟨shallow_mono t (by omega) hk.1, shallow_monoAll ds (by omega) hk.2⟩
  | .layered t ds, n, m, h, hk => ⟨shallow_mono t (by omega) hk.1, shallow_monoLayers ds (by omega) hk.2⟩
  | .chorded ds t, n, m, h, hk => ⟨shallow_monoChords ds (by omega) hk.1, shallow_mono t (by omega) hk.2⟩
  | .aux t, n, m, h, hk => shallow_mono t (n := n - 1) (m := m - 1) (by omega) hk

theorem shallow_monoAll : ∀ (ks : List NKey) {n m : Nat}, n ≤ m → AllShallow n ks → AllShallow m ks
  | [], _, _, _, _ => trivial
  | k :: ks, n, m, h, hk => ⟨shallow_mono k h hk.1, shallow_monoAll ks h hk.2⟩

theorem shallow_monoLayers : ∀ (ks : List (Option NKey)) {n m : Nat}, n ≤ m → LayersShallow n ks → LayersShallow m ks
  | [], _, _, _, _ => trivial
  | none :: ks, n, m, h, hk => shallow_monoLayers ks h hk
  | some k :: ks, n, m, h, hk => ⟨shallow_mono k h hk.1, shallow_monoLayers ks h hk.2⟩

theorem shallow_monoChords : ∀ (ks : List (Nat × NKey)) {n m : Nat}, n ≤ m → ChordsShallow n ks → ChordsShallow m ks
  | [], _, _, _, _ => trivial
  | (_, k) :: ks, n, m, h, hk => ⟨shallow_mono k h hk.1, shallow_monoChords ks h hk.2⟩

end

theorem layersShallow_of {n : Nat} : ∀ {ks : List (Option NKey)}, (∀ k, some k ∈ ks → k.Shallow n) → LayersShallow n ks
  | [], _ => trivial
  | none :: ks, h => layersShallow_of (ks := ks) (fun k hk => h k (by simp [hk]))
  | some k :: ks, h => ⟨h k (by simp), layersShallow_of (ks := ks) (fun k hk => h k (by simp [hk]))⟩

theorem layersWritten_of : ∀ {ks : List (Option NKey)}, (∀ k, some k ∈ ks → k.Written) → LayersWritten ks
  | [], _ => trivial
  | none :: ks, h => layersWritten_of (ks := ks) (fun k hk => h k (by simp [hk]))
  | some k :: ks, h => ⟨h k (by simp), layersWritten_of (ks := ks) (fun k hk => h k (by simp [hk]))⟩

theorem chordsShallow_of {n : Nat} : ∀ {ks : List (Nat × NKey)}, (∀ i k, (i, k) ∈ ks → k.Shallow n) → ChordsShallow n ks
  | [], _ => trivial
  | (i, k) :: ks, h => ⟨h i k (by simp), chordsShallow_of (fun i k hk => h i k (by simp [hk]))⟩

theorem altsChords_of : ∀ {ks : List (Nat × NKey)}, (∀ i k, (i, k) ∈ ks → k.Written) → altsChords ks = 0
  | [], _ => rfl
  | (i, k) :: ks, h => by
    simp [altsChords, alts_written k (h i k (by simp)), altsChords_of (ks := ks) (fun i k hk => h i k (by simp [hk]))]

theorem column_isSome {idx : Nat} : ∀ {ls : List (List (Option NKey))}, (∀ l ∈ ls, idx < l.length) → (column idx ls).isSome
  | [], _ => rfl
  | l :: ls, h => by
    obtain ⟨_, h2⟩ := Option.isSome_iff_exists.1 (column_isSome (fun l hl => h l (List.mem_cons_of_mem _ hl)))
    simp [column, h2, List.getElem?_eq_getElem (h l (by simp))]

section
variable {s : Src} {base : List (Option NKey)} {upper : List (List (Option NKey))} (ha : s.Acceptable base upper)
include ha

theorem Src.Acceptable.stacked {i : Nat} (hi : i < base.length) : ∃ k, stacked base[i] i upper = some k ∧ k.Written ∧
    k.Shallow 2 ∧ ((∃ c ∈ s.chords, i ∈ c.indices) → k.Shallow 1) := by
  have h0 : s.at 0 i = base[i] := by simp [Src.at, ha.layers, List.getElem?_eq_getElem hi]
  obtain ⟨b, hb⟩ := Option.isSome_iff_exists.1 (ha.baseKeys i hi)
  rw [h0] at hb
  obtain ⟨col, hc⟩ := Option.isSome_iff_exists.1 (column_isSome (idx := i) (ls := upper) (fun l hl => Nat.lt_of_lt_of_le hi (ha.long l hl)))
  have hat : ∀ l, s.at (l + 1) i = (col[l]?).join := by
    intro l
    rw [column_get hc l]
    simp [Src.at, ha.layers]
  have hbw : b.Written := ha.written i 0 b (by rw [h0, hb])
  obtain ⟨n, hn, hs⟩ := ha.shallow i 0 b hi (by rw [h0, hb])
  simp only [Codegen.stacked, hc, Option.bind_eq_bind, Option.bind_some, hb]
  split
  · exact ⟨b, rfl, hbw, shallow_mono b (by omega) hs, fun h => shallow_mono b (by have := hn.1 h; omega) hs⟩
  · rename_i hall
    have hex : ∃ l, 0 < l ∧ (s.at l i).isSome := by
      simp only [List.all_eq_true, Classical.not_forall] at hall
      obtain ⟨o, ho, hno⟩ := hall
      obtain ⟨l, hl⟩ := List.getElem?_of_mem ho
      refine ⟨l + 1, by omega, ?_⟩
      rw [hat, hl]
      cases o <;> simp at hno ⊢
    obtain ⟨l, hl, hls⟩ := hex
    obtain ⟨hu1, hu2⟩ := ha.under i l hi hl hls
    rw [h0, hb] at hu1 hu2
    have hwl : withLayers (some b) col = some (.layered b col) := by
      unfold withLayers
      split
      · rename_i h; simp at h
      · rename_i h; exact absurd h hu1
      · rename_i h; exact absurd h (hu2 _ _)
      · rename_i h; simp only [Option.some.injEq] at h; subst h; rfl
    have hcol : ∀ k, some k ∈ col → ∃ l, 0 < l ∧ s.at l i = some k := by
      intro k hk
      obtain ⟨q, hq⟩ := List.getElem?_of_mem hk
      exact ⟨q + 1, by omega, by rw [hat, hq]; rfl⟩
    refine ⟨_, hwl, ⟨hbw, layersWritten_of ?_⟩, ⟨shallow_mono b (by have := hn.2.1 ⟨l, hl, hls⟩; omega) hs, layersShallow_of ?_⟩, ?_⟩
    · intro k hk
      obtain ⟨l', _, h'⟩ := hcol k hk
      exact ha.written i l' k h'
    · intro k hk
      obtain ⟨l', _, h'⟩ := hcol k hk
      obtain ⟨n', hn', hs'⟩ := ha.shallow i l' k hi h'
      exact shallow_mono k (by have := hn'.2.1 ⟨l, hl, hls⟩; omega) hs'
    · intro hch
      refine ⟨shallow_mono b (by have := hn.2.2 hch ⟨l, hl, hls⟩; omega) hs, layersShallow_of ?_⟩
      intro k hk
      obtain ⟨l', _, h'⟩ := hcol k hk
      obtain ⟨n', hn', hs'⟩ := ha.shallow i l' k hi h'
      exact shallow_mono k (by have := hn'.2.2 hch ⟨l, hl, hls⟩; omega) hs'

omit ha in
theorem stackedFrom_isSome {bs : List (Option NKey)} : ∀ {idx : Nat}, (∀ (i : Nat) (h : i < bs.length), ∃ k, Codegen.stacked bs[i] (idx + i) upper = some k) →
    (stackedFrom upper idx bs).isSome := by
  induction bs with
  | nil => intro _ _; rfl
  | cons b bs ih =>
    intro idx h
    obtain ⟨k, hk⟩ := h 0 (by simp)
    obtain ⟨_, h2⟩ := Option.isSome_iff_exists.1 (ih (idx := idx + 1) (by
      intro i hi
      obtain ⟨k, hk⟩ := h (i + 1) (by simp only [List.length_cons]; omega)
      exact ⟨k, by rw [show idx + 1 + i = idx + (i + 1) by omega]; simpa using hk⟩))
    simp only [List.getElem_cons_zero, Nat.add_zero] at hk
    simp [stackedFrom, hk, h2]

omit ha in
theorem chordedFrom_isSome {bs : List NKey} {chords : List SrcChord} : ∀ {idx : Nat}, (∀ i b, (chordedKey chords i b).isSome) →
    (chordedFrom chords idx bs).isSome := by
  induction bs with
  | nil => intro _ _; rfl
  | cons b bs ih =>
    intro idx h
    obtain ⟨_, h1⟩ := Option.isSome_iff_exists.1 (h idx b)
    obtain ⟨_, h2⟩ := Option.isSome_iff_exists.1 (ih (idx := idx + 1) h)
    simp [chordedFrom, h1, h2]

omit ha in
theorem primaryChords_isSome {idx : Nat} : ∀ {cs : List SrcChord} {n : Nat}, (∀ c ∈ cs, c.indices ≠ []) → (primaryChords idx n cs).isSome
  | [], _, _ => rfl
  | c :: cs, n, h => by
    obtain ⟨_, h2⟩ := Option.isSome_iff_exists.1 (primaryChords_isSome (idx := idx) (cs := cs) (n := n + 1) (fun c hc => h c (by simp [hc])))
    cases hc : c.indices with
    | nil => exact absurd hc (h c (by simp))
    | cons i is => simp [primaryChords, hc, h2]

omit ha in
theorem primaryChords_length {idx : Nat} : ∀ {cs : List SrcChord} {n : Nat} {ps : List (Nat × NKey)}, primaryChords idx n cs = some ps →
    ps.length = cs.countP fun c => c.indices.head? = some idx
  | [], n, ps, h => by
    simp only [primaryChords, Option.some.injEq] at h
    subst h
    rfl
  | c :: cs, n, ps, h => by
    unfold primaryChords at h
    split at h
    · simp at h
    rename_i i rest hi
    simp only [Option.pure_def, Option.bind_eq_bind, Option.bind_eq_some_iff, Option.some.injEq] at h
    obtain ⟨qs, hq, rfl⟩ := h
    have := primaryChords_length hq
    rw [List.countP_cons]
    split <;> simp_all

omit ha in
theorem le_foldl_max : ∀ (l : List Nat) (a : Nat), a ≤ l.foldl max a ∧ ∀ x ∈ l, x ≤ l.foldl max a
  | [], a => by simp
  | b :: l, a => by
    obtain ⟨h1, h2⟩ := le_foldl_max l (max a b)
    simp only [List.foldl_cons, List.mem_cons]
    refine ⟨by omega, ?_⟩
    rintro x (rfl | hx)
    · omega
    · exact h2 x hx

omit ha in
theorem primaryChords_overlap {idx : Nat} {cs : List SrcChord} {ps : List (Nat × NKey)} (h : primaryChords idx 0 cs = some ps) :
    ps.length ≤ maxOverlap (cs.map (·.indices)) := by
  by_cases hp : ps = []
  · simp [hp]
  obtain ⟨⟨m, k⟩, hmk⟩ := List.exists_mem_of_ne_nil ps hp
  obtain ⟨c, _, hc, hh, _⟩ := ((primaryChords_spec h).2.1 m k).1 hmk
  have hmem : c ∈ cs := List.mem_of_getElem? hc
  rw [primaryChords_length h]
  refine (le_foldl_max _ 0).2 _ ?_
  refine List.mem_map.2 ⟨c.indices, List.mem_map.2 ⟨c, hmem, rfl⟩, ?_⟩
  rw [List.countP_map, hh]
  rfl

theorem Src.Acceptable.chordedKeys : ∃ ks, s.chordedKeys = some ks ∧ ks.length = base.length ∧ (∀ k ∈ ks, k.Shallow 2) ∧
    altsAll ks ≤ maxOverlap (s.chords.map (·.indices)) := by
  obtain ⟨ls, hls⟩ := Option.isSome_iff_exists.1 (stackedFrom_isSome (upper := upper) (bs := base) (idx := 0) (by
    intro i hi
    obtain ⟨k, hk, _⟩ := ha.stacked hi
    exact ⟨k, by simpa using hk⟩))
  obtain ⟨hll, hlg⟩ := stackedFrom_get hls
  obtain ⟨ks, hks⟩ := Option.isSome_iff_exists.1 (chordedFrom_isSome (chords := s.chords) (bs := ls) (idx := 0) (by
    intro i b
    obtain ⟨ps, hp⟩ := Option.isSome_iff_exists.1 (primaryChords_isSome (idx := i) (n := 0) ha.chords)
    simp only [chordedKey, hp, Option.bind_eq_bind, Option.bind_some]
    split <;> rfl))
  obtain ⟨hkl, hkg⟩ := chordedFrom_get hks
  have hkey : ∀ k ∈ ks, k.Shallow 2 ∧ k.alts ≤ maxOverlap (s.chords.map (·.indices)) := by
    intro k hk
    obtain ⟨i, hi⟩ := List.getElem?_of_mem hk
    obtain ⟨b, hb, hbk⟩ := hkg i k hi
    obtain ⟨b0, hb0, hst⟩ := hlg i b hb
    have hib := (List.getElem?_eq_some_iff.1 hb0).1
    obtain ⟨k', hk', hw, hs2, hs1⟩ := ha.stacked hib
    have : k' = b := by
      rw [Nat.zero_add] at hst
      rw [List.getElem?_eq_getElem hib] at hb0
      rw [Option.some.inj hb0, hst] at hk'
      exact (Option.some.inj hk').symm
    subst this
    rw [Nat.zero_add] at hbk
    simp only [chordedKey, Option.bind_eq_bind, Option.bind_eq_some_iff] at hbk
    obtain ⟨ps, hp, hbk⟩ := hbk
    have hps := primaryChords_spec hp
    have hlen := primaryChords_overlap hp
    split at hbk
    · simp only [Option.pure_def, Option.some.injEq] at hbk
      split at hbk
      · rename_i hany
        subst hbk
        rw [List.any_eq_true] at hany
        obtain ⟨c, hc, hin⟩ := hany
        exact ⟨hs1 ⟨c, hc, by simpa using hin⟩, by simp [NKey.alts, alts_written _ hw]⟩
      · subst hbk
        exact ⟨hs2, by simp [alts_written _ hw]⟩
    · rename_i hne
      simp only [Option.pure_def, Option.some.injEq] at hbk
      subst hbk
      have hcs : ∀ m k, (m, k) ∈ ps → ∃ c ∈ s.chords, c.indices.head? = some i ∧ c.key = k := by
        intro m k hmk
        obtain ⟨c, _, hc, h⟩ := (hps.2.1 m k).1 hmk
        exact ⟨c, List.mem_of_getElem? hc, h⟩
      obtain ⟨⟨m, k⟩, hmk⟩ := List.exists_mem_of_ne_nil ps (by simpa using hne)
      obtain ⟨c, hc, hh, _⟩ := hcs m k hmk
      refine ⟨⟨chordsShallow_of ?_, hs1 ⟨c, hc, List.mem_of_mem_head? hh⟩⟩, ?_⟩
      · intro m k hmk
        obtain ⟨c, hc, _, rfl⟩ := hcs m k hmk
        exact (ha.chordWritten c hc).2
      · have h1 : altsChords ps = 0 := altsChords_of (by
          intro m k hmk
          obtain ⟨c, hc, _, rfl⟩ := hcs m k hmk
          exact (ha.chordWritten c hc).1)
        simp only [NKey.alts, h1, alts_written _ hw]
        omega
  refine ⟨ks, ?_, by omega, fun k hk => (hkey k hk).1, ?_⟩
  · simp only [Src.chordedKeys, Src.layeredKeys, ha.layers, hls, Option.bind_eq_bind, Option.bind_some, hks]
  · have : ∀ ks : List NKey, (∀ k ∈ ks, k.alts ≤ maxOverlap (s.chords.map (·.indices))) → altsAll ks ≤ maxOverlap (s.chords.map (·.indices)) := by
      intro ks
      induction ks with
      | nil => intro _; simp [altsAll]
      | cons k ks ih =>
        intro h
        have h1 := h k (by simp)
        have h2 := ih (fun k hk => h k (by simp [hk]))
        simp only [altsAll]
        omega
    exact this ks fun k hk => (hkey k hk).2

theorem Src.Acceptable.compiles : (compile s).isSome := by
  obtain ⟨ks, hks, hlen, hsh, halt⟩ := ha.chordedKeys
  obtain ⟨js, hjs⟩ := Option.isSome_iff_exists.1 (toJsonAll_isSome _ (mapAccumAll_shallow ks [] hsh))
  have hjl : js.length = base.length := by
    have := toJsonAll_length hjs
    rw [mapAccumAll_length] at this
    omega
  have hjson : s.json = some ⟨js, (mapAccumAll [] ks).1, s.chords.map (·.indices), s.options⟩ := by
    simp [Src.json, hks, hjs]
  have hsz : Json.sizes ⟨js, (mapAccumAll [] ks).1, s.chords.map (·.indices), s.options⟩ =
      some ⟨maxLayersAll js, maxDefsAll js, (s.chords.map (·.indices)).length, maxChordSize (s.chords.map (·.indices)),
        maxOverlap (s.chords.map (·.indices))⟩ := by
    simp only [Json.sizes]
    rw [if_neg]
    rintro (h | h)
    · rw [h] at hjl
      exact ha.nonempty (List.length_eq_zero_iff.1 hjl.symm)
    · obtain ⟨c, hc, h⟩ := List.mem_map.1 h
      exact ha.chords c hc h
  obtain ⟨K, hK⟩ := Option.isSome_iff_exists.1 (build_isSome (js := js) (z := ⟨maxLayersAll js, maxDefsAll js, (s.chords.map (·.indices)).length,
      maxChordSize (s.chords.map (·.indices)), maxOverlap (s.chords.map (·.indices))⟩) (Nat.le_refl _) (by
    rw [toJsonAll_alts _ hjs, mapAccumAll_alts]
    exact halt))
  simp only [compile, hjson, Option.bind_eq_bind, Option.bind_some, Json.gen, hsz, hK]
  rfl

end

end Verif.Codegen
