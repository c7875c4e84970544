import Verif.Lemmas.CodegenRead

/-!
# The tables of a compiled keymap with sticky layers, tap-dance keys or chords read as the layout of its source
-/

namespace Verif.Codegen

open Comp (Ref Keys cellOf entryOf onceOf oncesOf spotOf onceLayoutOf dancersOf danceOf dancesOf dancePosOf danceLayoutOf chordKeysOf chordPosOf
  chordLayoutOf chordRulesOf)
open Board (Cell Entry)

def onceReader (K : Keys) : Reader K OneShot.Act OneShot.Pos .act .layered where
  f := onceOf K
  fs := oncesOf K
  p := spotOf K
  ps := onceLayoutOf K
  fsNil := rfl
  fsNone := fun rs as h => by simp [oncesOf, h]
  fsSome := fun r a rs as h h' => by simp [oncesOf, h, h']
  pOne := fun r a h => by
    unfold spotOf
    split
    · simp [onceOf, cellOf] at h
    · simp [h]
  pLayered := fun i e a as h1 h2 h3 => by simp [spotOf, h1, h2, h3]
  psNil := rfl
  psCons := fun r x rs xs h h' => by simp [onceLayoutOf, h, h']

def danceReader (K : Keys) : Reader K Dance.Act Dance.Pos .act .layered where
  f := danceOf K
  fs := dancesOf K
  p := dancePosOf K
  ps := danceLayoutOf K
  fsNil := rfl
  fsNone := fun rs as h => by simp [dancesOf, h]
  fsSome := fun r a rs as h h' => by simp [dancesOf, h, h']
  pOne := fun r a h => by
    unfold dancePosOf
    split
    · simp [danceOf, cellOf] at h
    · simp [h]
  pLayered := fun i e a as h1 h2 h3 => by simp [dancePosOf, h1, h2, h3]
  psNil := rfl
  psCons := fun r x rs xs h h' => by simp [danceLayoutOf, h, h']

section

variable {K : Keys} {I : List Automation.Instruction} {r : Ref} {k : NKey}

theorem once_read {a : OneShot.Act} (hk : OnceKey k a) (hm : Means K I k r) : onceOf K r = some a := by
  cases hk with
  | leaf hl =>
    cases hm with
    | leaf hm =>
      have h := cellOf_of hl hm
      unfold onceOf
      split
      · split
        · rename_i i _ l hi
          simp [cellOf, hi] at h
        · simp [h]
      · simp [h]
  | sticky l =>
    cases hm with
    | leaf hm =>
      cases hm with
      | layerModifier h h' =>
        cases h'
        simp [onceOf, h]

theorem dancers_read : ∀ {ds : List (Option Ref)} {ks : List NKey} {cs : List Cell}, cs.length = ks.length →
    (∀ (j : Nat) k c, ks[j]? = some k → cs[j]? = some c → PlainKey k c) → (∀ j : Nat, ((ds[j]?).join).isSome = (ks[j]?).isSome) →
    (∀ (j : Nat) k r, ks[j]? = some k → ds[j]? = some (some r) → Means K I k r) → dancersOf K ds = some cs
  | [], [], [], _, _, _, _ => rfl
  | [], k :: ks, _, _, _, h, _ => by simpa using h 0
  | _, [], _ :: _, h, _, _, _ => by simp at h
  | _, _ :: _, [], h, _, _, _ => by simp at h
  | none :: ds, [], [], _, _, h, _ => by
    have : ds.all Option.isNone = true := by
      rw [List.all_eq_true]
      intro o ho
      obtain ⟨j, hj⟩ := List.getElem?_of_mem ho
      have := h (j + 1)
      simp only [List.getElem?_cons_succ, hj, Option.join_some] at this
      cases o with
      | none => rfl
      | some r => simp at this
    simp [dancersOf, this]
  | some r :: ds, [], [], _, _, h, _ => by simpa using h 0
  | none :: ds, k :: ks, _, _, _, h, _ => by simpa using h 0
  | some r :: ds, k :: ks, c :: cs, hl, hp, hs, hm => by
    have ih := dancers_read (ds := ds) (ks := ks) (cs := cs) (by simpa using hl) (fun j k c h1 h2 => hp (j + 1) k c h1 h2)
      (fun j => hs (j + 1)) (fun j k r h1 h2 => hm (j + 1) k r h1 h2)
    simp [dancersOf, plain_read (hp 0 k c rfl rfl) (hm 0 k r rfl rfl), ih]

theorem dance_read {a : Dance.Act} (hk : DanceKey k a) (hm : Means K I k r) : danceOf K r = some a := by
  cases hk with
  | leaf hl =>
    cases hm with
    | leaf hm =>
      have h := cellOf_of hl hm
      unfold danceOf
      split
      · simp [cellOf] at h
      · simp [h]
  | dances hl hp =>
    cases hm with
    | dances h1 h2 h3 => simp [danceOf, h1, dancers_read hl hp h2 h3]

theorem chordKeys_read : ∀ {ks : List (Nat × Ref)} {cs : List (Nat × Entry)}, ks.map (·.1) = cs.map (·.1) →
    (∀ n r x, (n, r) ∈ ks → (n, x) ∈ cs → entryOf K r = some x) → chordKeysOf K ks = some cs
  | [], [], _, _ => rfl
  | [], _ :: _, h, _ => by simp at h
  | _ :: _, [], h, _ => by simp at h
  | (n, r) :: ks, (n', x) :: cs, h, he => by
    simp only [List.map_cons, List.cons.injEq] at h
    obtain ⟨rfl, h⟩ := h
    have ih := chordKeys_read (ks := ks) (cs := cs) h (fun n r x h1 h2 => he n r x (.tail _ h1) (.tail _ h2))
    simp [chordKeysOf, he n r x (.head _) (.head _), ih]

theorem sorted_ext : ∀ {as bs : List Nat}, as.Pairwise (· < ·) → bs.Pairwise (· < ·) → (∀ n, n ∈ as ↔ n ∈ bs) → as = bs
  | [], [], _, _, _ => rfl
  | [], b :: bs, _, _, h => by simpa using h b
  | a :: as, [], _, _, h => by simpa using h a
  | a :: as, b :: bs, ha, hb, h => by
    obtain ⟨ha1, ha2⟩ := List.pairwise_cons.1 ha
    obtain ⟨hb1, hb2⟩ := List.pairwise_cons.1 hb
    have h1 := (h a).1 (.head _)
    have h2 := (h b).2 (.head _)
    have hab : a = b := by
      rcases List.mem_cons.1 h1 with h1 | h1
      · exact h1
      · rcases List.mem_cons.1 h2 with h2 | h2
        · exact h2.symm
        · have := hb1 _ h1
          have := ha1 _ h2
          omega
    subst hab
    rw [sorted_ext ha2 hb2]
    intro n
    constructor
    · intro hn
      rcases List.mem_cons.1 ((h n).1 (.tail _ hn)) with rfl | h'
      · have := ha1 _ hn
        omega
      · exact h'
    · intro hn
      rcases List.mem_cons.1 ((h n).2 (.tail _ hn)) with rfl | h'
      · have := hb1 _ hn
        omega
      · exact h'

theorem chordLayout_read : ∀ {rs : List Ref} {xs : List Chords.Pos}, xs.length = rs.length →
    (∀ (i : Nat) r x, rs[i]? = some r → xs[i]? = some x → chordPosOf K r = some x) → chordLayoutOf K rs = some xs
  | [], [], _, _ => rfl
  | r :: rs, [], h, _ => by simp at h
  | [], x :: xs, h, _ => by simp at h
  | r :: rs, x :: xs, h, hp => by
    have ih := chordLayout_read (rs := rs) (xs := xs) (by simpa using h) (fun i r x h1 h2 => hp (i + 1) r x h1 h2)
    simp [chordLayoutOf, hp 0 r x rfl rfl, ih]

theorem chordPos_plain {e : Entry} (h : entryOf K r = some e) : chordPosOf K r = some (.plain e) := by
  unfold chordPosOf
  split
  · simp [entryOf, cellOf] at h
  · simp [entryOf, cellOf] at h
  · simp [h]

theorem entry_read {c : Cell} (hk : PlainKey k c) (hm : Means K I k r) : entryOf K r = some (.cell c) :=
  (plainReader K).pOne _ _ (plain_read hk hm)

end

/-- The tables of a keymap with chords read as what the source says. -/
theorem read_chords {s : Src} {c : Compiled} (hc : compile s = some c) {layout : List Chords.Pos} (hr : s.ReadsChords layout) :
    chordLayoutOf c.keys c.refs = some layout ∧ c.config.layerCount = s.count ∧ (∀ ms, chordRulesOf c.config.chorded ms = s.chordRules ms) ∧
    1 ≤ c.config.chorded.maxChordSize ∧ c.config.chorded.chords = s.chords.map (·.indices) ∧ c.config.maxChords = s.chords.length := by
  obtain ⟨base, upper, bs, ks, js, z, st⟩ := compile_stages hc
  have hlen := st.lengths
  obtain ⟨base', hb, hll⟩ := hr.length
  have hbb : base' = base := by simpa [st.layers] using hb.symm
  subst hbb
  have hsays : ∀ {i : Nat} {p : Chords.Pos}, layout[i]? = some p → ∃ e : Entry, Says PlainKey .cell .layered s i e := by
    intro i p hp
    cases hr.says i p hp with
    | plain _ h => exact ⟨_, h⟩
    | first _ h _ _ _ => exact ⟨_, h⟩
    | other _ _ h => exact ⟨_, h⟩
  have hw0 : ∀ k a, PlainKey k a → k.width = 0 := fun k a h => by cases h; rfl
  have hwidth : ∀ i l k, i < base'.length → s.at l i = some k → k.width = 0 := by
    intro i l k hi hk
    obtain ⟨e, he⟩ := hsays (i := i) (List.getElem?_eq_getElem (by omega))
    obtain ⟨a, ha⟩ := he.keys hk
    exact hw0 _ _ ha
  have hcount := st.count hwidth (fun c hc => by
    obtain ⟨a, ha⟩ := hr.keys c hc
    exact hw0 _ _ ha)
  refine ⟨chordLayout_read (by omega) ?_, hcount, ?_, ?_, ?_, ?_⟩
  · intro i r x hri hxi
    have hspot : ∀ {e : Entry} {r : Ref}, Says PlainKey .cell .layered s i e → Stacks c.keys c.config.automation.instructions s i r →
        entryOf c.keys r = some e := fun hx hst =>
      read_spot (plainReader c.keys) st.layers hcount (fun e he => st.layered_length he) (fun k a r hk hm => plain_read hk hm)
        (by have := (List.getElem?_eq_some_iff.1 hxi).1; omega) hx hst
    have hfirst : ∀ {e : Chorded.Key Ref}, e.chords ≠ [] →
        (∀ n : Nat, n ∈ e.chords.map (·.1) ↔ ∃ c, s.chords[n]? = some c ∧ c.indices.head? = some i) →
        ∃ c ∈ s.chords, c.indices.head? = some i := by
      intro e hne hn
      cases hee : e.chords with
      | nil => exact absurd hee hne
      | cons a t =>
        obtain ⟨c, h, h'⟩ := (hn a.1).1 (by simp [hee])
        exact ⟨c, List.mem_of_getElem? h, h'⟩
    have hmem : ∀ {c : SrcChord}, c.indices.head? = some i → i ∈ c.indices := fun h => List.mem_of_mem_head? h
    cases st.position hri with
    | alone hno hst =>
      cases hr.says i x hxi with
      | plain _ h => exact chordPos_plain (hspot h hst)
      | first hf _ _ _ _ =>
        obtain ⟨c, hc, h⟩ := hf
        exact absurd (hmem h) (hno c hc)
      | other ho _ _ =>
        obtain ⟨c, hc, h⟩ := ho
        exact absurd h (hno c hc)
    | first hj hst hne hsort hids hks =>
      obtain ⟨c', hc', h'⟩ := hfirst hne hids
      cases hr.says i x hxi with
      | plain hno _ => exact absurd (hmem h') (hno c' hc')
      | first _ h gsort gids gks =>
        rename_i e cs a _
        have hk : chordKeysOf c.keys e.chords = some cs := by
          refine chordKeys_read (sorted_ext hsort gsort (fun n => (hids n).trans (gids n).symm)) ?_
          intro n r x h1 h2
          obtain ⟨ch, hch, _⟩ := (hids n).1 (List.mem_map.2 ⟨_, h1, rfl⟩)
          obtain ⟨cell, hp, rfl⟩ := gks n x ch h2 hch
          exact entry_read hp (hks n r ch h1 hch)
        simp [chordPosOf, hj, hk, hspot h hst]
      | other _ hno _ => exact absurd h' (hno c' hc')
    | member ho hno hj hst =>
      cases hr.says i x hxi with
      | plain hno' _ =>
        obtain ⟨c', hc', h'⟩ := ho
        exact absurd h' (hno' c' hc')
      | first hf _ _ _ _ =>
        obtain ⟨c', hc', h'⟩ := hf
        exact absurd h' (hno c' hc')
      | other _ _ h => simp [chordPosOf, hj, hspot h hst]
  · intro ms
    rw [st.config, st.sizes]
    simp only [Json.config, chordRulesOf, Src.chordRules, maxChordSize, Nat.mul_comm]
  · rw [st.config, st.sizes]
    show 1 ≤ maxChordSize _
    obtain ⟨ch, hch⟩ := List.exists_mem_of_ne_nil _ hr.some'
    obtain ⟨k, hk, _⟩ := hr.two ch hch
    have hle := (le_foldl_max ((s.chords.map (·.indices)).map List.length) 0).2 ch.indices.length
      (List.mem_map.2 ⟨_, List.mem_map.2 ⟨ch, hch, rfl⟩, rfl⟩)
    have := List.length_pos_of_mem hk
    simp only [maxChordSize]
    omega
  · rw [st.config]
    rfl
  · rw [st.config, st.sizes]
    rfl

end Verif.Codegen
