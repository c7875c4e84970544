import Verif.Lemmas.ChordIdx
import Verif.Lemmas.BoardSim
import Verif.Spec.ChordLayout

/-!
# The bookkeeping of the chords

What the chord context of the firmware says about the board of `Spec/Chords.lean`.
-/

namespace Verif.Chorded

open Verif.Comp (chordRulesOf)
open Verif.Chords (Rules State once)

theorem range'_filter_map {α : Type} (xs : List α) (d : α) (i : Nat) (p : Nat → α → Bool) :
    ((List.range' i xs.length).filter (fun j => p j ((xs[j - i]?).getD d))).map (fun j => (j, (xs[j - i]?).getD d)) =
      (enumFrom i xs).filter (fun q => p q.1 q.2) := by
  induction xs generalizing i with
  | nil => rfl
  | cons x xs ih =>
    have hshift : ∀ j ∈ List.range' (i + 1) xs.length, ((x :: xs)[j - i]?).getD d = (xs[j - (i + 1)]?).getD d := by
      intro j hj
      have := (List.mem_range'_1.1 hj).1
      rw [show j - i = (j - (i + 1)) + 1 by omega]
      rfl
    simp only [List.length_cons, List.range'_succ, enumFrom, List.filter_cons, Nat.sub_self, List.getElem?_cons_zero, Option.getD_some]
    rw [List.filter_congr (q := fun j => p j ((xs[j - (i + 1)]?).getD d)) (fun j hj => by rw [hshift j hj])]
    have hmap : ((List.range' (i + 1) xs.length).filter (fun j => p j ((xs[j - (i + 1)]?).getD d))).map (fun j => (j, ((x :: xs)[j - i]?).getD d)) =
        (enumFrom (i + 1) xs).filter (fun q => p q.1 q.2) := by
      rw [← ih (i + 1)]
      apply List.map_congr_left
      intro j hj
      rw [hshift j (List.mem_filter.1 hj).1]
    split
    · simp only [List.map_cons, Nat.sub_self, List.getElem?_cons_zero, Option.getD_some, hmap]
    · exact hmap

/-- The chords, with their numbers. -/
theorem enumFrom_ids (cfg : Config) (ms : Nat) (p : Nat → Chord → Bool) :
    (enumFrom 0 cfg.chords).filter (fun q => p q.1 q.2) =
      ((chordRulesOf cfg ms).ids.filter (fun id => p id ((chordRulesOf cfg ms).keys id))).map (fun id => (id, (chordRulesOf cfg ms).keys id)) := by
  rw [← range'_filter_map cfg.chords [] 0 p]
  rw [Rules.ids, List.range_eq_range']
  rfl

theorem pressedFrom_enum (cs : List Chord) (pre : List Chord) (bs : List Bool) (k : Nat) (hl : bs.length = cs.length) (full : List Bool)
    (hf : ∀ j, j < bs.length → full[pre.length + j]? = bs[j]?) :
    pressedFrom (pre ++ cs) pre.length (bs ++ List.replicate k false) =
      .ok ((enumFrom pre.length cs).filter (fun q => (full[q.1]?).getD false)) := by
  induction cs generalizing pre bs with
  | nil =>
    have : bs = [] := List.length_eq_zero_iff.1 (by simpa using hl)
    subst this
    simp only [List.append_nil, List.nil_append, enumFrom, List.filter_nil]
    exact pressedFrom_none _ _ (by intro b hb; exact (List.mem_replicate.1 hb).2)
  | cons c cs ih =>
    cases bs with
    | nil => simp at hl
    | cons b bs =>
      simp only [List.length_cons, Nat.add_right_cancel_iff] at hl
      have h0 : full[pre.length]? = some b := by have := hf 0 (by simp); simpa using this
      have hrest := ih (pre ++ [c]) bs hl (by
        intro j hj
        have := hf (j + 1) (by simp only [List.length_cons]; omega)
        simpa [Nat.add_assoc, Nat.add_comm 1] using this)
      simp only [List.length_append, List.length_cons, List.length_nil, Nat.zero_add, List.append_assoc, List.cons_append, List.nil_append] at hrest
      have hidx : Res.index (pre ++ c :: cs) pre.length = .ok c := by simp
      cases b with
      | true =>
        simp only [List.cons_append, pressedFrom, hidx, Res.ok_bind, hrest, Res.pure_eq, enumFrom, List.filter_cons, h0, Option.getD_some, if_true]
      | false =>
        simp only [List.cons_append, pressedFrom, hrest, enumFrom, List.filter_cons, h0, Option.getD_some, Bool.false_eq_true, if_false]

theorem once_length (is : List Nat) (seen : List Nat) : seen.length ≤ (once seen is).length := by
  induction is generalizing seen with
  | nil => exact Nat.le_refl _
  | cons i is ih =>
    simp only [once]
    refine Nat.le_trans ?_ (ih _)
    split
    · exact Nat.le_refl _
    · simp

theorem once_append (as bs seen : List Nat) : once seen (as ++ bs) = once (once seen as) bs := by
  induction as generalizing seen with
  | nil => rfl
  | cons a as ih => simp only [List.cons_append, once, ih]

theorem mem_once {is seen : List Nat} {k : Nat} : k ∈ once seen is ↔ k ∈ seen ∨ k ∈ is := by
  induction is generalizing seen with
  | nil => simp [once]
  | cons i is ih =>
    simp only [once, ih, List.mem_cons]
    split
    · rename_i hc
      have : i ∈ seen := by simpa using hc
      constructor
      · rintro (h | h)
        · exact .inl h
        · exact .inr (.inr h)
      · rintro (h | rfl | h)
        · exact .inl h
        · exact .inl this
        · exact .inr h
    · simp only [List.mem_append, List.mem_cons, List.not_mem_nil, or_false, or_assoc]

theorem spanInsertAll_once (cap : Nat) (is seen : List Nat) (h : (once seen is).length ≤ cap) :
    spanInsertAll cap seen is = .ok (once seen is) := by
  induction is generalizing seen with
  | nil => rfl
  | cons i is ih =>
    simp only [once] at h
    have hstep : spanInsert cap seen i = .ok (if seen.contains i then seen else seen ++ [i]) := by
      unfold spanInsert
      split
      · rfl
      · rename_i hc
        rw [if_neg hc] at h
        have := once_length is (seen ++ [i])
        simp only [List.length_append, List.length_cons, List.length_nil] at this
        unfold pushCap
        rw [if_pos (by omega)]
    simp only [spanInsertAll, hstep, Res.ok_bind, once]
    exact ih _ h

theorem spanOf_once (cap : Nat) (ps : List (Nat × Chord)) (seen : List Nat) (h : (once seen (ps.flatMap Prod.snd)).length ≤ cap) :
    spanOf cap seen ps = .ok (once seen (ps.flatMap Prod.snd)) := by
  induction ps generalizing seen with
  | nil => rfl
  | cons p ps ih =>
    obtain ⟨i, ch⟩ := p
    simp only [List.flatMap_cons, once_append] at h ⊢
    have h1 : (once seen ch).length ≤ cap := Nat.le_trans (once_length _ _) h
    simp only [spanOf, spanInsertAll_once cap ch seen h1, Res.ok_bind]
    exact ih _ h

/-- What the chord context says: which chords are down, the chord pressed last, the indices `is` of the pressed
keys, and the idle time. -/
structure Tracks (cfg : Config) (ms : Nat) (s : State) (is : List Nat) (c : Ctx) : Prop where
  config : c.config = cfg
  flags : ∃ k, c.pressedChords = s.down ++ List.replicate k false
  len : s.down.length = cfg.chords.length
  latest : c.latest = s.latest
  latestLt : ∀ id, s.latest = some id → id < cfg.chords.length
  idx : IdxOk c.pressedIndices is cfg.maxPressed
  idle : c.idle = s.idleSeen

variable {cfg : Config} {ms : Nat} {s : State} {is : List Nat} {c : Ctx}

theorem Tracks.congr {s' : State} (h : Tracks cfg ms s is c) (h1 : s'.down = s.down) (h2 : s'.latest = s.latest) (h3 : s'.idleSeen = s.idleSeen) :
    Tracks cfg ms s' is c :=
  ⟨h.config, by rw [h1]; exact h.flags, by rw [h1]; exact h.len, by rw [h2]; exact h.latest, by rw [h2]; exact h.latestLt, h.idx, by rw [h3]; exact h.idle⟩

theorem Tracks.pressed (h : Tracks cfg ms s is c) :
    c.pressed = .ok (((chordRulesOf cfg ms).ids.filter s.isDown).map fun id => (id, (chordRulesOf cfg ms).keys id)) := by
  obtain ⟨k, hk⟩ := h.flags
  unfold Ctx.pressed
  rw [h.config, hk]
  have := pressedFrom_enum cfg.chords [] s.down k h.len s.down (by intro j _; simp)
  simp only [List.nil_append, List.length_nil] at this
  rw [this, enumFrom_ids cfg ms (fun id _ => (s.down[id]?).getD false)]
  rfl

theorem Tracks.span (h : Tracks cfg ms s is c) (hr : (once [] (s.busy (chordRulesOf cfg ms))).length ≤ cfg.maxPressed) :
    c.span = .ok (once [] (s.busy (chordRulesOf cfg ms))) := by
  unfold Ctx.span
  rw [h.pressed]
  simp only [Res.ok_bind]
  have hb : s.busy (chordRulesOf cfg ms) =
      (((chordRulesOf cfg ms).ids.filter s.isDown).map fun id => (id, (chordRulesOf cfg ms).keys id)).flatMap Prod.snd := by
    unfold State.busy
    rw [List.flatMap_map]
  rw [hb] at hr ⊢
  rw [h.config]
  exact spanOf_once _ _ _ hr

theorem Tracks.with_index (h : Tracks cfg ms s is c) (i : Nat) :
    c.pressedChordWithIndex i =
      .ok ((s.downWith (chordRulesOf cfg ms) i).map fun id => ⟨id, (chordRulesOf cfg ms).keys id, true⟩) := by
  unfold Ctx.pressedChordWithIndex
  rw [h.pressed]
  simp only [Res.ok_bind, Res.pure_eq, List.find?_map, Option.map_map]
  rw [List.find?_filter]
  have : (fun a => decide (s.isDown a = true ∧
      ((fun p : Nat × Chord => Chord.hasIndex p.2 i) ∘ fun id => (id, (chordRulesOf cfg ms).keys id)) a = true)) =
      fun id => s.isDown id && ((chordRulesOf cfg ms).keys id).contains i := by
    funext a
    rw [Bool.eq_iff_iff]
    simp [Chord.hasIndex]
  rw [this]
  rfl

/-- The chords a key may be pressed for. -/
theorem Tracks.chordsFor (h : Tracks cfg ms s is c) (i : Nat) (hr : (once [] (s.busy (chordRulesOf cfg ms))).length ≤ cfg.maxPressed) :
    c.chordsFor i = .ok (match s.downWith (chordRulesOf cfg ms) i with
      | some id => [⟨id, (chordRulesOf cfg ms).keys id, true⟩]
      | none => (s.maybe (chordRulesOf cfg ms) i).map fun id => ⟨id, (chordRulesOf cfg ms).keys id, false⟩) := by
  unfold Ctx.chordsFor
  rw [h.with_index]
  cases hd : s.downWith (chordRulesOf cfg ms) i with
  | some id => rfl
  | none =>
    simp only [Option.map_none, Res.ok_bind, h.span hr, Res.pure_eq, h.config]
    rw [enumFrom_ids cfg ms (fun _ ch => Chord.hasIndex ch i), List.filter_map, List.map_map]
    congr 1
    rw [List.filter_filter]
    unfold State.maybe
    show List.map _ _ = List.map _ _
    congr 1
    apply List.filter_congr
    intro id _
    simp only [Function.comp_apply, Chord.hasIndex]
    rw [Bool.and_comm]
    congr 1
    cases hb : (once [] (s.busy (chordRulesOf cfg ms))).isEmpty with
    | true =>
      have hnil : ∀ k, k ∉ s.busy (chordRulesOf cfg ms) := by
        intro k hk
        have : k ∈ once [] (s.busy (chordRulesOf cfg ms)) := mem_once.2 (.inr hk)
        rw [List.isEmpty_iff.1 hb] at this
        cases this
      simp [hnil]
    | false =>
      simp only [Bool.false_or]
      congr 1
      funext k
      congr 1
      rw [Bool.eq_iff_iff]
      simp [mem_once]

theorem downWith_busy {r : Rules} {i : Nat} : (s.downWith r i).isSome = (s.busy r).contains i := by
  rw [Bool.eq_iff_iff]
  simp only [State.downWith, List.find?_isSome, State.busy, List.contains_iff_mem, List.mem_flatMap, List.mem_filter, Bool.and_eq_true, and_assoc]

/-- A key is pressed: the context knows whether it may wait. -/
theorem Tracks.press_event {c' : Ctx} {i : Nat} (h : Tracks cfg ms s is c) (hi : c.pressIndex i = .ok c')
    (h' : Tracks cfg ms s is c → ∀ js, IdxOk c'.pressedIndices js cfg.maxPressed → Tracks cfg ms s js c')
    {js : List Nat} (hj : IdxOk c'.pressedIndices js cfg.maxPressed)
    (hr : (once [] (s.busy (chordRulesOf cfg ms))).length ≤ cfg.maxPressed) :
    ∃ c'', c.handleEvent (.input (.press i)) = .ok c'' ∧ Tracks cfg ms s js c'' ∧
      c''.sufficientIdle = (s.rested (chordRulesOf cfg ms) i || (s.downWith (chordRulesOf cfg ms) i).isSome) := by
  have hT := h' h js hj
  have hmem : (once [] (s.busy (chordRulesOf cfg ms))).contains i = (s.busy (chordRulesOf cfg ms)).contains i := by
    rw [Bool.eq_iff_iff]; simp [mem_once]
  simp only [Ctx.handleEvent, hi, Res.ok_bind, hT.span hr, hmem]
  have hidle : ∀ b, (decide ((c'.config.requiredIdleTime.getD 0) ≤ c'.idle) || b) =
      (decide ((chordRulesOf cfg ms).requiredIdle ≤ s.idleSeen) || b) := by
    intro b; rw [hT.config, hT.idle]; rfl
  split
  · rename_i hc
    refine ⟨_, rfl, ⟨hT.config, hT.flags, hT.len, hT.latest, hT.latestLt, hT.idx, hT.idle⟩, ?_⟩
    rw [downWith_busy, hc]
    simp [Ctx.sufficientIdle]
  · rename_i hc
    have hnone : (s.downWith (chordRulesOf cfg ms) i).isSome = false := by rw [downWith_busy]; simpa using hc
    have hlat := hT.latest
    rw [hnone, Bool.or_false]
    cases hl : s.latest with
    | none =>
      rw [hl] at hlat
      rw [hlat]
      refine ⟨_, rfl, ⟨hT.config, hT.flags, hT.len, by rw [hl], hT.latestLt, hT.idx, hT.idle⟩, ?_⟩
      simp only [Ctx.sufficientIdle, State.rested, hl, Option.any_none, ge_iff_le]
      exact hidle false
    | some id =>
      rw [hl] at hlat
      rw [hlat]
      have hlt := hT.latestLt id hl
      have hix : Res.index c'.config.chords id = .ok ((chordRulesOf cfg ms).keys id) := by
        rw [hT.config]
        simp [Rules.keys, chordRulesOf, hlt]
      simp only [hix, Res.ok_bind]
      refine ⟨_, rfl, ⟨hT.config, hT.flags, hT.len, by rw [hl], hT.latestLt, hT.idx, hT.idle⟩, ?_⟩
      simp only [Ctx.sufficientIdle, State.rested, hl, Option.any_some, ge_iff_le]
      exact hidle _

theorem Tracks.press {i : Nat} (h : Tracks cfg ms s is c) (hn : i ∉ is) (hi : i < 65535) (hl : is.length < cfg.maxPressed)
    (hr : (once [] (s.busy (chordRulesOf cfg ms))).length ≤ cfg.maxPressed) :
    ∃ c', c.handleEvent (.input (.press i)) = .ok c' ∧ Tracks cfg ms s (is ++ [i]) c' ∧
      c'.sufficientIdle = (s.rested (chordRulesOf cfg ms) i || (s.downWith (chordRulesOf cfg ms) i).isSome) := by
  obtain ⟨hf, xs, hx, ho⟩ := h.idx.press hn hi hl
  have h1 : c.pressIndex i = .ok { c with pressedIndices := xs } := by
    simp only [Ctx.pressIndex, hf, Bool.false_eq_true, if_false, hx, Res.ok_bind, Res.pure_eq]
  exact h.press_event h1 (fun h js hj => ⟨h.config, h.flags, h.len, h.latest, h.latestLt, hj, h.idle⟩) ho hr

theorem Tracks.press_held {i : Nat} (h : Tracks cfg ms s is c) (hm : i ∈ is)
    (hr : (once [] (s.busy (chordRulesOf cfg ms))).length ≤ cfg.maxPressed) :
    ∃ c', c.handleEvent (.input (.press i)) = .ok c' ∧ Tracks cfg ms s is c' := by
  have h1 : c.pressIndex i = .ok c := by
    rcases h.idx.found hm with hf | hf
    · simp only [Ctx.pressIndex, hf, if_true]
    · have : isFound i c.pressedIndices = false := by rw [hf]; simp [isFound, findPos]
      have hi : insertPressed (findPos i c.pressedIndices) i c.pressedIndices = .ok c.pressedIndices := by rw [hf]; rfl
      simp only [Ctx.pressIndex, this, Bool.false_eq_true, if_false, hi, Res.ok_bind, Res.pure_eq]
  obtain ⟨c', a, b, _⟩ := h.press_event h1 (fun h js hj => ⟨h.config, h.flags, h.len, h.latest, h.latestLt, hj, h.idle⟩) h.idx hr
  exact ⟨c', a, b⟩

theorem clearChords_map (i : Nat) (chs : List Chord) (down : List Bool) (k : Nat) (hl : down.length = chs.length) :
    clearChords i chs (down ++ List.replicate k false) =
      (down.mapIdx fun id d => d && !((chs[id]?).getD []).contains i) ++ List.replicate k false := by
  induction chs generalizing down with
  | nil =>
    have : down = [] := List.length_eq_zero_iff.1 (by simpa using hl)
    subst this
    simp [clearChords]
  | cons ch chs ih =>
    cases down with
    | nil => simp at hl
    | cons d down =>
      simp only [List.length_cons, Nat.add_right_cancel_iff] at hl
      simp only [List.cons_append, clearChords, ih down hl, List.mapIdx_cons, List.getElem?_cons_zero, Option.getD_some, List.getElem?_cons_succ,
        List.cons.injEq, and_true]
      show (if Chord.hasIndex ch i = true then false else d) = (d && !Chord.hasIndex ch i)
      cases hc : Chord.hasIndex ch i with
      | true => rw [if_pos rfl, Bool.not_true, Bool.and_false]
      | false => rw [if_neg (by simp), Bool.not_false, Bool.and_true]

theorem Tracks.release {i : Nat} (h : Tracks cfg ms s is c) (hnd : is.Nodup) :
    ∃ c', c.handleEvent (.input (.release i)) = .ok c' ∧
      Tracks cfg ms { s with down := s.down.mapIdx fun id d => d && !((chordRulesOf cfg ms).keys id).contains i } (is.filter (fun j => j != i)) c' := by
  have hr : (c.releaseIndex i).config = c.config ∧ (c.releaseIndex i).pressedChords = c.pressedChords ∧ (c.releaseIndex i).latest = c.latest ∧
      (c.releaseIndex i).idle = c.idle := by
    unfold Ctx.releaseIndex
    split <;> exact ⟨rfl, rfl, rfl, rfl⟩
  obtain ⟨k, hk⟩ := h.flags
  refine ⟨_, rfl, ?_, ⟨k, ?_⟩, ?_, ?_, h.latestLt, ?_, ?_⟩
  · exact hr.1.trans h.config
  · show clearChords i (c.releaseIndex i).config.chords (c.releaseIndex i).pressedChords = _
    rw [hr.1, hr.2.1, hk, h.config, clearChords_map i cfg.chords s.down k h.len]
    rfl
  · simpa using h.len
  · exact hr.2.2.1.trans h.latest
  · have := h.idx.release (idx := i) hnd
    simp only [Ctx.releaseIndex]
    split
    · rename_i hf; rw [if_pos hf] at this; exact this
    · rename_i hf; rw [if_neg hf] at this; exact this
  · exact hr.2.2.2.trans h.idle

/-- What the outcome of a waiting key is in the firmware. -/
def resolutionOf : Chords.Outcome → Resolution
  | .chord id => .chord id
  | .alone => .passthrough

theorem Tracks.resolved {j : Nat} {o : Chords.Outcome} (h : Tracks cfg ms s is c) (ho : ∀ id, o = .chord id → id < cfg.chords.length) :
    ∃ c', c.handleEvent (.key j (.chordResolved (resolutionOf o))) = .ok c' ∧ Tracks cfg ms (s.mark o) is c' := by
  cases o with
  | alone => exact ⟨c, rfl, h⟩
  | chord id =>
    have hlt := ho id rfl
    obtain ⟨k, hk⟩ := h.flags
    have hlen : id < c.pressedChords.length := by rw [hk, List.length_append, h.len]; omega
    refine ⟨{ c with pressedChords := c.pressedChords.set id true, latest := some id }, ?_, h.config, ⟨k, ?_⟩, ?_, rfl, ?_, h.idx, h.idle⟩
    · simp only [resolutionOf, Ctx.handleEvent, hlen, if_true]
    · show c.pressedChords.set id true = s.down.set id true ++ _
      rw [hk, List.set_append_left _ _ (by rw [h.len]; exact hlt)]
    · show (s.down.set id true).length = _
      rw [List.length_set]; exact h.len
    · intro x hx
      cases hx
      exact hlt

theorem Tracks.setIdle (h : Tracks cfg ms s is c) (t : Nat) : Tracks cfg ms { s with idleSeen := t } is (c.setIdle t) :=
  ⟨h.config, h.flags, h.len, h.latest, h.latestLt, h.idx, rfl⟩

theorem Tracks.new {m n : Nat} (h : cfg.chords.length ≤ m) : Tracks cfg ms (State.new n cfg.chords.length) [] (Ctx.fromConfig m cfg) := by
  refine ⟨rfl, ⟨m - cfg.chords.length, ?_⟩, ?_, rfl, ?_, IdxOk.new (.inr (Nat.le_refl _)), rfl⟩
  · show List.replicate m false = List.replicate cfg.chords.length false ++ _
    rw [List.replicate_append_replicate, Nat.add_sub_cancel' h]
  · exact List.length_replicate
  · intro id hid; cases hid

end Verif.Chorded
