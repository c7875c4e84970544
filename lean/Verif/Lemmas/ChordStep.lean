import Verif.Lemmas.ChordCtx
import Verif.Lemmas.TimedRun

/-!
# A key of a chord is pressed, waits, and is decided
-/

namespace Verif.Comp

open Board (Cell Entry)
open Chords (Pos Outcome Waiting Rules)
open _root_.Verif.Chorded (resolutionOf Resolution Tracks)

/-! ## The waiting key -/

/-- The pending state of the firmware. -/
def asPks (r : Rules) (w : Waiting) : Chorded.PKS := ⟨w.pressed, w.maybe.map fun id => ⟨id, r.keys id, w.complete r id⟩⟩

theorem satisfied_eq (r : Rules) (w : Waiting) : (asPks r w).satisfied = w.maybe.find? (w.complete r) := by
  unfold Chorded.PKS.satisfied asPks
  simp only [List.find?_map, Option.map_map]
  have : ((fun x : Chorded.ChordState => x.isSatisfied) ∘ fun id => (⟨id, r.keys id, w.complete r id⟩ : Chorded.ChordState)) = w.complete r := rfl
  rw [this]
  cases w.maybe.find? (w.complete r) <;> rfl

theorem satisfied_outcome (r : Rules) (w : Waiting) :
    (match (asPks r w).satisfied with | some id => Resolution.chord id | none => Resolution.passthrough) = resolutionOf (w.outcome r) := by
  rw [satisfied_eq]
  unfold Waiting.outcome
  cases w.maybe.find? (w.complete r) <;> rfl

/-- Another key is pressed. -/
theorem pks_press (r : Rules) (w : Waiting) (i j : Nat) (h : w.pressed.length < r.size) :
    (asPks r w).handleEvent r.size i (.input (.press j)) = .ok (asPks r (w.join r j), (w.decided r j).map resolutionOf) := by
  have hlen : (asPks r w).pressedIndices.length < r.size := h
  have hp : (⟨j :: (asPks r w).pressedIndices,
      ((asPks r w).possible.filter (fun cs => Chorded.Chord.hasIndex cs.chord j)).map
        (fun cs => { cs with isSatisfied := Chorded.Chord.isSatisfiedBy cs.chord (j :: (asPks r w).pressedIndices) })⟩ : Chorded.PKS) =
      asPks r (w.join r j) := by
    unfold asPks Waiting.join
    simp only [Chorded.PKS.mk.injEq, true_and]
    rw [List.filter_map, List.map_map]
    rfl
  simp only [Chorded.PKS.handleEvent]
  rw [if_pos hlen, hp]
  simp only [Res.pure_eq, Res.ok.injEq, Prod.mk.injEq, true_and]
  rw [satisfied_eq]
  unfold Waiting.decided
  have hposs : (asPks r (w.join r j)).possible = (w.join r j).maybe.map fun id => ⟨id, r.keys id, (w.join r j).complete r id⟩ := rfl
  unfold Chorded.PKS.checkResolution
  rw [hposs]
  cases hm : (w.join r j).maybe with
  | nil =>
    simp only [List.map_nil]
    unfold Waiting.outcome
    cases w.maybe.find? (w.complete r) <;> rfl
  | cons id ids =>
    cases ids with
    | nil =>
      simp only [List.map_cons, List.map_nil]
      cases (w.join r j).complete r id <;> simp [resolutionOf]
    | cons id' ids => simp

theorem pks_release (r : Rules) (w : Waiting) (n i j : Nat) :
    (asPks r w).handleEvent n i (.input (.release j)) =
      .ok (asPks r w, if j = i then some (resolutionOf (w.outcome r)) else none) := by
  simp only [Chorded.PKS.handleEvent]
  split
  · exact congrArg (fun x => Res.ok (asPks r w, some x)) (satisfied_outcome r w)
  · rfl

theorem pks_timeout (r : Rules) (w : Waiting) (n i j : Nat) :
    (asPks r w).handleEvent n i (.key j .timeout) = .ok (asPks r w, some (resolutionOf (w.outcome r))) := by
  exact congrArg (fun x => Res.ok (asPks r w, some x)) (satisfied_outcome r w)

/-! ## What the firmware holds at a position of a chord -/

/-- The key the firmware goes on with. -/
def NpkIs (K : Keys) (n : NPK Ref) (e : Entry) : Prop :=
  (∃ r, n = .key r ∧ entryOf K r = some e) ∨ (n = .noOp ∧ e = .cell .nothing)

theorem chordKeysOf_lookup {K : Keys} {rs : List (Nat × Ref)} {es : List (Nat × Entry)} (h : chordKeysOf K rs = some es) (id : Nat) {e : Entry}
    (he : es.lookup id = some e) : ∃ r, rs.find? (fun p => p.1 = id) = some (id, r) ∧ entryOf K r = some e := by
  induction rs generalizing es with
  | nil => simp only [chordKeysOf, Option.some.injEq] at h; subst h; simp at he
  | cons p rs ih =>
    obtain ⟨j, r⟩ := p
    simp only [chordKeysOf] at h
    split at h
    · rename_i e' es' h1 h2
      cases h
      by_cases hj : j = id
      · subst hj
        simp only [List.lookup_cons, beq_self_eq_true, Option.some.injEq] at he
        subst he
        exact ⟨r, by simp, h1⟩
      · have hj' : ¬ id = j := fun h => hj h.symm
        have hb : (id == j) = false := by simpa using hj'
        simp only [List.lookup_cons, hb] at he
        obtain ⟨r', a, b⟩ := ih h2 he
        exact ⟨r', by rw [List.find?_cons_of_neg (by simpa using hj)]; exact a, b⟩
    · cases h

theorem chord_lookup_mem {es : List (Nat × Entry)} {id : Nat} {e : Entry} (he : es.lookup id = some e) : (id, e) ∈ es := by
  induction es with
  | nil => simp at he
  | cons p es ih =>
    obtain ⟨j, e'⟩ := p
    simp only [List.lookup_cons] at he
    split at he
    · rename_i hb
      simp only [beq_iff_eq] at hb
      cases he
      subst hb
      exact List.mem_cons_self
    · exact List.mem_cons_of_mem _ (ih he)

variable {K : Keys} {cfg : Chorded.Config} {ms : Nat}

/-- What the firmware does for an outcome, at a key of a chord. -/
theorem chord_outcome {cr : Chorded.Ref} {p : Pos} (hp : chordPosOf K (.chorded cr) = some p) (i : Nat) (hlead : p.Leads (chordRulesOf cfg ms) i)
    (hsome : ∀ ch ∈ cfg.chords, ch ≠ []) (o : Outcome) (ho : ∀ id, o = .chord id → id < cfg.chords.length) :
    ∃ n, NpkIs K n (p.entry (chordRulesOf cfg ms) i o) ∧
      (∀ (c : Ctx), c.chorded.config = cfg → Chorded.pressCommon c.chorded i = .ok (.inl (resolutionOf o)) →
        newPressedKey K i c (.chorded cr) = .ok (.newPressedKey n, [])) ∧
      (∀ (c : Ctx) (pks pks' : Chorded.PKS) (ev : Event Ev) (ev' : Event Chorded.Ev), c.chorded.config = cfg → ev.tryInto Ev.toChorded? = some ev' →
        pks.handleEvent cfg.maxChordSize i ev' = .ok (pks', some (resolutionOf o)) →
        updatePending K (.chorded pks) i c (.chorded cr) ev =
          .ok (.chorded pks', some n, [SchEv.imm (.key i (.chorded (.chordResolved (resolutionOf o))))])) := by
  cases cr with
  | chorded k =>
    simp only [chordPosOf] at hp
    split at hp
    · rename_i key hk
      split at hp
      · rename_i cs e hcs he
        cases hp
        have hi : Res.index K.chorded k = .ok key := by simpa using hk
        obtain ⟨n, hn, href⟩ : ∃ n, NpkIs K n ((Pos.first cs e).entry (chordRulesOf cfg ms) i o) ∧
            ∀ c : Chorded.Ctx, c.config = cfg → key.refFor c i (resolutionOf o) = .ok n := by
          cases o with
          | alone => exact ⟨.key key.passthrough, .inl ⟨_, rfl, he⟩, fun c _ => rfl⟩
          | chord id =>
            have hlt := ho id rfl
            have hch : cfg.chords[id]? = some ((chordRulesOf cfg ms).keys id) := by
              simp [Rules.keys, chordRulesOf, hlt]
            have hne : (chordRulesOf cfg ms).keys id ≠ [] := hsome _ (List.mem_of_getElem? hch)
            obtain ⟨f, rest, hf⟩ := List.exists_cons_of_ne_nil hne
            by_cases hfi : f = i
            · subst hfi
              have hhead : ((chordRulesOf cfg ms).keys id).head? = some f := by rw [hf]; rfl
              have := hlead id hlt hhead
              obtain ⟨e', he'⟩ := Option.isSome_iff_exists.1 this
              obtain ⟨r, hr1, hr2⟩ := chordKeysOf_lookup hcs id he'
              refine ⟨.key r, .inl ⟨r, rfl, ?_⟩, ?_⟩
              · simp only [Pos.entry, hhead, if_true, he', Option.getD_some]
                exact hr2
              · intro c hc
                simp only [resolutionOf, Chorded.Key.refFor, hc, hch, hf, Res.index, List.getElem?_cons_zero, Res.ok_bind, if_true, hr1, Res.pure_eq]
            · refine ⟨.noOp, .inr ⟨rfl, ?_⟩, ?_⟩
              · simp only [Pos.entry, hf, List.head?_cons, Option.some.injEq, hfi, if_false]
              · intro c hc
                simp only [resolutionOf, Chorded.Key.refFor, hc, hch, hf, Res.index, List.getElem?_cons_zero, Res.ok_bind, hfi, if_false, Res.pure_eq]
        refine ⟨n, hn, ?_, ?_⟩
        · intro c hc hpc
          simp only [newPressedKey, Chorded.sysNewPressedKey, hi, Res.ok_bind, Chorded.Key.newPressedKey, hpc, href c.chorded hc, Res.pure_eq,
            KeyEvents.mapEv, List.map_nil]
        · intro c pks pks' ev ev' hc hev hpe
          simp only [updatePending, hev, Chorded.sysUpdatePending, hi, Res.ok_bind, Chorded.Key.updatePending, hc, hpe, href c.chorded hc, Res.pure_eq]
          rfl
      · cases hp
    · cases hp
  | auxiliary k =>
    simp only [chordPosOf] at hp
    split at hp
    · rename_i r hk
      simp only [Option.map_eq_some_iff] at hp
      obtain ⟨e, he, rfl⟩ := hp
      have hi : Res.index K.chordedAux k = .ok r := by simpa using hk
      have hn : NpkIs K (Chorded.auxRefFor r (resolutionOf o)) ((Pos.other e).entry (chordRulesOf cfg ms) i o) := by
        cases o with
        | alone => exact .inl ⟨r, rfl, he⟩
        | chord id => exact .inr ⟨rfl, rfl⟩
      refine ⟨_, hn, ?_, ?_⟩
      · intro c hc hpc
        simp only [newPressedKey, Chorded.sysNewPressedKey, hi, Res.ok_bind, Chorded.auxNewPressedKey, hpc, Res.pure_eq,
          KeyEvents.mapEv, List.map_nil]
      · intro c pks pks' ev ev' hc hev hpe
        simp only [updatePending, hev, Chorded.sysUpdatePending, hi, Res.ok_bind, Chorded.auxUpdatePending, hc, hpe, Res.pure_eq]
        rfl
    · cases hp

/-- A key of a chord goes on waiting. -/
theorem chord_waits {cr : Chorded.Ref} {p : Pos} (hp : chordPosOf K (.chorded cr) = some p) (i : Nat) (c : Ctx) (pks pks' : Chorded.PKS)
    (ev : Event Ev) (ev' : Event Chorded.Ev) (hc : c.chorded.config = cfg) (hev : ev.tryInto Ev.toChorded? = some ev')
    (hpe : pks.handleEvent cfg.maxChordSize i ev' = .ok (pks', none)) :
    updatePending K (.chorded pks) i c (.chorded cr) ev = .ok (.chorded pks', none, []) := by
  cases cr with
  | chorded k =>
    simp only [chordPosOf] at hp
    split at hp
    · rename_i key hk
      have hi : Res.index K.chorded k = .ok key := by simpa using hk
      simp only [updatePending, hev, Chorded.sysUpdatePending, hi, Res.ok_bind, Chorded.Key.updatePending, hc, hpe, Res.pure_eq]
      rfl
    · cases hp
  | auxiliary k =>
    simp only [chordPosOf] at hp
    split at hp
    · rename_i r hk
      have hi : Res.index K.chordedAux k = .ok r := by simpa using hk
      simp only [updatePending, hev, Chorded.sysUpdatePending, hi, Res.ok_bind, Chorded.auxUpdatePending, hc, hpe, Res.pure_eq]
      rfl
    · cases hp

/-- A key of a chord begins to wait. -/
theorem chord_begins {cr : Chorded.Ref} {p : Pos} (hp : chordPosOf K (.chorded cr) = some p) (i : Nat) (c : Ctx) (pks : Chorded.PKS)
    (hc : c.chorded.config = cfg) (hpc : Chorded.pressCommon c.chorded i = .ok (.inr pks)) :
    newPressedKey K i c (.chorded cr) = .ok (.pending (.chorded pks), [SchEv.after cfg.timeout (.key i (.chorded .timeout))]) := by
  cases cr with
  | chorded k =>
    simp only [chordPosOf] at hp
    split at hp
    · rename_i key hk
      have hi : Res.index K.chorded k = .ok key := by simpa using hk
      simp only [newPressedKey, Chorded.sysNewPressedKey, hi, Res.ok_bind, Chorded.Key.newPressedKey, hpc, Res.pure_eq, Chorded.timeoutEvents, hc]
      rfl
    · cases hp
  | auxiliary k =>
    simp only [chordPosOf] at hp
    split at hp
    · rename_i r hk
      have hi : Res.index K.chordedAux k = .ok r := by simpa using hk
      simp only [newPressedKey, Chorded.sysNewPressedKey, hi, Res.ok_bind, Chorded.auxNewPressedKey, hpc, Res.pure_eq, Chorded.timeoutEvents, hc]
      rfl
    · cases hp

/-- A key of a chord is pressed: it is decided at once, or waits. -/
theorem pressCommon_eq {s : Chords.State} {is : List Nat} {c : Chorded.Ctx} {i : Nat} (h : Tracks cfg ms s is c)
    (hr : (Chords.once [] (s.busy (chordRulesOf cfg ms))).length ≤ cfg.maxPressed) (hsize : 1 ≤ cfg.maxChordSize)
    (htwo : ∀ ch ∈ cfg.chords, ∃ k ∈ ch, ∃ l ∈ ch, k ≠ l)
    (hidle : c.sufficientIdle = (s.rested (chordRulesOf cfg ms) i || (s.downWith (chordRulesOf cfg ms) i).isSome)) (p : Pos) (t : Nat) :
    Chorded.pressCommon c i = .ok (match s.downWith (chordRulesOf cfg ms) i with
      | some id => .inl (.chord id)
      | none =>
        if s.maybe (chordRulesOf cfg ms) i = [] ∨ s.rested (chordRulesOf cfg ms) i = false then .inl .passthrough
        else .inr (asPks (chordRulesOf cfg ms) ⟨i, p, s.maybe (chordRulesOf cfg ms) i, [i], t, []⟩)) := by
  have hnew : Chorded.PKS.new c i = .ok ⟨[i], match s.downWith (chordRulesOf cfg ms) i with
      | some id => [⟨id, (chordRulesOf cfg ms).keys id, true⟩]
      | none => (s.maybe (chordRulesOf cfg ms) i).map fun id => ⟨id, (chordRulesOf cfg ms).keys id, false⟩⟩ := by
    have hpush : pushCap c.config.maxChordSize [] i = .ok [i] := by
      unfold pushCap
      rw [if_pos (by rw [h.config]; exact hsize)]
      rfl
    simp only [Chorded.PKS.new, hpush, Res.ok_bind, h.chordsFor i hr, Res.pure_eq]
    rfl
  unfold Chorded.pressCommon
  rw [hnew]
  simp only [Res.ok_bind, hidle, Res.pure_eq]
  congr 1
  cases hd : s.downWith (chordRulesOf cfg ms) i with
  | some id => simp [Chorded.PKS.checkResolution]
  | none =>
    simp only [Option.isSome_none, Bool.or_false]
    have hcomp : ∀ id ∈ s.maybe (chordRulesOf cfg ms) i,
        (⟨id, (chordRulesOf cfg ms).keys id, false⟩ : Chorded.ChordState) =
          ⟨id, (chordRulesOf cfg ms).keys id, Waiting.complete (chordRulesOf cfg ms) ⟨i, p, s.maybe (chordRulesOf cfg ms) i, [i], t, []⟩ id⟩ := by
      intro id hid
      have hlt : id < cfg.chords.length := by
        have := (List.mem_filter.1 hid).1
        simpa [Rules.ids, chordRulesOf] using this
      have hmem : (chordRulesOf cfg ms).keys id ∈ cfg.chords := by
        have : cfg.chords[id]? = some ((chordRulesOf cfg ms).keys id) := by simp [Rules.keys, chordRulesOf, hlt]
        exact List.mem_of_getElem? this
      obtain ⟨k, hk, l, hl, hkl⟩ := htwo _ hmem
      have : Waiting.complete (chordRulesOf cfg ms) ⟨i, p, s.maybe (chordRulesOf cfg ms) i, [i], t, []⟩ id = false := by
        unfold Waiting.complete
        rw [Bool.eq_false_iff]
        intro hall
        rw [List.all_eq_true] at hall
        have h1 := hall k hk
        have h2 := hall l hl
        simp only [List.contains_cons, List.contains_nil, Bool.or_false, beq_iff_eq] at h1 h2
        exact hkl (h1.trans h2.symm)
      rw [this]
    have hmap := List.map_congr_left hcomp
    by_cases hrest : s.rested (chordRulesOf cfg ms) i = true
    · simp only [hrest, if_true]
      cases hm : s.maybe (chordRulesOf cfg ms) i with
      | nil => simp [Chorded.PKS.checkResolution]
      | cons id ids =>
        rw [if_neg (by simp)]
        rw [hm] at hmap
        have hcheck : Chorded.PKS.checkResolution ⟨[i], (id :: ids).map fun id => ⟨id, (chordRulesOf cfg ms).keys id, false⟩⟩ = none := by
          cases ids <;> simp [Chorded.PKS.checkResolution]
        rw [hcheck]
        simp only [asPks, Sum.inr.injEq, Chorded.PKS.mk.injEq, true_and]
        exact hmap
    · simp only [Bool.not_eq_true] at hrest
      simp [hrest]

end Verif.Comp
