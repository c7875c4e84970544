import Verif.Sys.Chorded
import Verif.Lemmas.List

/-!
# C37, C38 and C39: what a chorded key becomes
-/

namespace Verif.Chorded

variable {R : Type}

/-! ## Specification -/

/-- What becomes of a chorded or auxiliary key `r` at index `idx` that waits in state `p` while the events
`evs` arrive: the first resolution, that is the key it turns into and the events it emits. (Of the context only
the configuration is read, which never changes.) -/
def await (keys : List (Key R)) (aux : List R) (idx : Nat) (c : Ctx) (r : Ref) :
    PKS → List (Event Ev) → Res (Option (NPK R × KeyEvents Ev))
  | _, [] => .ok none
  | p, e :: es =>
    match sysUpdatePending keys aux p idx c r e with
    | .ok (_, some n, out) => .ok (some (n, out))
    | .ok (p', none, _) => await keys aux idx c r p' es
    | .panic x => .panic x
    | .fuel => .fuel

/-- The announcement of a resolution. -/
def resolved (idx : Nat) (res : Resolution) : KeyEvents Ev := [SchEv.imm (.key idx (.chordResolved res))]

/-- The key that a chorded or auxiliary key is when it is not part of a chord. -/
def passthroughOf (keys : List (Key R)) (aux : List R) : Ref → Option R
  | .chorded i => keys[i]?.map (·.passthrough)
  | .auxiliary i => aux[i]?

/-- The keys of the chords of a chorded key, by chord id. An auxiliary key has none. -/
def chordKeysOf (keys : List (Key R)) : Ref → List (Nat × R)
  | .chorded i => (keys[i]?.map (·.chords)).getD []
  | .auxiliary _ => []

/-- The keys pressed, in order. -/
def presses (evs : List (Event Ev)) : List Nat :=
  evs.filterMap (fun e => match e with | .input (.press k) => some k | _ => none)

/-! ## The pending state after some presses -/

/-- The resolution alone. -/
def play (m idx : Nat) : PKS → List (Event Ev) → Res (Option Resolution)
  | _, [] => .ok none
  | p, e :: es =>
    match p.handleEvent m idx e with
    | .ok (_, some r) => .ok (some r)
    | .ok (p', none) => play m idx p' es
    | .panic x => .panic x
    | .fuel => .fuel

/-- The key for a resolution. -/
def refOf (keys : List (Key R)) (aux : List R) (idx : Nat) (c : Ctx) (r : Ref) (res : Resolution) : Res (NPK R) :=
  match r with
  | .chorded i => do
    let k ← Res.index keys i
    k.refFor c idx res
  | .auxiliary i => do
    let pt ← Res.index aux i
    pure (auxRefFor pt res)

theorem sysUpdatePending_eq {keys : List (Key R)} {aux : List R} {p p' : PKS} {idx : Nat} {c : Ctx} {r : Ref} {e : Event Ev}
    {res : Option Resolution} (h : p.handleEvent c.config.maxChordSize idx e = .ok (p', res)) (hr : passthroughOf keys aux r ≠ none) :
    sysUpdatePending keys aux p idx c r e =
      match res with
      | some res => do
        let n ← refOf keys aux idx c r res
        pure (p', some n, resolved idx res)
      | none => .ok (p', none, []) := by
  cases r with
  | chorded i =>
    simp only [passthroughOf, ne_eq, Option.map_eq_none_iff] at hr
    obtain ⟨k, hk⟩ := Option.ne_none_iff_exists'.1 hr
    simp only [sysUpdatePending, Key.updatePending, refOf, Res.index, hk, Res.ok_bind, h]
    cases res with
    | none => rfl
    | some res => rfl
  | auxiliary i =>
    simp only [passthroughOf] at hr
    obtain ⟨k, hk⟩ := Option.ne_none_iff_exists'.1 hr
    simp only [sysUpdatePending, auxUpdatePending, refOf, Res.index, hk, Res.ok_bind, h]
    cases res with
    | none => rfl
    | some res => rfl

theorem sysUpdatePending_cases {keys : List (Key R)} {aux : List R} {p p' : PKS} {idx : Nat} {c : Ctx} {r : Ref} {e : Event Ev}
    {n : Option (NPK R)} {out : KeyEvents Ev} (h : sysUpdatePending keys aux p idx c r e = .ok (p', n, out)) :
    (p.handleEvent c.config.maxChordSize idx e = .ok (p', none) ∧ n = none) ∨
    ∃ res k, p.handleEvent c.config.maxChordSize idx e = .ok (p', some res) ∧ refOf keys aux idx c r res = .ok k ∧ n = some k ∧
      out = resolved idx res := by
  cases r with
  | chorded i =>
    obtain ⟨k, hk, h⟩ := Res.bind_eq_ok.1 h
    obtain ⟨⟨q, res⟩, hq, h⟩ := Res.bind_eq_ok.1 h
    cases res with
    | none =>
      simp only [Res.pure_eq, Res.ok.injEq, Prod.mk.injEq] at h
      obtain ⟨rfl, rfl, rfl⟩ := h
      exact .inl ⟨hq, rfl⟩
    | some res =>
      obtain ⟨x, hx, h⟩ := Res.bind_eq_ok.1 h
      simp only [Res.pure_eq, Res.ok.injEq, Prod.mk.injEq] at h
      obtain ⟨rfl, rfl, rfl⟩ := h
      exact .inr ⟨res, x, hq, by simp [refOf, hk, hx], rfl, rfl⟩
  | auxiliary i =>
    obtain ⟨k, hk, h⟩ := Res.bind_eq_ok.1 h
    obtain ⟨⟨q, res⟩, hq, h⟩ := Res.bind_eq_ok.1 h
    cases res with
    | none =>
      simp only [Res.pure_eq, Res.ok.injEq, Prod.mk.injEq] at h
      obtain ⟨rfl, rfl, rfl⟩ := h
      exact .inl ⟨hq, rfl⟩
    | some res =>
      simp only [Res.pure_eq, Res.ok.injEq, Prod.mk.injEq] at h
      obtain ⟨rfl, rfl, rfl⟩ := h
      exact .inr ⟨res, _, hq, by simp [refOf, hk], rfl, rfl⟩

theorem await_of_play {keys : List (Key R)} {aux : List R} {idx : Nat} {c : Ctx} {r : Ref} (hr : passthroughOf keys aux r ≠ none)
    {evs : List (Event Ev)} {p : PKS} {res : Resolution} {n : NPK R} (h : play c.config.maxChordSize idx p evs = .ok (some res))
    (hn : refOf keys aux idx c r res = .ok n) : await keys aux idx c r p evs = .ok (some (n, resolved idx res)) := by
  induction evs generalizing p with
  | nil => simp [play] at h
  | cons e es ih =>
    unfold play at h
    unfold await
    cases he : p.handleEvent c.config.maxChordSize idx e with
    | panic x => simp [he] at h
    | fuel => simp [he] at h
    | ok q =>
      obtain ⟨q, qr⟩ := q
      simp only [he] at h
      rw [sysUpdatePending_eq he hr]
      cases qr with
      | none => exact ih h
      | some x =>
        simp only [Res.ok.injEq, Option.some.injEq] at h
        subst h
        simp [hn]

theorem await_none_of_play {keys : List (Key R)} {aux : List R} {idx : Nat} {c : Ctx} {r : Ref} (hr : passthroughOf keys aux r ≠ none)
    {evs : List (Event Ev)} {p : PKS} (h : play c.config.maxChordSize idx p evs = .ok none) :
    await keys aux idx c r p evs = .ok none := by
  induction evs generalizing p with
  | nil => rfl
  | cons e es ih =>
    unfold play at h
    unfold await
    cases he : p.handleEvent c.config.maxChordSize idx e with
    | panic x => simp [he] at h
    | fuel => simp [he] at h
    | ok q =>
      obtain ⟨q, qr⟩ := q
      simp only [he] at h
      rw [sysUpdatePending_eq he hr]
      cases qr with
      | none => exact ih h
      | some x => simp at h

theorem play_of_await {keys : List (Key R)} {aux : List R} {idx : Nat} {c : Ctx} {r : Ref} {evs : List (Event Ev)} {p : PKS}
    {n : NPK R} {out : KeyEvents Ev} (h : await keys aux idx c r p evs = .ok (some (n, out))) :
    ∃ res, play c.config.maxChordSize idx p evs = .ok (some res) ∧ refOf keys aux idx c r res = .ok n ∧ out = resolved idx res := by
  induction evs generalizing p with
  | nil => simp [await] at h
  | cons e es ih =>
    unfold await at h
    unfold play
    cases he : sysUpdatePending keys aux p idx c r e with
    | panic x => simp [he] at h
    | fuel => simp [he] at h
    | ok q =>
      obtain ⟨p', m, o⟩ := q
      simp only [he] at h
      rcases sysUpdatePending_cases he with ⟨h1, rfl⟩ | ⟨res, k, h1, h2, rfl, h4⟩
      · rw [h1]; exact ih h
      · rw [h1]
        simp only [Res.ok.injEq, Option.some.injEq, Prod.mk.injEq] at h
        exact ⟨res, rfl, by rw [h2, h.1], by rw [← h.2, h4]⟩

theorem play_none_of_await {keys : List (Key R)} {aux : List R} {idx : Nat} {c : Ctx} {r : Ref} {evs : List (Event Ev)} {p : PKS}
    (h : await keys aux idx c r p evs = .ok none) : play c.config.maxChordSize idx p evs = .ok none := by
  induction evs generalizing p with
  | nil => rfl
  | cons e es ih =>
    unfold await at h
    unfold play
    cases he : sysUpdatePending keys aux p idx c r e with
    | panic x => simp [he] at h
    | fuel => simp [he] at h
    | ok q =>
      obtain ⟨p', m, o⟩ := q
      simp only [he] at h
      rcases sysUpdatePending_cases he with ⟨h1, rfl⟩ | ⟨res, k, h1, h2, rfl, h4⟩
      · rw [h1]; exact ih h
      · simp at h

/-- The pending state after the presses `ps`, if the key could be part of the chords `init` at first. -/
def after (init : List ChordState) (idx : Nat) (ps : List Nat) : PKS :=
  ⟨ps.reverse ++ [idx], (init.filter (fun cs => ps.all (fun k => Chord.hasIndex cs.chord k))).map
    (fun cs => if ps = [] then cs else { cs with isSatisfied := Chord.isSatisfiedBy cs.chord (ps.reverse ++ [idx]) })⟩

theorem after_nil (init : List ChordState) (idx : Nat) : after init idx [] = ⟨[idx], init⟩ := by
  simp [after]

theorem after_snoc (init : List ChordState) (idx k : Nat) (ps : List Nat) :
    after init idx (ps ++ [k]) = ⟨k :: (after init idx ps).pressedIndices,
      ((after init idx ps).possible.filter (fun cs => Chord.hasIndex cs.chord k)).map
        (fun cs => { cs with isSatisfied := Chord.isSatisfiedBy cs.chord (k :: (after init idx ps).pressedIndices) })⟩ := by
  have h1 : (fun cs : ChordState => Chord.hasIndex cs.chord k) ∘
      (fun cs : ChordState => if ps = [] then cs else { cs with isSatisfied := Chord.isSatisfiedBy cs.chord (ps.reverse ++ [idx]) }) =
      fun cs => Chord.hasIndex cs.chord k := by
    funext cs
    simp only [Function.comp]
    split <;> rfl
  unfold after
  simp only [List.reverse_append, List.reverse_cons, List.reverse_nil, List.nil_append, List.singleton_append, List.cons_append,
    PKS.mk.injEq, true_and, List.append_eq_nil_iff, List.cons_ne_self, and_false, if_false]
  rw [List.filter_map, h1, List.filter_filter, List.map_map]
  congr 1
  · funext cs
    simp only [Function.comp]
    split <;> rfl
  · congr 1
    funext cs
    simp only [List.all_append, List.all_cons, List.all_nil, Bool.and_true]
    exact Bool.and_comm _ _

theorem mem_possible {init : List ChordState} {idx : Nat} {ps : List Nat} {cs : ChordState} (h : cs ∈ (after init idx ps).possible) :
    ∃ c0 ∈ init, c0.index = cs.index ∧ c0.chord = cs.chord ∧ (∀ k ∈ ps, k ∈ cs.chord) ∧
      (ps = [] → cs = c0) ∧ (ps ≠ [] → (cs.isSatisfied = true ↔ ∀ i ∈ cs.chord, i = idx ∨ i ∈ ps)) := by
  simp only [after, List.mem_map, List.mem_filter, List.all_eq_true, Chord.hasIndex, List.contains_eq_mem, decide_eq_true_eq] at h
  obtain ⟨c0, ⟨hc0, hall⟩, rfl⟩ := h
  by_cases hps : ps = []
  · simp only [hps, if_true]
    exact ⟨c0, hc0, rfl, rfl, by simp, by simp, by simp⟩
  · simp only [hps, if_false]
    refine ⟨c0, hc0, rfl, rfl, hall, by simp, fun _ => ?_⟩
    simp only [Chord.isSatisfiedBy, List.all_eq_true, List.contains_eq_mem, decide_eq_true_eq, List.mem_append, List.mem_reverse,
      List.mem_singleton]
    constructor
    · intro h i hi; rcases h i hi with h | h <;> simp [h]
    · intro h i hi; rcases h i hi with h | h <;> simp [h]

/-- The chord `satisfied_chord` finds. -/
theorem satisfied_some {init : List ChordState} (hinit : ∀ cs ∈ init, cs.isSatisfied = false) {idx : Nat} {ps : List Nat} {id : Nat}
    (h : (after init idx ps).satisfied = some id) :
    ∃ cs ∈ init, cs.index = id ∧ (∀ k ∈ ps, k ∈ cs.chord) ∧ ∀ i ∈ cs.chord, i = idx ∨ i ∈ ps := by
  simp only [PKS.satisfied, Option.map_eq_some_iff] at h
  obtain ⟨cs, hf, rfl⟩ := h
  have hm := List.mem_of_find?_eq_some hf
  have hs : cs.isSatisfied = true := by simpa using List.find?_some hf
  obtain ⟨c0, h0, h1, h2, h3, h4, h5⟩ := mem_possible hm
  by_cases hps : ps = []
  · rw [h4 hps] at hs
    simp [hinit c0 h0] at hs
  · exact ⟨c0, h0, h1, h2 ▸ h3, fun i hi => (h5 hps).1 hs i (h2 ▸ hi)⟩

/-- Nothing is satisfied as long as no chord is complete. -/
theorem satisfied_none {init : List ChordState} (hinit : ∀ cs ∈ init, cs.isSatisfied = false) {idx : Nat} {ps : List Nat}
    (h : ∀ cs ∈ init, ∃ i ∈ cs.chord, i ≠ idx ∧ i ∉ ps) : (after init idx ps).satisfied = none := by
  cases hs : (after init idx ps).satisfied with
  | none => rfl
  | some id =>
    obtain ⟨cs, hm, _, _, hall⟩ := satisfied_some hinit hs
    obtain ⟨i, hi, h1, h2⟩ := h cs hm
    rcases hall i hi with h | h
    · exact absurd h h1
    · exact absurd h h2

/-- A chord that was complete wins over a passthrough. -/
def settle : Option Resolution → Option Nat → Option Resolution
  | some .passthrough, some id => some (.chord id)
  | r, _ => r

/-- One event, in terms of the presses so far. -/
theorem handleEvent_after {m idx : Nat} {init : List ChordState} {ps : List Nat} {e : Event Ev} {p' : PKS} {res : Option Resolution}
    (h : (after init idx ps).handleEvent m idx e = .ok (p', res)) :
    p' = after init idx (ps ++ presses [e]) ∧
    ((((∃ j, e = .key j .timeout) ∨ e = .input (.release idx)) ∧
        res = some (match (after init idx ps).satisfied with | some id => .chord id | none => .passthrough)) ∨
     (∃ k, e = .input (.press k) ∧ ps.length + 1 < m ∧
        res = settle (after init idx (ps ++ [k])).checkResolution (after init idx ps).satisfied) ∨
     ((∀ j, e ≠ .key j .timeout) ∧ e ≠ .input (.release idx) ∧ (∀ k, e ≠ .input (.press k)) ∧ res = none)) := by
  cases e with
  | key j e =>
    cases e with
    | timeout =>
      simp only [PKS.handleEvent, Res.ok.injEq, Prod.mk.injEq] at h
      obtain ⟨rfl, rfl⟩ := h
      exact ⟨by simp [presses], .inl ⟨.inl ⟨j, rfl⟩, rfl⟩⟩
    | chordResolved r =>
      simp only [PKS.handleEvent, Res.ok.injEq, Prod.mk.injEq] at h
      obtain ⟨rfl, rfl⟩ := h
      exact ⟨by simp [presses], .inr (.inr ⟨by simp, by simp, by simp, rfl⟩)⟩
  | keymap e =>
    simp only [PKS.handleEvent, Res.ok.injEq, Prod.mk.injEq] at h
    obtain ⟨rfl, rfl⟩ := h
    exact ⟨by simp [presses], .inr (.inr ⟨by simp, by simp, by simp, rfl⟩)⟩
  | input e =>
    cases e with
    | press k =>
      simp only [PKS.handleEvent] at h
      split at h
      · rename_i hlt
        simp only [Res.pure_eq, Res.ok.injEq, Prod.mk.injEq] at h
        obtain ⟨rfl, rfl⟩ := h
        refine ⟨by simp [presses, after_snoc], .inr (.inl ⟨k, rfl, by simpa [after] using hlt, ?_⟩)⟩
        rw [after_snoc]
        generalize PKS.checkResolution _ = a
        generalize PKS.satisfied _ = b
        rcases a with _ | _ | _ <;> cases b <;> rfl
      · simp at h
    | release k =>
      simp only [PKS.handleEvent] at h
      split at h
      · rename_i hk
        simp only [Res.ok.injEq, Prod.mk.injEq] at h
        obtain ⟨rfl, rfl⟩ := h
        exact ⟨by simp [presses], .inl ⟨.inr (by rw [hk]), rfl⟩⟩
      · rename_i hk
        simp only [Res.ok.injEq, Prod.mk.injEq] at h
        obtain ⟨rfl, rfl⟩ := h
        exact ⟨by simp [presses], .inr (.inr ⟨by simp, by simp [hk], by simp, rfl⟩)⟩
    | vpress k =>
      simp only [PKS.handleEvent, Res.ok.injEq, Prod.mk.injEq] at h
      obtain ⟨rfl, rfl⟩ := h
      exact ⟨by simp [presses], .inr (.inr ⟨by simp, by simp, by simp, rfl⟩)⟩
    | vrelease k =>
      simp only [PKS.handleEvent, Res.ok.injEq, Prod.mk.injEq] at h
      obtain ⟨rfl, rfl⟩ := h
      exact ⟨by simp [presses], .inr (.inr ⟨by simp, by simp, by simp, rfl⟩)⟩

theorem presses_append (a b : List (Event Ev)) : presses (a ++ b) = presses a ++ presses b := by simp [presses]

theorem presses_cons (e : Event Ev) (es : List (Event Ev)) : presses (e :: es) = presses [e] ++ presses es :=
  presses_append [e] es

theorem mem_presses {k : Nat} {evs : List (Event Ev)} : k ∈ presses evs ↔ .input (.press k) ∈ evs := by
  simp only [presses, List.mem_filterMap]
  constructor
  · rintro ⟨e, he, h⟩
    split at h
    · simp only [Option.some.injEq] at h; subst h; exact he
    · simp at h
  · intro h
    exact ⟨_, h, rfl⟩

/-- What is true of the only possible chord, if it is satisfied. -/
theorem checkResolution_chord {init : List ChordState} {idx : Nat} {ps : List Nat} {id : Nat} (hps : ps ≠ [])
    (h : (after init idx ps).checkResolution = some (.chord id)) :
    ∃ cs ∈ init, cs.index = id ∧ (∀ k ∈ ps, k ∈ cs.chord) ∧ ∀ i ∈ cs.chord, i = idx ∨ i ∈ ps := by
  unfold PKS.checkResolution at h
  split at h
  · simp at h
  · rename_i cs hcs
    split at h
    · rename_i hs
      simp only [Option.some.injEq, Resolution.chord.injEq] at h
      obtain ⟨c0, h0, h1, h2, h3, h4, h5⟩ := mem_possible (cs := cs) (by rw [hcs]; simp)
      exact ⟨c0, h0, by rw [h1, h], h2 ▸ h3, fun i hi => (h5 hps).1 hs i (h2 ▸ hi)⟩
    · simp at h
  · simp at h

theorem play_sound {m idx : Nat} {init : List ChordState} (hinit : ∀ cs ∈ init, cs.isSatisfied = false) {ps : List Nat}
    {evs : List (Event Ev)} {id : Nat} (h : play m idx (after init idx ps) evs = .ok (some (.chord id))) :
    ∃ cs ∈ init, cs.index = id ∧ ∀ i ∈ cs.chord, i = idx ∨ i ∈ ps ∨ i ∈ presses evs := by
  induction evs generalizing ps with
  | nil => simp [play] at h
  | cons e es ih =>
    unfold play at h
    cases he : (after init idx ps).handleEvent m idx e with
    | panic x => simp [he] at h
    | fuel => simp [he] at h
    | ok q =>
      obtain ⟨p', res⟩ := q
      simp only [he] at h
      obtain ⟨rfl, hres⟩ := handleEvent_after he
      have fin : (∃ cs ∈ init, cs.index = id ∧ (∀ k ∈ ps, k ∈ cs.chord) ∧ ∀ i ∈ cs.chord, i = idx ∨ i ∈ ps) →
          ∃ cs ∈ init, cs.index = id ∧ ∀ i ∈ cs.chord, i = idx ∨ i ∈ ps ∨ i ∈ presses (e :: es) := by
        rintro ⟨cs, h1, h2, _, h4⟩
        refine ⟨cs, h1, h2, fun i hi => ?_⟩
        rcases h4 i hi with h | h
        · exact .inl h
        · exact .inr (.inl h)
      cases res with
      | none =>
        obtain ⟨cs, h1, h2, h3⟩ := ih h
        refine ⟨cs, h1, h2, fun i hi => ?_⟩
        rw [presses_cons]
        rcases h3 i hi with h | h | h
        · exact .inl h
        · rcases List.mem_append.1 h with h | h
          · exact .inr (.inl h)
          · exact .inr (.inr (by simp [h]))
        · exact .inr (.inr (by simp [h]))
      | some r =>
        simp only [Res.ok.injEq, Option.some.injEq] at h
        subst h
        rcases hres with ⟨_, hr⟩ | ⟨k, rfl, _, hr⟩ | ⟨_, _, _, hr⟩
        · split at hr
          · rename_i hs
            simp only [Option.some.injEq, Resolution.chord.injEq] at hr
            exact fin (satisfied_some hinit (hr ▸ hs))
          · simp at hr
        · unfold settle at hr
          split at hr
          · rename_i hs
            simp only [Option.some.injEq, Resolution.chord.injEq] at hr
            exact fin (satisfied_some hinit (hr ▸ hs))
          · obtain ⟨cs, h1, h2, _, h3⟩ := checkResolution_chord (by simp) hr.symm
            refine ⟨cs, h1, h2, fun i hi => ?_⟩
            rcases h3 i hi with h | h
            · exact .inl h
            · rcases List.mem_append.1 h with h | h
              · exact .inr (.inl h)
              · exact .inr (.inr (by rw [presses_cons]; simp [presses] at h ⊢; exact .inl h))
        · simp at hr

/-! ## The chords a pressed key may become part of -/

theorem mem_enumFrom {α : Type} {xs : List α} {n i : Nat} {x : α} : (i, x) ∈ enumFrom n xs ↔ n ≤ i ∧ xs[i - n]? = some x := by
  induction xs generalizing n with
  | nil => simp [enumFrom]
  | cons a as ih =>
    simp only [enumFrom, List.mem_cons, Prod.mk.injEq, ih]
    constructor
    · rintro (⟨rfl, rfl⟩ | ⟨h1, h2⟩)
      · simp
      · refine ⟨by omega, ?_⟩
        rw [show i - n = (i - (n + 1)) + 1 by omega]
        simpa using h2
    · rintro ⟨h1, h2⟩
      by_cases hi : i = n
      · subst hi; simp at h2; exact .inl ⟨rfl, h2.symm⟩
      · refine .inr ⟨by omega, ?_⟩
        rw [show i - n = (i - (n + 1)) + 1 by omega] at h2
        simpa using h2

theorem pressedFrom_mem {chords : List Chord} {bs : List Bool} {n : Nat} {ps : List (Nat × Chord)} (h : pressedFrom chords n bs = .ok ps)
    {q : Nat × Chord} : q ∈ ps ↔ n ≤ q.1 ∧ bs[q.1 - n]? = some true ∧ chords[q.1]? = some q.2 := by
  induction bs generalizing n ps with
  | nil => simp only [pressedFrom, Res.ok.injEq] at h; subst h; simp
  | cons b bs ih =>
    have shift : q.1 ≠ n → ((n + 1 ≤ q.1 ∧ bs[q.1 - (n + 1)]? = some true ∧ chords[q.1]? = some q.2) ↔
        (n ≤ q.1 ∧ (b :: bs)[q.1 - n]? = some true ∧ chords[q.1]? = some q.2)) := by
      intro hne
      by_cases hle : n + 1 ≤ q.1
      · rw [show q.1 - n = (q.1 - (n + 1)) + 1 by omega]
        simp only [List.getElem?_cons_succ]
        constructor
        · rintro ⟨_, h⟩; exact ⟨by omega, h⟩
        · rintro ⟨_, h⟩; exact ⟨hle, h⟩
      · constructor
        · rintro ⟨h, _⟩; omega
        · rintro ⟨h, _⟩; omega
    cases b with
    | true =>
      unfold pressedFrom at h
      obtain ⟨c, hc, h⟩ := Res.bind_eq_ok.1 h
      obtain ⟨rest, hr, h⟩ := Res.bind_eq_ok.1 h
      simp only [Res.pure_eq, Res.ok.injEq] at h
      subst h
      have hc' : chords[n]? = some c := by
        unfold Res.index at hc; split at hc <;> simp_all
      rw [List.mem_cons, ih hr]
      obtain ⟨i, ch⟩ := q
      simp only [Prod.mk.injEq] at *
      by_cases hi : i = n
      · subst hi
        simp only [true_and, Nat.sub_self, List.getElem?_cons_zero, hc', Nat.le_refl]
        constructor
        · rintro (rfl | ⟨h, _⟩)
          · rfl
          · omega
        · intro h; simp at h; exact .inl h.symm
      · rw [shift hi]; simp [hi]
    | false =>
      unfold pressedFrom at h
      rw [ih h]
      obtain ⟨i, ch⟩ := q
      simp only [] at *
      by_cases hi : i = n
      · subst hi
        simp only [Nat.sub_self, List.getElem?_cons_zero, Option.some.injEq, Bool.false_eq_true, false_and, and_false, iff_false]
        omega
      · exact shift hi

/-- The chords a key may become part of: the chord that contains it, if that one is pressed already, or else
the chords of the table with this index that do not overlap with a pressed chord. -/
theorem chordsFor_cases {c : Ctx} {idx : Nat} {cs : List ChordState} (h : c.chordsFor idx = .ok cs) :
    (∃ id ch, cs = [⟨id, ch, true⟩] ∧ c.pressedChords[id]? = some true ∧ c.config.chords[id]? = some ch ∧ idx ∈ ch) ∨
    (∃ sp, c.span = .ok sp ∧ cs = (((enumFrom 0 c.config.chords).filter (fun p => Chord.hasIndex p.2 idx)).filter
        (fun p => sp.isEmpty || p.2.all (fun i => !sp.contains i))).map (fun p => ⟨p.1, p.2, false⟩)) := by
  unfold Ctx.chordsFor at h
  obtain ⟨o, ho, h⟩ := Res.bind_eq_ok.1 h
  cases o with
  | some s =>
    simp only [Res.pure_eq, Res.ok.injEq] at h
    subst h
    unfold Ctx.pressedChordWithIndex at ho
    obtain ⟨ps, hps, ho⟩ := Res.bind_eq_ok.1 ho
    simp only [Res.pure_eq, Res.ok.injEq, Option.map_eq_some_iff] at ho
    obtain ⟨⟨id, ch⟩, hf, rfl⟩ := ho
    have hm := (pressedFrom_mem hps).1 (List.mem_of_find?_eq_some hf)
    have hi := List.find?_some hf
    refine .inl ⟨id, ch, rfl, by simpa using hm.2.1, hm.2.2, by simpa [Chord.hasIndex] using hi⟩
  | none =>
    obtain ⟨sp, hsp, h⟩ := Res.bind_eq_ok.1 h
    simp only [Res.pure_eq, Res.ok.injEq] at h
    exact .inr ⟨sp, hsp, h.symm⟩

/-- A waiting key started with chords of the table that contain it, none of them satisfied. -/
theorem pending_start {keys : List (Key R)} {aux : List R} {idx : Nat} {c : Ctx} {r : Ref} {p : PKS} {es : KeyEvents Ev}
    (h : sysNewPressedKey keys aux idx c r = .ok (.pending p, es)) :
    passthroughOf keys aux r ≠ none ∧ es = timeoutEvents c idx ∧ pressCommon c idx = .ok (.inr p) := by
  cases r with
  | chorded i =>
    obtain ⟨k, hk, h⟩ := Res.bind_eq_ok.1 h
    obtain ⟨x, hx, h⟩ := Res.bind_eq_ok.1 h
    have hk' : keys[i]? = some k := by unfold Res.index at hk; split at hk <;> simp_all
    cases x with
    | inl r =>
      obtain ⟨n, hn, h⟩ := Res.bind_eq_ok.1 h
      simp at h
    | inr q =>
      simp only [Res.pure_eq, Res.ok.injEq, Prod.mk.injEq, Pressed.pending.injEq] at h
      exact ⟨by simp [passthroughOf, hk'], h.2.symm, h.1 ▸ hx⟩
  | auxiliary i =>
    obtain ⟨k, hk, h⟩ := Res.bind_eq_ok.1 h
    obtain ⟨x, hx, h⟩ := Res.bind_eq_ok.1 h
    have hk' : aux[i]? = some k := by unfold Res.index at hk; split at hk <;> simp_all
    cases x with
    | inl r => simp at h
    | inr q =>
      simp only [Res.pure_eq, Res.ok.injEq, Prod.mk.injEq, Pressed.pending.injEq] at h
      exact ⟨by simp [passthroughOf, hk'], h.2.symm, h.1 ▸ hx⟩

theorem pressCommon_pending {c : Ctx} {idx : Nat} {p : PKS} (h : pressCommon c idx = .ok (.inr p)) :
    ∃ init, c.chordsFor idx = .ok init ∧ p = after init idx [] ∧
      (∀ cs ∈ init, cs.isSatisfied = false ∧ c.config.chords[cs.index]? = some cs.chord ∧ idx ∈ cs.chord) ∧ init ≠ [] := by
  unfold pressCommon PKS.new at h
  obtain ⟨q, hq, h⟩ := Res.bind_eq_ok.1 h
  obtain ⟨is, his, hq⟩ := Res.bind_eq_ok.1 hq
  obtain ⟨cs, hcs, hq⟩ := Res.bind_eq_ok.1 hq
  simp only [Res.pure_eq, Res.ok.injEq] at hq h
  subst hq
  have his' := (pushCap_eq_ok.1 his).2
  simp only [List.nil_append] at his'
  subst his'
  have hnone : c.sufficientIdle = true ∧ PKS.checkResolution ⟨[idx], cs⟩ = none ∧ p = ⟨[idx], cs⟩ := by
    split at h
    · simp at h
    · rename_i hr
      simp only [Sum.inr.injEq] at h
      split at hr
      · rename_i hi; exact ⟨hi, hr, h.symm⟩
      · simp at hr
  obtain ⟨_, hr, rfl⟩ := hnone
  refine ⟨cs, hcs, (after_nil cs idx).symm, ?_, ?_⟩
  · rcases chordsFor_cases hcs with ⟨id, ch, rfl, _⟩ | ⟨sp, _, rfl⟩
    · simp [PKS.checkResolution] at hr
    · intro x hx
      simp only [List.mem_map, List.mem_filter] at hx
      obtain ⟨⟨i, ch⟩, ⟨⟨h1, h2⟩, _⟩, rfl⟩ := hx
      exact ⟨rfl, by simpa using (mem_enumFrom.1 h1).2, by simpa [Chord.hasIndex] using h2⟩
  · rintro rfl
    simp [PKS.checkResolution] at hr

theorem refOf_cases {keys : List (Key R)} {aux : List R} {idx : Nat} {c : Ctx} {r : Ref} {res : Resolution} {n : NPK R}
    (h : refOf keys aux idx c r res = .ok n) :
    (res = .passthrough ∧ ∃ k, passthroughOf keys aux r = some k ∧ n = .key k) ∨
    ∃ id, res = .chord id ∧ (n = .noOp ∨ ∃ k ch, n = .key k ∧ (id, k) ∈ chordKeysOf keys r ∧ c.config.chords[id]? = some ch ∧
      ch.head? = some idx) := by
  cases r with
  | chorded i =>
    obtain ⟨k, hk, h⟩ := Res.bind_eq_ok.1 h
    have hk' : keys[i]? = some k := by unfold Res.index at hk; split at hk <;> simp_all
    cases res with
    | passthrough =>
      simp only [Key.refFor, Res.ok.injEq] at h
      exact .inl ⟨rfl, k.passthrough, by simp [passthroughOf, hk'], h.symm⟩
    | chord id =>
      refine .inr ⟨id, rfl, ?_⟩
      simp only [Key.refFor] at h
      split at h
      · rename_i ch hch
        obtain ⟨first, hf, h2⟩ := Res.bind_eq_ok.1 h
        clear h
        have hf' : ch[0]? = some first := by unfold Res.index at hf; split at hf <;> simp_all
        split at h2
        · rename_i he
          split at h2
          · rename_i i r hfind
            simp only [Res.pure_eq, Res.ok.injEq] at h2
            have hm := List.mem_of_find?_eq_some hfind
            have hi := List.find?_some hfind
            simp only [decide_eq_true_eq] at hi
            subst hi
            exact .inr ⟨r, ch, h2.symm, by simpa [chordKeysOf, hk'] using hm, hch, by rw [List.head?_eq_getElem?, hf', he]⟩
          · simp at h2
        · simp only [Res.pure_eq, Res.ok.injEq] at h2
          exact .inl h2.symm
      · simp at h
  | auxiliary i =>
    obtain ⟨k, hk, h⟩ := Res.bind_eq_ok.1 h
    have hk' : aux[i]? = some k := by unfold Res.index at hk; split at hk <;> simp_all
    simp only [Res.pure_eq, Res.ok.injEq] at h
    cases res with
    | passthrough => exact .inl ⟨rfl, k, by simp [passthroughOf, hk'], h.symm⟩
    | chord id => exact .inr ⟨id, rfl, .inl h.symm⟩

/-! ## C37 -/

/-- C37, for a key that waits: it becomes its passthrough key, or it is part of a chord all of whose keys were
pressed while it waited. The key of a chord appears only at the chord's first index. -/
theorem C37_pending {keys : List (Key R)} {aux : List R} {idx : Nat} {c : Ctx} {r : Ref} {p : PKS} {es : KeyEvents Ev}
    (h : sysNewPressedKey keys aux idx c r = .ok (.pending p, es)) {evs : List (Event Ev)} {n : NPK R} {out : KeyEvents Ev}
    (ha : await keys aux idx c r p evs = .ok (some (n, out))) :
    (out = resolved idx .passthrough ∧ ∃ k, passthroughOf keys aux r = some k ∧ n = .key k) ∨
    ∃ id ch, out = resolved idx (.chord id) ∧ c.config.chords[id]? = some ch ∧ idx ∈ ch ∧
      (∀ i ∈ ch, i = idx ∨ .input (.press i) ∈ evs) ∧
      (n = .noOp ∨ ∃ k, n = .key k ∧ (id, k) ∈ chordKeysOf keys r ∧ ch.head? = some idx) := by
  obtain ⟨hr, _, hp⟩ := pending_start h
  obtain ⟨init, _, rfl, hinit, _⟩ := pressCommon_pending hp
  obtain ⟨res, hplay, hn, hout⟩ := play_of_await ha
  rcases refOf_cases hn with ⟨rfl, hk⟩ | ⟨id, rfl, hk⟩
  · exact .inl ⟨hout, hk⟩
  · obtain ⟨cs, h1, h2, h3⟩ := play_sound (fun cs hcs => (hinit cs hcs).1) hplay
    subst h2
    refine .inr ⟨cs.index, cs.chord, hout, (hinit cs h1).2.1, (hinit cs h1).2.2, fun i hi => ?_, ?_⟩
    · rcases h3 i hi with h | h | h
      · exact .inl h
      · simp at h
      · exact .inr (mem_presses.1 h)
    · rcases hk with hk | ⟨k, ch, rfl, h5, h6, h7⟩
      · exact .inl hk
      · rw [(hinit cs h1).2.1] at h6
        simp only [Option.some.injEq] at h6
        exact .inr ⟨k, rfl, h5, h6 ▸ h7⟩

/-- C37, for a key that is decided at once: it becomes its passthrough key, or it belongs to a chord that
is pressed already. -/
theorem C37_immediate {keys : List (Key R)} {aux : List R} {idx : Nat} {c : Ctx} {r : Ref} {n : NPK R} {es : KeyEvents Ev}
    (h : sysNewPressedKey keys aux idx c r = .ok (.npk n, es)) :
    es = [] ∧
    ((∃ k, passthroughOf keys aux r = some k ∧ n = .key k) ∨
     ∃ id ch, c.pressedChords[id]? = some true ∧ c.config.chords[id]? = some ch ∧ idx ∈ ch ∧
      (n = .noOp ∨ ∃ k, n = .key k ∧ (id, k) ∈ chordKeysOf keys r ∧ ch.head? = some idx)) := by
  have key : es = [] ∧ ∃ res, pressCommon c idx = .ok (.inl res) ∧ refOf keys aux idx c r res = .ok n := by
    cases r with
    | chorded i =>
      obtain ⟨k, hk, h⟩ := Res.bind_eq_ok.1 h
      obtain ⟨x, hx, h⟩ := Res.bind_eq_ok.1 h
      cases x with
      | inl r =>
        obtain ⟨n', hn, h⟩ := Res.bind_eq_ok.1 h
        simp only [Res.pure_eq, Res.ok.injEq, Prod.mk.injEq, Pressed.npk.injEq] at h
        obtain ⟨rfl, rfl⟩ := h
        exact ⟨rfl, r, hx, by simp [refOf, hk, hn]⟩
      | inr q => simp at h
    | auxiliary i =>
      obtain ⟨k, hk, h⟩ := Res.bind_eq_ok.1 h
      obtain ⟨x, hx, h⟩ := Res.bind_eq_ok.1 h
      cases x with
      | inl r =>
        simp only [Res.pure_eq, Res.ok.injEq, Prod.mk.injEq, Pressed.npk.injEq] at h
        obtain ⟨rfl, rfl⟩ := h
        exact ⟨rfl, r, hx, by simp [refOf, hk]⟩
      | inr q => simp at h
  obtain ⟨hes, res, hpc, hn⟩ := key
  refine ⟨hes, ?_⟩
  rcases refOf_cases hn with ⟨rfl, hk⟩ | ⟨id, rfl, hk⟩
  · exact .inl hk
  · right
    unfold pressCommon PKS.new at hpc
    obtain ⟨q, hq, hpc⟩ := Res.bind_eq_ok.1 hpc
    obtain ⟨is, his, hq⟩ := Res.bind_eq_ok.1 hq
    obtain ⟨cs, hcs, hq⟩ := Res.bind_eq_ok.1 hq
    simp only [Res.pure_eq, Res.ok.injEq] at hq hpc
    subst hq
    have hres : PKS.checkResolution ⟨is, cs⟩ = some (.chord id) := by
      split at hpc
      · rename_i hr
        simp only [Sum.inl.injEq] at hpc
        subst hpc
        split at hr
        · exact hr
        · simp at hr
      · simp at hpc
    rcases chordsFor_cases hcs with ⟨id', ch, rfl, h1, h2, h3⟩ | ⟨sp, _, rfl⟩
    · simp only [PKS.checkResolution, if_true, Option.some.injEq, Resolution.chord.injEq] at hres
      subst hres
      refine ⟨id', ch, h1, h2, h3, ?_⟩
      rcases hk with hk | ⟨k, ch', rfl, h5, h6, h7⟩
      · exact .inl hk
      · rw [h2] at h6
        simp only [Option.some.injEq] at h6
        exact .inr ⟨k, rfl, h5, h6 ▸ h7⟩
    · exfalso
      unfold PKS.checkResolution at hres
      split at hres
      · simp at hres
      · rename_i s hs
        have : s.isSatisfied = false := by
          have hm : s ∈ [s] := by simp
          simp only at hs
          rw [← hs, List.mem_map] at hm
          obtain ⟨_, _, rfl⟩ := hm
          rfl
        simp [this] at hres
      · simp at hres

/-- Following the events that reach the context. -/
def Ctx.handleAll (c : Ctx) : List (Event Ev) → Res Ctx
  | [] => .ok c
  | e :: es => do
    let c ← c.handleEvent e
    c.handleAll es

theorem clearChords_get {idx : Nat} {chs : List Chord} {bs : List Bool} {id : Nat} (h : (clearChords idx chs bs)[id]? = some true) :
    bs[id]? = some true ∧ ∀ ch, chs[id]? = some ch → idx ∉ ch := by
  induction chs generalizing bs id with
  | nil => exact ⟨by simpa [clearChords] using h, by simp⟩
  | cons ch chs ih =>
    cases bs with
    | nil => simp [clearChords] at h
    | cons b bs =>
      simp only [clearChords] at h
      cases id with
      | zero =>
        simp only [List.getElem?_cons_zero, Option.some.injEq] at h ⊢
        split at h
        · simp at h
        · rename_i hn
          refine ⟨h, ?_⟩
          rintro _ rfl
          simpa [Chord.hasIndex] using hn
      | succ id =>
        simp only [List.getElem?_cons_succ] at h ⊢
        exact ih h

theorem handleEvent_active {c c' : Ctx} {e : Event Ev} (h : c.handleEvent e = .ok c') :
    c'.config = c.config ∧ ∀ id, c'.pressedChords[id]? = some true →
      (∃ j, e = .key j (.chordResolved (.chord id))) ∨
      (c.pressedChords[id]? = some true ∧ ∀ i, e = .input (.release i) → ∀ ch, c.config.chords[id]? = some ch → i ∉ ch) := by
  unfold Ctx.handleEvent at h
  split at h
  · rename_i idx
    obtain ⟨d, hd, h⟩ := Res.bind_eq_ok.1 h
    have hd' : d.config = c.config ∧ d.pressedChords = c.pressedChords := by
      unfold Ctx.pressIndex at hd
      split at hd
      · simp only [Res.ok.injEq] at hd; subst hd; exact ⟨rfl, rfl⟩
      · obtain ⟨xs, _, hd⟩ := Res.bind_eq_ok.1 hd
        simp only [Res.pure_eq, Res.ok.injEq] at hd; subst hd; exact ⟨rfl, rfl⟩
    obtain ⟨sp, _, h⟩ := Res.bind_eq_ok.1 h
    have hc : c'.config = d.config ∧ c'.pressedChords = d.pressedChords := by
      split at h
      · simp only [Res.pure_eq, Res.ok.injEq] at h; subst h; exact ⟨rfl, rfl⟩
      · split at h
        · obtain ⟨ch, _, h⟩ := Res.bind_eq_ok.1 h
          simp only [Res.pure_eq, Res.ok.injEq] at h; subst h; exact ⟨rfl, rfl⟩
        · simp only [Res.pure_eq, Res.ok.injEq] at h; subst h; exact ⟨rfl, rfl⟩
    rw [hc.1, hc.2, hd'.1, hd'.2]
    exact ⟨rfl, fun id hid => .inr ⟨hid, by simp⟩⟩
  · rename_i idx
    simp only [Res.ok.injEq] at h
    subst h
    have hr : (c.releaseIndex idx).config = c.config ∧ (c.releaseIndex idx).pressedChords = c.pressedChords := by
      unfold Ctx.releaseIndex; split <;> exact ⟨rfl, rfl⟩
    refine ⟨hr.1, fun id hid => ?_⟩
    simp only [hr.1, hr.2] at hid
    obtain ⟨h1, h2⟩ := clearChords_get hid
    refine .inr ⟨h1, fun i hi ch hch => ?_⟩
    simp only [Event.input.injEq, InputEvent.release.injEq] at hi
    subst hi
    exact h2 ch hch
  · rename_i j id0
    split at h
    · simp only [Res.ok.injEq] at h
      subst h
      refine ⟨rfl, fun id hid => ?_⟩
      simp only at hid
      by_cases he : id0 = id
      · subst he; exact .inl ⟨j, rfl⟩
      · rw [List.getElem?_set_ne he] at hid
        exact .inr ⟨hid, by simp⟩
    · simp at h
  · rename_i h1 h2 h3
    simp only [Res.ok.injEq] at h
    subst h
    exact ⟨rfl, fun id hid => .inr ⟨hid, fun i hi => absurd hi (h2 i)⟩⟩

theorem handleAll_active {c c' : Ctx} {evs : List (Event Ev)} (h : c.handleAll evs = .ok c') (id : Nat)
    (ha : c'.pressedChords[id]? = some true) :
    (∃ pre j post, evs = pre ++ .key j (.chordResolved (.chord id)) :: post ∧
      ∀ ch, c.config.chords[id]? = some ch → ∀ i ∈ ch, .input (.release i) ∉ post) ∨
    (c.pressedChords[id]? = some true ∧ ∀ ch, c.config.chords[id]? = some ch → ∀ i ∈ ch, .input (.release i) ∉ evs) := by
  induction evs generalizing c with
  | nil =>
    simp only [Ctx.handleAll, Res.ok.injEq] at h
    subst h
    exact .inr ⟨ha, by simp⟩
  | cons e es ih =>
    obtain ⟨d, hd, h⟩ := Res.bind_eq_ok.1 h
    obtain ⟨hcfg, hact⟩ := handleEvent_active hd
    rcases ih h with ⟨pre, j, post, rfl, hp⟩ | ⟨h1, h2⟩
    · exact .inl ⟨e :: pre, j, post, rfl, hcfg ▸ hp⟩
    · rw [hcfg] at h2
      rcases hact id h1 with ⟨j, rfl⟩ | ⟨h3, h4⟩
      · exact .inl ⟨[], j, es, rfl, h2⟩
      · refine .inr ⟨h3, fun ch hch i hi hm => ?_⟩
        rcases List.mem_cons.1 hm with he | hm
        · exact h4 i he.symm ch hch hi
        · exact h2 ch hch i hi hm

/-- C37: a chord counts as pressed only since a key resolved to it, and until one of its keys is
released. -/
theorem C37_active {maxChords : Nat} {cfg : Config} {evs : List (Event Ev)} {c : Ctx}
    (h : (Ctx.fromConfig maxChords cfg).handleAll evs = .ok c) {id : Nat} (ha : c.pressedChords[id]? = some true) :
    ∃ pre j post, evs = pre ++ .key j (.chordResolved (.chord id)) :: post ∧
      ∀ ch, cfg.chords[id]? = some ch → ∀ i ∈ ch, .input (.release i) ∉ post := by
  rcases handleAll_active h id ha with h | ⟨h, _⟩
  · exact h
  · simp [Ctx.fromConfig, List.getElem?_replicate] at h

/-! ## C39 -/

theorem play_append {m idx : Nat} {init : List ChordState} {evs es : List (Event Ev)} {ps : List Nat}
    (h : play m idx (after init idx ps) evs = .ok none) :
    play m idx (after init idx ps) (evs ++ es) = play m idx (after init idx (ps ++ presses evs)) es := by
  induction evs generalizing ps with
  | nil => simp [presses]
  | cons e evs ih =>
    rw [List.cons_append]
    unfold play at h ⊢
    cases he : (after init idx ps).handleEvent m idx e with
    | panic x => simp [he] at h
    | fuel => simp [he] at h
    | ok q =>
      obtain ⟨p', res⟩ := q
      obtain ⟨rfl, _⟩ := handleEvent_after he
      simp only [he] at h
      cases res with
      | some r => simp at h
      | none =>
        simp only at h ⊢
        rw [ih h, presses_cons e evs, List.append_assoc]
        cases es <;> rfl

theorem refOf_passthrough {keys : List (Key R)} {aux : List R} {idx : Nat} {c : Ctx} {r : Ref} {k : R}
    (h : passthroughOf keys aux r = some k) : refOf keys aux idx c r .passthrough = .ok (.key k) := by
  cases r with
  | chorded i =>
    simp only [passthroughOf, Option.map_eq_some_iff] at h
    obtain ⟨kk, hk, rfl⟩ := h
    simp [refOf, Res.index, hk, Key.refFor]
  | auxiliary i =>
    simp only [passthroughOf] at h
    simp [refOf, Res.index, h, auxRefFor]

/-- No chord with the index `idx` is complete after the events `evs`. -/
def NoneComplete (c : Ctx) (idx : Nat) (evs : List (Event Ev)) : Prop :=
  ∀ ch ∈ c.config.chords, idx ∈ ch → ∃ i ∈ ch, i ≠ idx ∧ .input (.press i) ∉ evs

/-- C39: if no chord is complete when the timeout comes or the key is released, it becomes its passthrough key. -/
theorem C39_ends {keys : List (Key R)} {aux : List R} {idx : Nat} {c : Ctx} {r : Ref} {p : PKS} {es : KeyEvents Ev}
    (h : sysNewPressedKey keys aux idx c r = .ok (.pending p, es)) {evs : List (Event Ev)}
    (hw : await keys aux idx c r p evs = .ok none) (hn : NoneComplete c idx evs) {e : Event Ev}
    (he : (∃ j, e = .key j .timeout) ∨ e = .input (.release idx)) :
    ∃ k, passthroughOf keys aux r = some k ∧
      await keys aux idx c r p (evs ++ [e]) = .ok (some (.key k, resolved idx .passthrough)) := by
  obtain ⟨hr, _, hp⟩ := pending_start h
  obtain ⟨init, _, rfl, hinit, _⟩ := pressCommon_pending hp
  obtain ⟨k, hk⟩ := Option.ne_none_iff_exists'.1 hr
  refine ⟨k, hk, await_of_play hr ?_ (refOf_passthrough hk)⟩
  rw [play_append (play_none_of_await hw), List.nil_append]
  have hs : (after init idx (presses evs)).satisfied = none := by
    apply satisfied_none (fun cs hcs => (hinit cs hcs).1)
    intro cs hcs
    obtain ⟨i, hi, h1, h2⟩ := hn cs.chord (List.mem_of_getElem? (hinit cs hcs).2.1) (hinit cs hcs).2.2
    exact ⟨i, hi, h1, fun hm => h2 (mem_presses.1 hm)⟩
  rcases he with ⟨j, rfl⟩ | rfl
  · simp [play, PKS.handleEvent, hs]
  · simp [play, PKS.handleEvent, hs]

/-- C39: if no chord is complete and a key is pressed that is in no chord together with the keys pressed so
far, it becomes its passthrough key. -/
theorem C39_outside {keys : List (Key R)} {aux : List R} {idx : Nat} {c : Ctx} {r : Ref} {p : PKS} {es : KeyEvents Ev}
    (h : sysNewPressedKey keys aux idx c r = .ok (.pending p, es)) {evs : List (Event Ev)}
    (hw : await keys aux idx c r p evs = .ok none) (hn : NoneComplete c idx evs) {k : Nat}
    (hout : ∀ ch ∈ c.config.chords, idx ∈ ch → (∀ i, .input (.press i) ∈ evs → i ∈ ch) → k ∉ ch)
    (hl : (presses evs).length + 1 < c.config.maxChordSize) :
    ∃ r', passthroughOf keys aux r = some r' ∧
      await keys aux idx c r p (evs ++ [.input (.press k)]) = .ok (some (.key r', resolved idx .passthrough)) := by
  obtain ⟨hr, _, hp⟩ := pending_start h
  obtain ⟨init, _, rfl, hinit, _⟩ := pressCommon_pending hp
  obtain ⟨r', hk⟩ := Option.ne_none_iff_exists'.1 hr
  refine ⟨r', hk, await_of_play hr ?_ (refOf_passthrough hk)⟩
  rw [play_append (play_none_of_await hw), List.nil_append]
  have hs : (after init idx (presses evs)).satisfied = none := by
    apply satisfied_none (fun cs hcs => (hinit cs hcs).1)
    intro cs hcs
    obtain ⟨i, hi, h1, h2⟩ := hn cs.chord (List.mem_of_getElem? (hinit cs hcs).2.1) (hinit cs hcs).2.2
    exact ⟨i, hi, h1, fun hm => h2 (mem_presses.1 hm)⟩
  have hcr : (after init idx (presses evs ++ [k])).checkResolution = some .passthrough := by
    have : (after init idx (presses evs ++ [k])).possible = [] := by
      rw [List.eq_nil_iff_forall_not_mem]
      intro cs hcs
      obtain ⟨c0, h0, h1, h2, h3, _⟩ := mem_possible hcs
      have hi0 := hinit c0 h0
      refine hout c0.chord (List.mem_of_getElem? hi0.2.1) hi0.2.2 (fun i hi => ?_) ?_
      · exact h2 ▸ h3 i (by simp [mem_presses.2 hi])
      · exact h2 ▸ h3 k (by simp)
    simp [PKS.checkResolution, this]
  unfold play
  cases he : (after init idx (presses evs)).handleEvent c.config.maxChordSize idx (.input (.press k)) with
  | panic x =>
    simp only [PKS.handleEvent] at he
    rw [if_pos (by simpa [after] using hl)] at he
    simp at he
  | fuel =>
    simp only [PKS.handleEvent] at he
    rw [if_pos (by simpa [after] using hl)] at he
    simp at he
  | ok q =>
    obtain ⟨p', res⟩ := q
    obtain ⟨_, h1⟩ := handleEvent_after he
    rcases h1 with ⟨h1 | h1, _⟩ | ⟨k', hk', _, hres⟩ | ⟨_, _, h1, _⟩
    · obtain ⟨j, h1⟩ := h1; simp at h1
    · simp at h1
    · simp only [Event.input.injEq, InputEvent.press.injEq] at hk'
      subst hk'
      rw [hcr, hs] at hres
      simp only [settle] at hres
      subst hres
      rfl
    · exact absurd rfl (h1 k)

/-! ## C38 -/

/-- While nothing decides, the key waits. -/
theorem play_quiet {m idx : Nat} {init : List ChordState} {evs : List (Event Ev)} {ps : List Nat}
    (hq : ∀ e ∈ evs, (∀ j, e ≠ .key j .timeout) ∧ e ≠ .input (.release idx)) (hl : (ps ++ presses evs).length + 1 ≤ m)
    (hc : ∀ qs, qs ≠ [] → qs <+: presses evs → (after init idx (ps ++ qs)).checkResolution = none) :
    play m idx (after init idx ps) evs = .ok none := by
  induction evs generalizing ps with
  | nil => rfl
  | cons e es ih =>
    have hs := presses_cons e es
    have hnext : play m idx (after init idx (ps ++ presses [e])) es = .ok none := by
      apply ih (fun e' he' => hq e' (by simp [he'])) (by rw [List.append_assoc, ← hs]; exact hl)
      intro qs hqs hp
      rw [List.append_assoc]
      apply hc
      · simp [hqs]
      · rw [hs]; exact (List.prefix_append_right_inj _).2 hp
    have hok : ∃ q, (after init idx ps).handleEvent m idx e = .ok q := by
      cases e with
      | key j e => cases e <;> exact ⟨_, rfl⟩
      | keymap e => exact ⟨_, rfl⟩
      | input e =>
        cases e with
        | press k =>
          have : (after init idx ps).pressedIndices.length < m := by
            have h1 : presses (Event.input (.press k) :: es) = k :: presses es := rfl
            rw [h1] at hl
            simp [after] at hl ⊢
            omega
          simp only [PKS.handleEvent, this, if_true]
          exact ⟨_, rfl⟩
        | release k =>
          simp only [PKS.handleEvent]
          split <;> exact ⟨_, rfl⟩
        | vpress k => exact ⟨_, rfl⟩
        | vrelease k => exact ⟨_, rfl⟩
    obtain ⟨⟨p', res⟩, he⟩ := hok
    obtain ⟨rfl, h1⟩ := handleEvent_after he
    unfold play
    rw [he]
    have hres : res = none := by
      rcases h1 with ⟨h1 | h1, _⟩ | ⟨k, rfl, _, hres⟩ | ⟨_, _, _, hres⟩
      · obtain ⟨j, h1⟩ := h1; exact absurd h1 ((hq e (by simp)).1 j)
      · exact absurd h1 (hq e (by simp)).2
      · have := hc [k] (by simp) (by rw [hs]; simp [presses])
        rw [this] at hres
        simpa [settle] using hres
      · exact hres
    subst hres
    exact hnext

theorem mem_after {init : List ChordState} {idx : Nat} {ps : List Nat} {id : Nat} {ch : Chord} (hm : ⟨id, ch, false⟩ ∈ init)
    (hps : ∀ k ∈ ps, k ∈ ch) (hne : ps ≠ []) :
    ⟨id, ch, Chord.isSatisfiedBy ch (ps.reverse ++ [idx])⟩ ∈ (after init idx ps).possible := by
  simp only [after, List.mem_map, List.mem_filter]
  refine ⟨⟨id, ch, false⟩, ⟨hm, ?_⟩, by simp [hne]⟩
  simp only [List.all_eq_true, Chord.hasIndex, List.contains_eq_mem, decide_eq_true_eq]
  exact hps

/-- An incomplete chord keeps the key waiting. -/
theorem check_incomplete {init : List ChordState} {idx : Nat} {ps : List Nat} {id : Nat} {ch : Chord} (hm : ⟨id, ch, false⟩ ∈ init)
    (hps : ∀ k ∈ ps, k ∈ ch) (hne : ps ≠ []) {i : Nat} (hi : i ∈ ch) (h1 : i ≠ idx) (h2 : i ∉ ps) :
    (after init idx ps).checkResolution = none := by
  have hmem := mem_after (idx := idx) hm hps hne
  have hsat : Chord.isSatisfiedBy ch (ps.reverse ++ [idx]) = false := by
    cases hs : Chord.isSatisfiedBy ch (ps.reverse ++ [idx]) with
    | false => rfl
    | true =>
      simp only [Chord.isSatisfiedBy, List.all_eq_true, List.contains_eq_mem, decide_eq_true_eq, List.mem_append,
        List.mem_reverse, List.mem_singleton] at hs
      rcases hs i hi with h | h
      · exact absurd h h2
      · exact absurd h h1
  unfold PKS.checkResolution
  split
  · rename_i he; rw [he] at hmem; simp at hmem
  · rename_i cs he
    rw [he, List.mem_singleton] at hmem
    rw [← hmem, hsat]
    rfl
  · rfl

/-- A second possible chord keeps the key waiting. -/
theorem check_ambiguous {init : List ChordState} {idx : Nat} {ps : List Nat} {id id' : Nat} {ch ch' : Chord}
    (hm : ⟨id, ch, false⟩ ∈ init) (hm' : ⟨id', ch', false⟩ ∈ init) (hid : id' ≠ id)
    (hps : ∀ k ∈ ps, k ∈ ch) (hps' : ∀ k ∈ ps, k ∈ ch') (hne : ps ≠ []) :
    (after init idx ps).checkResolution = none := by
  have h1 := mem_after (idx := idx) hm hps hne
  have h2 := mem_after (idx := idx) hm' hps' hne
  unfold PKS.checkResolution
  split
  · rename_i he; rw [he] at h1; simp at h1
  · rename_i cs he
    rw [he, List.mem_singleton] at h1 h2
    rw [← h1] at h2
    simp only [ChordState.mk.injEq] at h2
    exact absurd h2.1 hid
  · rfl

theorem enumFrom_pairwise {α : Type} (xs : List α) (n : Nat) : (enumFrom n xs).Pairwise (fun a b => a.1 ≠ b.1) := by
  induction xs generalizing n with
  | nil => simp [enumFrom]
  | cons x xs ih =>
    simp only [enumFrom, List.pairwise_cons]
    refine ⟨fun q hq => ?_, ih (n + 1)⟩
    obtain ⟨i, y⟩ := q
    have := (mem_enumFrom.1 hq).1
    simp only
    omega

theorem singleton_of_pairwise {l : List ChordState} (h : l.Pairwise (fun a b => a.index ≠ b.index)) {x : ChordState} (hx : x ∈ l)
    (hall : ∀ y ∈ l, y.index = x.index) : l = [x] := by
  match l, h, hx, hall with
  | [a], _, hx, _ => simp only [List.mem_singleton] at hx; rw [hx]
  | a :: b :: l, h, _, hall =>
    rw [List.pairwise_cons] at h
    exact absurd ((hall a (by simp)).trans (hall b (by simp)).symm) (h.1 b (by simp))

/-- The only possible chord, complete. -/
theorem check_only {init : List ChordState} (hpw : init.Pairwise (fun a b => a.index ≠ b.index)) {idx : Nat} {ps : List Nat} {id : Nat}
    {ch : Chord} (hm : ⟨id, ch, false⟩ ∈ init) (hps : ∀ k ∈ ps, k ∈ ch) (hne : ps ≠ []) (hcomp : ∀ i ∈ ch, i = idx ∨ i ∈ ps)
    (honly : ∀ cs ∈ init, (∀ k ∈ ps, k ∈ cs.chord) → cs.index = id) :
    (after init idx ps).checkResolution = some (.chord id) := by
  have hmem := mem_after (idx := idx) hm hps hne
  have hsat : Chord.isSatisfiedBy ch (ps.reverse ++ [idx]) = true := by
    simp only [Chord.isSatisfiedBy, List.all_eq_true, List.contains_eq_mem, decide_eq_true_eq, List.mem_append,
      List.mem_reverse, List.mem_singleton]
    intro i hi
    rcases hcomp i hi with h | h
    · exact .inr h
    · exact .inl h
  have : (after init idx ps).possible = [⟨id, ch, Chord.isSatisfiedBy ch (ps.reverse ++ [idx])⟩] := by
    apply singleton_of_pairwise _ hmem
    · intro y hy
      obtain ⟨c0, h0, h1, h2, h3, _⟩ := mem_possible hy
      exact h1 ▸ honly c0 h0 (h2 ▸ h3)
    · simp only [after, hne, if_false]
      rw [List.pairwise_map]
      exact hpw.sublist List.filter_sublist
  simp [PKS.checkResolution, this, hsat]

/-- The complete chord. -/
theorem satisfied_unique {init : List ChordState} (hinit : ∀ cs ∈ init, cs.isSatisfied = false) {idx : Nat} {ps : List Nat} {id : Nat}
    {ch : Chord} (hm : ⟨id, ch, false⟩ ∈ init) (hps : ∀ k ∈ ps, k ∈ ch) (hne : ps ≠ []) (hcomp : ∀ i ∈ ch, i = idx ∨ i ∈ ps)
    (huniq : ∀ cs ∈ init, (∀ k ∈ ps, k ∈ cs.chord) → (∀ i ∈ cs.chord, i = idx ∨ i ∈ ps) → cs.index = id) :
    (after init idx ps).satisfied = some id := by
  have hmem := mem_after (idx := idx) hm hps hne
  have hsat : Chord.isSatisfiedBy ch (ps.reverse ++ [idx]) = true := by
    simp only [Chord.isSatisfiedBy, List.all_eq_true, List.contains_eq_mem, decide_eq_true_eq, List.mem_append,
      List.mem_reverse, List.mem_singleton]
    intro i hi
    rcases hcomp i hi with h | h
    · exact .inr h
    · exact .inl h
  cases hs : (after init idx ps).satisfied with
  | none =>
    simp only [PKS.satisfied, Option.map_eq_none_iff, List.find?_eq_none] at hs
    exact absurd hsat (by simpa using hs _ hmem)
  | some id' =>
    obtain ⟨cs, h1, h2, h3, h4⟩ := satisfied_some hinit hs
    rw [← h2, huniq cs h1 h3 h4]

theorem spanInsertAll_mem {cap : Nat} {is s sp : List Nat} (h : spanInsertAll cap s is = .ok sp) (x : Nat) :
    x ∈ sp ↔ x ∈ s ∨ x ∈ is := by
  induction is generalizing s with
  | nil => simp only [spanInsertAll, Res.ok.injEq] at h; subst h; simp
  | cons i is ih =>
    obtain ⟨s', h1, h⟩ := Res.bind_eq_ok.1 h
    rw [ih h]
    unfold spanInsert at h1
    split at h1
    · rename_i hc
      simp only [Res.ok.injEq] at h1
      subst h1
      simp only [List.contains_eq_mem, decide_eq_true_eq] at hc
      simp only [List.mem_cons]
      constructor
      · rintro (h | h) <;> simp [h]
      · rintro (h | rfl | h)
        · exact .inl h
        · exact .inl hc
        · exact .inr h
    · obtain ⟨_, rfl⟩ := pushCap_eq_ok.1 h1
      simp [or_assoc]

theorem spanOf_mem {cap : Nat} {ps : List (Nat × Chord)} {s sp : List Nat} (h : spanOf cap s ps = .ok sp) (x : Nat) :
    x ∈ sp ↔ x ∈ s ∨ ∃ q ∈ ps, x ∈ q.2 := by
  induction ps generalizing s with
  | nil => simp only [spanOf, Res.ok.injEq] at h; subst h; simp
  | cons q ps ih =>
    obtain ⟨i, ch⟩ := q
    obtain ⟨s', h1, h⟩ := Res.bind_eq_ok.1 h
    rw [ih h, spanInsertAll_mem h1]
    simp [or_assoc]

/-- The keys of the pressed chords. -/
theorem span_mem {c : Ctx} {sp : List Nat} (h : c.span = .ok sp) (x : Nat) :
    x ∈ sp ↔ ∃ (id : Nat) (ch : Chord), c.pressedChords[id]? = some true ∧ c.config.chords[id]? = some ch ∧ x ∈ ch := by
  unfold Ctx.span at h
  obtain ⟨ps, hps, h⟩ := Res.bind_eq_ok.1 h
  rw [spanOf_mem h]
  simp only [List.not_mem_nil, false_or]
  constructor
  · rintro ⟨⟨id, ch⟩, hq, hx⟩
    have := (pressedFrom_mem hps).1 hq
    exact ⟨id, ch, by simpa using this.2.1, this.2.2, hx⟩
  · rintro ⟨id, ch, h1, h2, hx⟩
    exact ⟨(id, ch), (pressedFrom_mem hps).2 ⟨Nat.zero_le _, by simpa using h1, h2⟩, hx⟩

/-- The chord does not overlap with a pressed chord. -/
def Free (c : Ctx) (ch : Chord) : Prop :=
  ∀ (id' : Nat) (ch' : Chord), c.pressedChords[id']? = some true → c.config.chords[id']? = some ch' → ∀ i ∈ ch, i ∉ ch'

/-- Pressing a key of free chords: the chords it may become part of. -/
theorem chordsFor_free {c : Ctx} {idx id : Nat} {ch : Chord} {sp : List Nat} (hsp : c.span = .ok sp)
    (hch : c.config.chords[id]? = some ch) (hidx : idx ∈ ch) (hfree : Free c ch) :
    ∃ init, c.chordsFor idx = .ok init ∧ init.Pairwise (fun a b => a.index ≠ b.index) ∧
      (∀ cs, cs ∈ init ↔ cs.isSatisfied = false ∧ c.config.chords[cs.index]? = some cs.chord ∧ idx ∈ cs.chord ∧ Free c cs.chord) := by
  have hfr : ∀ x : Chord, Free c x ↔ ∀ i ∈ x, i ∉ sp := by
    intro x
    constructor
    · intro h i hi hm
      obtain ⟨id', ch', h1, h2, h3⟩ := (span_mem hsp i).1 hm
      exact h id' ch' h1 h2 i hi h3
    · intro h id' ch' h1 h2 i hi hi'
      exact h i hi ((span_mem hsp i).2 ⟨id', ch', h1, h2, hi'⟩)
  have hnone : c.pressedChordWithIndex idx = .ok none := by
    have hsp' := hsp
    unfold Ctx.span at hsp'
    obtain ⟨ps, hps, _⟩ := Res.bind_eq_ok.1 hsp'
    unfold Ctx.pressedChordWithIndex
    rw [hps]
    simp only [Res.ok_bind, Res.pure_eq, Res.ok.injEq, Option.map_eq_none_iff, List.find?_eq_none]
    rintro ⟨i, x⟩ hq hx
    have := (pressedFrom_mem hps).1 hq
    exact hfree i x (by simpa using this.2.1) this.2.2 idx hidx (by simpa [Chord.hasIndex] using hx)
  refine ⟨_, by unfold Ctx.chordsFor; rw [hnone, hsp]; rfl, ?_, ?_⟩
  · rw [List.pairwise_map]
    exact (enumFrom_pairwise _ _).sublist (List.filter_sublist.trans List.filter_sublist)
  · intro cs
    obtain ⟨i, x, b⟩ := cs
    simp only [List.mem_map, List.mem_filter, ChordState.mk.injEq, Prod.exists]
    constructor
    · rintro ⟨i', x', ⟨⟨h1, h2⟩, h3⟩, rfl, rfl, rfl⟩
      refine ⟨rfl, by simpa using (mem_enumFrom.1 h1).2, by simpa [Chord.hasIndex] using h2, ?_⟩
      rw [hfr]
      rcases Bool.or_eq_true_iff.1 h3 with h | h
      · rw [List.isEmpty_iff] at h; subst h; simp
      · simpa using h
    · rintro ⟨rfl, h1, h2, h3⟩
      refine ⟨i, x, ⟨⟨mem_enumFrom.2 ⟨Nat.zero_le _, by simpa using h1⟩, by simpa [Chord.hasIndex] using h2⟩, ?_⟩, rfl, rfl, rfl⟩
      rw [hfr] at h3
      simp only [Bool.or_eq_true]
      exact .inr (by simpa using h3)

theorem refOf_chord {keys : List (Key R)} {aux : List R} {idx : Nat} {c : Ctx} {r : Ref} {id : Nat} {ch : Chord}
    (hr : passthroughOf keys aux r ≠ none) (hch : c.config.chords[id]? = some ch) (hne : ch ≠ [])
    (hkey : ch.head? = some idx → ∃ k, (id, k) ∈ chordKeysOf keys r) :
    ∃ n, refOf keys aux idx c r (.chord id) = .ok n ∧
      ((ch.head? = some idx ∧ ∃ k, n = .key k ∧ (id, k) ∈ chordKeysOf keys r) ∨ (ch.head? ≠ some idx ∧ n = .noOp)) := by
  cases r with
  | chorded i =>
    simp only [passthroughOf, ne_eq, Option.map_eq_none_iff] at hr
    obtain ⟨k, hk⟩ := Option.ne_none_iff_exists'.1 hr
    obtain ⟨a, as, rfl⟩ := List.exists_cons_of_ne_nil hne
    simp only [refOf, Res.index, hk, Res.ok_bind, Key.refFor, hch, List.getElem?_cons_zero, List.head?_cons, Option.some.injEq] at hkey ⊢
    by_cases ha : a = idx
    · obtain ⟨kk, hkk⟩ := hkey ha
      rw [if_pos ha]
      simp only [chordKeysOf, hk, Option.map_some, Option.getD_some] at hkk ⊢
      cases hf : k.chords.find? (fun p => p.1 = id) with
      | none =>
        rw [List.find?_eq_none] at hf
        have := hf _ hkk
        simp at this
      | some q =>
        obtain ⟨j, rr⟩ := q
        have hm := List.mem_of_find?_eq_some hf
        have hi : j = id := by simpa using List.find?_some hf
        subst hi
        exact ⟨.key rr, rfl, .inl ⟨ha, rr, rfl, hm⟩⟩
    · rw [if_neg ha]
      exact ⟨.noOp, rfl, .inr ⟨by simpa using ha, rfl⟩⟩
  | auxiliary i =>
    simp only [passthroughOf] at hr
    obtain ⟨k, hk⟩ := Option.ne_none_iff_exists'.1 hr
    refine ⟨.noOp, by simp [refOf, Res.index, hk, auxRefFor], .inr ⟨fun h => ?_, rfl⟩⟩
    obtain ⟨_, h⟩ := hkey h
    simp [chordKeysOf] at h

/-- C38: the keys of a chord, pressed in any order, the first of them being the key `r` at index `idx`. Other
events than presses, the timeout and the release of `idx` may come in between. The key waits until the last one
is pressed. If the chord is the only one with these keys, it resolves to the chord then; if a larger chord is
possible, it waits and resolves to the chord at the timeout or when it is released. The chord's key appears if
`idx` is the chord's first index; other keys of the chord vanish. -/
theorem C38_any_order {keys : List (Key R)} {aux : List R} {idx : Nat} {c : Ctx} {r : Ref} {id : Nat} {ch : Chord} {order : List Nat}
    {sp : List Nat} (hr : passthroughOf keys aux r ≠ none) (hidle : c.sufficientIdle = true) (hsp : c.span = .ok sp)
    (hch : c.config.chords[id]? = some ch) (hnd : ch.Nodup) (hsize : ch.length ≤ c.config.maxChordSize) (h2 : 2 ≤ ch.length)
    (hfree : Free c ch) (hord : (idx :: order).Perm ch) (hkey : ch.head? = some idx → ∃ k, (id, k) ∈ chordKeysOf keys r)
    {evs : List (Event Ev)} (hev : presses evs = order) (hq : ∀ e ∈ evs, (∀ j, e ≠ .key j .timeout) ∧ e ≠ .input (.release idx)) :
    ∃ p n, sysNewPressedKey keys aux idx c r = .ok (.pending p, [SchEv.after c.config.timeout (.key idx .timeout)]) ∧
      ((ch.head? = some idx ∧ ∃ k, n = .key k ∧ (id, k) ∈ chordKeysOf keys r) ∨ (ch.head? ≠ some idx ∧ n = .noOp)) ∧
      (∀ pre, pre <+: evs → presses pre ≠ order → await keys aux idx c r p pre = .ok none) ∧
      ((∀ (id' : Nat) (ch' : Chord), c.config.chords[id']? = some ch' → Free c ch' → (∀ i ∈ ch, i ∈ ch') → id' = id) →
        await keys aux idx c r p evs = .ok (some (n, resolved idx (.chord id)))) ∧
      ((∃ (id' : Nat) (ch' : Chord), c.config.chords[id']? = some ch' ∧ Free c ch' ∧ (∀ i ∈ ch, i ∈ ch') ∧ id' ≠ id) →
        await keys aux idx c r p evs = .ok none ∧
        ((∀ (id' : Nat) (ch' : Chord), c.config.chords[id']? = some ch' → (∀ i, i ∈ ch' ↔ i ∈ ch) → id' = id) →
          ∀ e, (∃ j, e = .key j .timeout) ∨ e = .input (.release idx) →
            await keys aux idx c r p (evs ++ [e]) = .ok (some (n, resolved idx (.chord id))))) := by
  have hidx : idx ∈ ch := hord.mem_iff.1 (by simp)
  have hmemo : ∀ k ∈ order, k ∈ ch := fun k hk => hord.mem_iff.1 (by simp [hk])
  have hcomp : ∀ i ∈ ch, i = idx ∨ i ∈ order := fun i hi => List.mem_cons.1 (hord.mem_iff.2 hi)
  have hlen : order.length + 1 = ch.length := by simpa using hord.length_eq
  have hone : order ≠ [] := by rintro rfl; simp at hlen; omega
  have hond : (idx :: order).Nodup := hord.nodup_iff.2 hnd
  obtain ⟨init, hinit, hpw, hmem⟩ := chordsFor_free hsp hch hidx hfree
  have hself : ⟨id, ch, false⟩ ∈ init := (hmem _).2 ⟨rfl, hch, hidx, hfree⟩
  have hunsat : ∀ cs ∈ init, cs.isSatisfied = false := fun cs h => ((hmem cs).1 h).1
  have hchk0 : PKS.checkResolution ⟨[idx], init⟩ = none := by
    unfold PKS.checkResolution
    split
    · rename_i he; simp only at he; rw [he] at hself; simp at hself
    · rename_i cs he
      simp only at he
      rw [hunsat cs (by rw [he]; simp)]
      rfl
    · rfl
  have hpc : pressCommon c idx = .ok (.inr (after init idx [])) := by
    unfold pressCommon PKS.new pushCap
    rw [if_pos (by simp; omega)]
    simp only [Res.ok_bind, hinit, Res.pure_eq, hidle, if_true, List.nil_append, hchk0, after_nil]
  have hnew : sysNewPressedKey keys aux idx c r = .ok (.pending (after init idx []), [SchEv.after c.config.timeout (.key idx .timeout)]) := by
    cases r with
    | chorded i =>
      simp only [passthroughOf, ne_eq, Option.map_eq_none_iff] at hr
      obtain ⟨k, hk⟩ := Option.ne_none_iff_exists'.1 hr
      simp [sysNewPressedKey, Res.index, hk, Key.newPressedKey, hpc, timeoutEvents]
    | auxiliary i =>
      simp only [passthroughOf] at hr
      obtain ⟨k, hk⟩ := Option.ne_none_iff_exists'.1 hr
      simp [sysNewPressedKey, Res.index, hk, auxNewPressedKey, hpc, timeoutEvents]
  obtain ⟨n, hn, hnshape⟩ := refOf_chord hr hch (by rintro rfl; simp at h2) hkey
  -- strict prefixes of the order leave the chord incomplete
  have hinc : ∀ qs, qs ≠ [] → qs <+: order → qs ≠ order → (after init idx qs).checkResolution = none := by
    intro qs hqs hp hlt
    obtain ⟨t, ht⟩ := hp
    have htne : t ≠ [] := by rintro rfl; simp at ht; exact hlt ht
    obtain ⟨i, t', rfl⟩ := List.exists_cons_of_ne_nil htne
    have hnd2 := (List.nodup_cons.1 hond)
    rw [← ht] at hnd2
    refine check_incomplete (i := i) hself (fun k hk => hmemo k (by rw [← ht]; simp [hk])) hqs
      (hmemo i (by rw [← ht]; simp)) ?_ ?_
    · rintro rfl; exact hnd2.1 (by simp)
    · intro hm
      exact (List.nodup_append.1 hnd2.2).2.2 i hm i (by simp) rfl
  have hpre : ∀ pre, pre <+: evs → presses pre ≠ order → play c.config.maxChordSize idx (after init idx []) pre = .ok none := by
    intro pre hp hne
    obtain ⟨post, rfl⟩ := hp
    rw [presses_append] at hev
    apply play_quiet (fun e he => hq e (by simp [he]))
    · have : (presses pre).length ≤ order.length := by rw [← hev]; simp
      simp only [List.nil_append]
      omega
    · intro qs hqs hpq
      rw [List.nil_append]
      obtain ⟨t, ht⟩ := hpq
      refine hinc qs hqs ⟨t ++ presses post, by rw [← List.append_assoc, ht, hev]⟩ ?_
      intro he
      apply hne
      have hl := congrArg List.length hev
      have hl2 := congrArg List.length ht
      have hl3 := congrArg List.length he
      simp only [List.length_append] at hl hl2
      have : t = [] := List.length_eq_zero_iff.1 (by omega)
      rw [← ht, this, List.append_nil, he]
  refine ⟨after init idx [], n, hnew, hnshape, fun pre hp hne => await_none_of_play hr (hpre pre hp hne), ?_, ?_⟩
  · intro honly
    refine await_of_play hr ?_ hn
    -- split at the last press
    have hsplit : ∀ (evs : List (Event Ev)), presses evs ≠ [] →
        ∃ pre k post, evs = pre ++ .input (.press k) :: post ∧ presses post = [] := by
      intro l
      induction l with
      | nil => intro h; exact absurd rfl h
      | cons e es ih =>
        intro h
        by_cases hes : presses es = []
        · cases e with
          | input x =>
            cases x with
            | press k => exact ⟨[], k, es, rfl, hes⟩
            | release k => exact absurd hes h
            | vpress k => exact absurd hes h
            | vrelease k => exact absurd hes h
          | key j x => exact absurd hes h
          | keymap x => exact absurd hes h
        · obtain ⟨pre, k, post, rfl, h2⟩ := ih hes
          exact ⟨e :: pre, k, post, rfl, h2⟩
    obtain ⟨pre, k, post, rfl, hpost⟩ := hsplit evs (by rw [hev]; exact hone)
    have hpk : presses pre ++ [k] = order := by
      rw [← hev, presses_append, presses_cons, hpost]; simp [presses]
    have hwait := hpre pre (List.prefix_append _ _) (by
      intro he
      have := congrArg List.length hpk
      rw [he] at this
      simp at this)
    rw [play_append hwait, List.nil_append]
    unfold play
    have hlt : (after init idx (presses pre)).pressedIndices.length < c.config.maxChordSize := by
      have := congrArg List.length hpk
      simp [after] at this ⊢
      omega
    obtain ⟨⟨p', res⟩, he⟩ : ∃ q, (after init idx (presses pre)).handleEvent c.config.maxChordSize idx (.input (.press k)) = .ok q := by
      simp only [PKS.handleEvent, hlt, if_true]
      exact ⟨_, rfl⟩
    rw [he]
    obtain ⟨_, h1⟩ := handleEvent_after he
    have hres : res = some (.chord id) := by
      rcases h1 with ⟨h1 | h1, _⟩ | ⟨k', hk', _, hres⟩ | ⟨_, _, h1, _⟩
      · obtain ⟨j, h1⟩ := h1; simp at h1
      · simp at h1
      · simp only [Event.input.injEq, InputEvent.press.injEq] at hk'
        subst hk'
        rw [hpk, check_only hpw hself hmemo hone hcomp] at hres
        · simpa [settle] using hres
        · intro cs hcs hall
          have h3 := (hmem cs).1 hcs
          exact honly cs.index cs.chord h3.2.1 h3.2.2.2 (fun i hi => by
            rcases hcomp i hi with rfl | h
            · exact h3.2.2.1
            · exact hall i h)
      · exact absurd rfl (h1 k)
    subst hres
    rfl
  · rintro ⟨id', ch', h1, h2', h3, h4⟩
    have hother : ⟨id', ch', false⟩ ∈ init := (hmem _).2 ⟨rfl, h1, h3 idx hidx, h2'⟩
    have hwait : play c.config.maxChordSize idx (after init idx []) evs = .ok none := by
      apply play_quiet hq
      · simp only [List.nil_append, hev]; omega
      · intro qs hqs hp
        rw [hev] at hp
        rw [List.nil_append]
        have hsub : ∀ k ∈ qs, k ∈ ch := fun k hk => hmemo k (hp.subset hk)
        exact check_ambiguous hself hother h4 hsub (fun k hk => h3 k (hsub k hk)) hqs
    refine ⟨await_none_of_play hr hwait, fun huniq e he => await_of_play hr ?_ hn⟩
    rw [play_append hwait, List.nil_append, hev]
    have hs : (after init idx order).satisfied = some id := by
      apply satisfied_unique hunsat hself hmemo hone hcomp
      intro cs hcs h5 h6
      have h7 := (hmem cs).1 hcs
      apply huniq cs.index cs.chord h7.2.1
      intro i
      constructor
      · intro hi
        rcases h6 i hi with rfl | h
        · exact hidx
        · exact hmemo i h
      · intro hi
        rcases hcomp i hi with rfl | h
        · exact h7.2.2.1
        · exact h5 i h
    rcases he with ⟨j, rfl⟩ | rfl
    · simp [play, PKS.handleEvent, hs]
    · simp [play, PKS.handleEvent, hs]

end Verif.Chorded
