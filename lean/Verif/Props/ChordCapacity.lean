import Verif.Props.Chorded
import Verif.Lemmas.ChordIdx
import Verif.Example

/-!
# C40: when the bookkeeping of chords overflows

The full claim — no panic for any keys held, up to 16 — is false; see `C40_refuted`. Proved instead: the context
never panics while no more than `MAX_PRESSED_INDICES` keys are held and chords resolve only while all of their
keys are held; and a waiting key never panics as long as no key is pressed twice while it waits.
-/

namespace Verif.Chorded

/-! ## Specification -/

/-- The keys held after one more event. -/
def hold (s : List Nat) : Event Ev → List Nat
  | .input (.press i) => if i ∈ s then s else s ++ [i]
  | .input (.release i) => s.filter (fun j => j != i)
  | _ => s

/-- The keys held after these events. -/
def heldAfter (evs : List (Event Ev)) : List Nat := evs.foldl hold []

/-! ## The context -/

theorem nodup_length_le {l s : List Nat} (hl : l.Nodup) (h : ∀ x ∈ l, x ∈ s) : l.length ≤ s.length := by
  induction l generalizing s with
  | nil => simp
  | cons a l ih =>
    have ha := h a (by simp)
    have hn := List.nodup_cons.1 hl
    have := ih (s := s.erase a) hn.2 (fun x hx => (List.mem_erase_of_ne (by rintro rfl; exact hn.1 hx)).2 (h x (by simp [hx])))
    rw [List.length_erase_of_mem ha] at this
    have := List.length_pos_of_mem ha
    simp only [List.length_cons]
    omega

theorem spanInsertAll_ok {cap : Nat} {s is sp : List Nat} (hsp : sp.Nodup) (hs : ∀ x ∈ sp, x ∈ s) (hi : ∀ x ∈ is, x ∈ s)
    (hl : s.length ≤ cap) : ∃ sp', spanInsertAll cap sp is = .ok sp' ∧ sp'.Nodup ∧ ∀ x ∈ sp', x ∈ s := by
  induction is generalizing sp with
  | nil => exact ⟨sp, rfl, hsp, hs⟩
  | cons i is ih =>
    unfold spanInsertAll spanInsert
    by_cases hc : i ∈ sp
    · rw [if_pos (by simpa using hc)]
      exact ih hsp hs (fun x hx => hi x (by simp [hx]))
    · rw [if_neg (by simpa using hc)]
      have hnd : (sp ++ [i]).Nodup := by
        rw [List.nodup_append]
        exact ⟨hsp, by simp, by intro a ha b hb; simp at hb; subst hb; rintro rfl; exact hc ha⟩
      have hsub : ∀ x ∈ sp ++ [i], x ∈ s := by
        intro x hx
        rcases List.mem_append.1 hx with hx | hx
        · exact hs x hx
        · simp at hx; subst hx; exact hi x (by simp)
      have hlen := nodup_length_le hnd hsub
      unfold pushCap
      rw [if_pos (by simp at hlen; omega)]
      exact ih hnd hsub (fun x hx => hi x (by simp [hx]))

theorem spanOf_ok {cap : Nat} {s sp : List Nat} {ps : List (Nat × Chord)} (hsp : sp.Nodup) (hs : ∀ x ∈ sp, x ∈ s)
    (hi : ∀ q ∈ ps, ∀ x ∈ q.2, x ∈ s) (hl : s.length ≤ cap) : ∃ sp', spanOf cap sp ps = .ok sp' := by
  induction ps generalizing sp with
  | nil => exact ⟨sp, rfl⟩
  | cons q ps ih =>
    obtain ⟨i, ch⟩ := q
    obtain ⟨sp', h1, h2, h3⟩ := spanInsertAll_ok (is := ch) hsp hs (fun x hx => hi (i, ch) (by simp) x hx) hl
    unfold spanOf
    rw [h1]
    exact ih h2 h3 (fun q hq => hi q (by simp [hq]))

theorem pressedFrom_ok {chords : List Chord} {bs : List Bool} {n : Nat}
    (h : ∀ i, bs[i]? = some true → ∃ ch, chords[n + i]? = some ch) : ∃ ps, pressedFrom chords n bs = .ok ps := by
  induction bs generalizing n with
  | nil => exact ⟨[], rfl⟩
  | cons b bs ih =>
    obtain ⟨ps, hps⟩ := ih (n := n + 1) (fun i hi => by
      have := h (i + 1) (by simpa using hi)
      rwa [show n + 1 + i = n + (i + 1) by omega])
    cases b with
    | false => exact ⟨ps, hps⟩
    | true =>
      obtain ⟨ch, hch⟩ := h 0 rfl
      rw [Nat.add_zero] at hch
      exact ⟨(n, ch) :: ps, by simp [pressedFrom, Res.index, hch, hps]⟩

/-- The context is in order while the keys `s` are held. -/
structure Tidy (maxChords : Nat) (cfg : Config) (c : Ctx) (s : List Nat) : Prop where
  config : c.config = cfg
  idx : IdxOk c.pressedIndices s cfg.maxPressed
  nodup : s.Nodup
  flags : c.pressedChords.length = maxChords
  active : ∀ id : Nat, c.pressedChords[id]? = some true → ∃ ch, cfg.chords[id]? = some ch ∧ ∀ i ∈ ch, i ∈ s
  latest : ∀ id, c.latest = some id → ∃ ch, cfg.chords[id]? = some ch

theorem clearChords_length (idx : Nat) (chs : List Chord) (bs : List Bool) : (clearChords idx chs bs).length = bs.length := by
  induction chs generalizing bs with
  | nil => cases bs <;> rfl
  | cons ch chs ih => cases bs <;> simp [clearChords, ih]

theorem Tidy.span {maxChords : Nat} {cfg : Config} {c : Ctx} {s : List Nat} (hcfg : c.config = cfg)
    (ha : ∀ id : Nat, c.pressedChords[id]? = some true → ∃ ch, cfg.chords[id]? = some ch ∧ ∀ i ∈ ch, i ∈ s)
    (hl : s.length ≤ cfg.maxPressed) : ∃ sp, c.span = .ok sp := by
  obtain ⟨ps, hps⟩ := pressedFrom_ok (chords := c.config.chords) (bs := c.pressedChords) (n := 0) (fun i hi => by
    obtain ⟨ch, hch, _⟩ := ha i hi
    exact ⟨ch, by simpa [hcfg] using hch⟩)
  have hq : ∀ q ∈ ps, ∀ x ∈ q.2, x ∈ s := by
    intro q hq x hx
    have hm := (pressedFrom_mem hps).1 hq
    obtain ⟨ch, hch, hall⟩ := ha q.1 (by simpa using hm.2.1)
    rw [hcfg, hch] at hm
    have := hm.2.2
    simp only [Option.some.injEq] at this
    exact hall x (this ▸ hx)
  obtain ⟨sp, hsp⟩ := spanOf_ok (cap := c.config.maxPressed) (sp := []) (by simp) (by simp) hq (by rw [hcfg]; exact hl)
  refine ⟨sp, ?_⟩
  unfold Ctx.span Ctx.pressed
  rw [hps]
  exact hsp

theorem Tidy.step {maxChords : Nat} {cfg : Config} {c : Ctx} {s : List Nat} (h : Tidy maxChords cfg c s) {e : Event Ev}
    (hl : (hold s e).length ≤ cfg.maxPressed) (hk : ∀ i, e = .input (.press i) → i < 65535)
    (hr : ∀ j id, e = .key j (.chordResolved (.chord id)) → id < maxChords ∧ ∃ ch, cfg.chords[id]? = some ch ∧ ∀ i ∈ ch, i ∈ s) :
    ∃ c', c.handleEvent e = .ok c' ∧ Tidy maxChords cfg c' (hold s e) := by
  cases e with
  | keymap e => exact ⟨c, rfl, h⟩
  | key j e =>
    cases e with
    | timeout => exact ⟨c, rfl, h⟩
    | chordResolved r =>
      cases r with
      | passthrough => exact ⟨c, rfl, h⟩
      | chord id =>
        obtain ⟨h1, h2⟩ := hr j id rfl
        refine ⟨{ c with pressedChords := c.pressedChords.set id true, latest := some id }, ?_, ?_⟩
        · simp only [Ctx.handleEvent]
          rw [if_pos (by rw [h.flags]; exact h1)]
        · refine ⟨h.config, h.idx, h.nodup, by simpa using h.flags, fun i hi => ?_, fun i hi => ?_⟩
          · by_cases he : id = i
            · subst he; exact h2
            · simp only at hi
              rw [List.getElem?_set_ne he] at hi
              exact h.active i hi
          · simp only [Option.some.injEq] at hi
            subst hi
            exact ⟨_, h2.choose_spec.1⟩
  | input e =>
    cases e with
    | vpress k => exact ⟨c, rfl, h⟩
    | vrelease k => exact ⟨c, rfl, h⟩
    | release k =>
      refine ⟨_, rfl, ?_⟩
      have hrel := h.idx.release (idx := k) h.nodup
      have hc : (c.releaseIndex k).config = c.config ∧ (c.releaseIndex k).pressedChords = c.pressedChords ∧
          (c.releaseIndex k).latest = c.latest ∧
          (c.releaseIndex k).pressedIndices =
            (if isFound k c.pressedIndices then removePressed (findPos k c.pressedIndices) c.pressedIndices else c.pressedIndices) := by
        unfold Ctx.releaseIndex
        split <;> simp
      refine ⟨hc.1.trans h.config, ?_, h.nodup.filter _, ?_, fun id hid => ?_, fun id hid => ?_⟩
      · simp only [hc.2.2.2]
        exact hrel
      · simp only [hc.2.1, clearChords_length]
        exact h.flags
      · simp only [hc.1, hc.2.1] at hid
        obtain ⟨h1, h2⟩ := clearChords_get hid
        obtain ⟨ch, hch, hall⟩ := h.active id h1
        refine ⟨ch, hch, fun i hi => ?_⟩
        simp only [hold, List.mem_filter, bne_iff_ne, ne_eq]
        refine ⟨hall i hi, ?_⟩
        rintro rfl
        exact h2 ch (by rw [h.config]; exact hch) hi
      · simp only [hc.2.2.1] at hid
        exact h.latest id hid
    | press k =>
      have hpi : ∃ d, c.pressIndex k = .ok d ∧ IdxOk d.pressedIndices (hold s (.input (.press k))) cfg.maxPressed ∧
          d.config = c.config ∧ d.pressedChords = c.pressedChords ∧ d.latest = c.latest := by
        simp only [hold] at hl ⊢
        by_cases hm : k ∈ s
        · rw [if_pos hm]
          rcases h.idx.found hm with hf | he
          · exact ⟨c, by simp [Ctx.pressIndex, hf], h.idx, rfl, rfl, rfl⟩
          · refine ⟨c, ?_, h.idx, rfl, rfl, rfl⟩
            unfold Ctx.pressIndex
            obtain ⟨cf, pi, pc, il, ig, la⟩ := c
            simp only at he
            subst he
            simp [isFound, findPos, insertPressed]
        · rw [if_neg hm] at hl ⊢
          obtain ⟨hf, xs, hx, hok⟩ := h.idx.press hm (hk k rfl) (by simp at hl; omega)
          exact ⟨{ c with pressedIndices := xs }, by simp [Ctx.pressIndex, hf, hx], hok, rfl, rfl, rfl⟩
      obtain ⟨d, hd, hidx, hdc, hdp, hdl⟩ := hpi
      have hsub : ∀ x ∈ s, x ∈ hold s (.input (.press k)) := by
        intro x hx
        simp only [hold]
        split <;> simp [hx]
      have hnd : (hold s (.input (.press k))).Nodup := by
        simp only [hold]
        split
        · exact h.nodup
        · rename_i hm
          rw [List.nodup_append]
          exact ⟨h.nodup, by simp, by intro a ha b hb; simp at hb; subst hb; rintro rfl; exact hm ha⟩
      have hact : ∀ id : Nat, d.pressedChords[id]? = some true →
          ∃ ch, cfg.chords[id]? = some ch ∧ ∀ i ∈ ch, i ∈ hold s (.input (.press k)) := by
        intro id hid
        rw [hdp] at hid
        obtain ⟨ch, hch, hall⟩ := h.active id hid
        exact ⟨ch, hch, fun i hi => hsub i (hall i hi)⟩
      obtain ⟨sp, hsp⟩ := Tidy.span (maxChords := maxChords) (hdc.trans h.config) hact hl
      have hflags : d.pressedChords.length = maxChords := by rw [hdp]; exact h.flags
      have hlat : ∀ id, d.latest = some id → ∃ ch, cfg.chords[id]? = some ch := by rw [hdl]; exact h.latest
      simp only [Ctx.handleEvent, hd, Res.ok_bind, hsp]
      split
      · exact ⟨_, rfl, hdc.trans h.config, hidx, hnd, hflags, hact, hlat⟩
      · split
        · rename_i id hid
          obtain ⟨ch, hch⟩ := hlat id hid
          have hi : Res.index d.config.chords id = .ok ch := by
            simp [Res.index, hdc, h.config, hch]
          rw [hi]
          exact ⟨_, rfl, hdc.trans h.config, hidx, hnd, hflags, hact, hlat⟩
        · exact ⟨_, rfl, hdc.trans h.config, hidx, hnd, hflags, hact, by simp⟩

/-- C40, in part: over any history in which no more than `MAX_PRESSED_INDICES` keys are held at any time, and
chords resolve only while all of their keys are held, the context never panics.

What is missing: with `MAX_PRESSED_INDICES` below 16 the 16 keys of the claim are too many (`C40_refuted`), and
a chord may resolve after one of its keys was released again (`C40_released_member`). -/
theorem C40_context_partial {maxChords : Nat} {cfg : Config} {evs : List (Event Ev)}
    (hfew : ∀ pre, pre <+: evs → (heldAfter pre).length ≤ cfg.maxPressed)
    (hkeys : ∀ i, .input (.press i) ∈ evs → i < 65535)
    (hres : ∀ pre j id post, evs = pre ++ .key j (.chordResolved (.chord id)) :: post →
      id < maxChords ∧ ∃ ch, cfg.chords[id]? = some ch ∧ ∀ i ∈ ch, i ∈ heldAfter pre) :
    ∃ c, (Ctx.fromConfig maxChords cfg).handleAll evs = .ok c := by
  suffices ∀ (post pre : List (Event Ev)) (c : Ctx), evs = pre ++ post → Tidy maxChords cfg c (heldAfter pre) →
      ∃ c', c.handleAll post = .ok c' by
    refine this evs [] _ rfl ⟨rfl, IdxOk.new (.inr (Nat.le_refl _)), by simp [heldAfter], by simp [Ctx.fromConfig], ?_, ?_⟩
    · intro id hid; simp [Ctx.fromConfig, List.getElem?_replicate] at hid
    · intro id hid; simp [Ctx.fromConfig] at hid
  intro post
  induction post with
  | nil => intro pre c _ _; exact ⟨c, rfl⟩
  | cons e post ih =>
    intro pre c he ht
    have hsnoc : heldAfter (pre ++ [e]) = hold (heldAfter pre) e := by simp [heldAfter]
    obtain ⟨c', h1, h2⟩ := ht.step (e := e)
      (by rw [← hsnoc]; exact hfew _ ⟨post, by rw [he]; simp⟩)
      (fun i hi => hkeys i (by rw [he, hi]; simp))
      (fun j id hj => hres pre j id post (by rw [he, hj]))
    obtain ⟨c'', h3⟩ := ih (pre ++ [e]) c' (by rw [he]; simp) (by rw [hsnoc]; exact h2)
    exact ⟨c'', by unfold Ctx.handleAll; rw [h1]; exact h3⟩

/-! ## A waiting key -/

theorem subset_of_length_le {l s : List Nat} (hl : l.Nodup) (h : ∀ x ∈ l, x ∈ s) (hle : s.length ≤ l.length) : ∀ x ∈ s, x ∈ l := by
  intro x hx
  by_cases hm : x ∈ l
  · exact hm
  · have := nodup_length_le (l := x :: l) (s := s) (List.nodup_cons.2 ⟨hm, hl⟩) (by
      intro y hy
      rcases List.mem_cons.1 hy with rfl | hy
      · exact hx
      · exact h y hy)
    simp at this
    omega

theorem pending_pairwise {c : Ctx} {idx : Nat} {init : List ChordState} (h : c.chordsFor idx = .ok init) :
    init.Pairwise (fun a b => a.index ≠ b.index) := by
  rcases chordsFor_cases h with ⟨id, ch, rfl, _⟩ | ⟨sp, _, rfl⟩
  · simp
  · rw [List.pairwise_map]
    exact (enumFrom_pairwise _ _).sublist (List.filter_sublist.trans List.filter_sublist)

/-- C40, in part: a waiting key never panics, provided no key is pressed twice while it waits, all chords of the
table have two to `MAX_CHORD_SIZE` keys, no two chords have the same keys, and the key knows its chords.

What is missing: keys that are released and pressed again while it waits (`C40_refuted_retap`). -/
theorem C40_pending_partial {keys : List (Key R)} {aux : List R} {idx : Nat} {c : Ctx} {r : Ref} {p : PKS} {es : KeyEvents Ev}
    (h : sysNewPressedKey keys aux idx c r = .ok (.pending p, es))
    (hsizes : ∀ ch ∈ c.config.chords, ch.Nodup ∧ 2 ≤ ch.length ∧ ch.length ≤ c.config.maxChordSize)
    (hdist : ∀ (id id' : Nat) (ch ch' : Chord), c.config.chords[id]? = some ch → c.config.chords[id']? = some ch' →
      (∀ i, i ∈ ch ↔ i ∈ ch') → id = id')
    (hknown : ∀ (id : Nat) (ch : Chord), c.config.chords[id]? = some ch → ch.head? = some idx → ∃ k, (id, k) ∈ chordKeysOf keys r)
    {evs : List (Event Ev)} (hnd : (idx :: presses evs).Nodup) : ∃ o, await keys aux idx c r p evs = .ok o := by
  obtain ⟨hr, _, hp⟩ := pending_start h
  obtain ⟨init, hcf, rfl, hinit, hne⟩ := pressCommon_pending hp
  have hpw := pending_pairwise hcf
  have hplay : ∀ (evs : List (Event Ev)) (ps : List Nat), (idx :: (ps ++ presses evs)).Nodup →
      (ps = [] ∨ (after init idx ps).checkResolution = none) → ∃ o, play c.config.maxChordSize idx (after init idx ps) evs = .ok o := by
    intro evs
    induction evs with
    | nil => intro ps _ _; exact ⟨none, rfl⟩
    | cons e evs ih =>
      intro ps hnd hw
      have hok : ∃ q, (after init idx ps).handleEvent c.config.maxChordSize idx e = .ok q := by
        cases e with
        | key j e => cases e <;> exact ⟨_, rfl⟩
        | keymap e => exact ⟨_, rfl⟩
        | input e =>
          cases e with
          | release k => simp only [PKS.handleEvent]; split <;> exact ⟨_, rfl⟩
          | vpress k => exact ⟨_, rfl⟩
          | vrelease k => exact ⟨_, rfl⟩
          | press k =>
            have hlt : ps.length + 1 < c.config.maxChordSize := by
              by_cases hps : ps = []
              · subst hps
                obtain ⟨cs, rest, rfl⟩ := List.exists_cons_of_ne_nil hne
                have := hsizes cs.chord (List.mem_of_getElem? (hinit cs (by simp)).2.1)
                simp; omega
              · have hck := hw.resolve_left hps
                by_cases hlt : ps.length + 1 < c.config.maxChordSize
                · exact hlt
                · exfalso
                  have hndp : (idx :: ps).Nodup := by
                    have h1 := List.nodup_cons.1 hnd
                    refine List.nodup_cons.2 ⟨fun hm => h1.1 (by simp [hm]), (List.nodup_append.1 h1.2).1⟩
                  -- every possible chord consists of the pressed keys
                  have hfull : ∀ cs ∈ init, (∀ k ∈ ps, k ∈ cs.chord) → ∀ i ∈ cs.chord, i = idx ∨ i ∈ ps := by
                    intro cs hcs hall i hi
                    have hs := hsizes cs.chord (List.mem_of_getElem? (hinit cs hcs).2.1)
                    have := subset_of_length_le hndp (s := cs.chord) (by
                      intro x hx
                      rcases List.mem_cons.1 hx with rfl | hx
                      · exact (hinit cs hcs).2.2
                      · exact hall x hx) (by simp; omega) i hi
                    exact List.mem_cons.1 this
                  have hposs : (after init idx ps).possible ≠ [] := by
                    intro he
                    simp [PKS.checkResolution, he] at hck
                  obtain ⟨cs, rest, hcs⟩ := List.exists_cons_of_ne_nil hposs
                  obtain ⟨c0, h0, h1, h2, h3, _⟩ := mem_possible (cs := cs) (by rw [hcs]; simp)
                  rw [← h2] at h3
                  have hc0 : (⟨c0.index, c0.chord, false⟩ : ChordState) ∈ init := by
                    have := (hinit c0 h0).1
                    obtain ⟨a, b, d⟩ := c0
                    simp only at this
                    subst this
                    exact h0
                  have := check_only hpw hc0 h3 hps (hfull c0 h0 h3) (fun cs' hcs' hall => by
                    apply hdist cs'.index c0.index cs'.chord c0.chord (hinit cs' hcs').2.1 (hinit c0 h0).2.1
                    intro i
                    constructor
                    · intro hi
                      rcases hfull cs' hcs' hall i hi with rfl | h
                      · exact (hinit c0 h0).2.2
                      · exact h3 i h
                    · intro hi
                      rcases hfull c0 h0 h3 i hi with rfl | h
                      · exact (hinit cs' hcs').2.2
                      · exact hall i h)
                  rw [this] at hck
                  simp at hck
            have : (after init idx ps).pressedIndices.length < c.config.maxChordSize := by simpa [after] using hlt
            simp only [PKS.handleEvent, this, if_true]
            exact ⟨_, rfl⟩
      obtain ⟨⟨p', res⟩, he⟩ := hok
      obtain ⟨rfl, h1⟩ := handleEvent_after he
      unfold play
      rw [he]
      cases res with
      | some r => exact ⟨_, rfl⟩
      | none =>
        apply ih
        · rw [List.append_assoc, ← presses_cons]; exact hnd
        · rcases h1 with ⟨_, h1⟩ | ⟨k, rfl, _, h1⟩ | ⟨_, _, h1, _⟩
          · simp at h1
          · right
            have : ps ++ presses [Event.input (.press k)] = ps ++ [k] := rfl
            rw [this]
            generalize (after init idx (ps ++ [k])).checkResolution = a at h1
            generalize (after init idx ps).satisfied = b at h1
            rcases a with _ | _ | _
            · rfl
            · simp [settle] at h1
            · cases b <;> simp [settle] at h1
          · have : presses [e] = [] := by
              cases e with
              | input x =>
                cases x with
                | press k => exact absurd rfl (h1 k)
                | _ => rfl
              | _ => rfl
            rw [this, List.append_nil]
            exact hw
  obtain ⟨o, ho⟩ := hplay evs [] (by simpa using hnd) (.inl rfl)
  cases o with
  | none => exact ⟨none, await_none_of_play hr ho⟩
  | some res =>
    cases res with
    | passthrough =>
      obtain ⟨k, hk⟩ := Option.ne_none_iff_exists'.1 hr
      exact ⟨_, await_of_play hr ho (refOf_passthrough hk)⟩
    | chord id =>
      obtain ⟨cs, h1, h2, _⟩ := play_sound (fun cs hcs => (hinit cs hcs).1) ho
      subst h2
      have hcs := (hinit cs h1).2.1
      obtain ⟨n, hn, _⟩ := refOf_chord hr hcs (by
        intro he
        have := hsizes cs.chord (List.mem_of_getElem? hcs)
        rw [he] at this
        simp at this) (hknown cs.index cs.chord hcs)
      exact ⟨_, await_of_play hr ho hn⟩

end Verif.Chorded

namespace Verif.ChordDemo

open Comp

/-! ## Keymaps that overflow, and examples -/

/-- The keys of a keymap with three chords of two keys each, and of one with a chord of three keys. -/
def K : Keys where
  automation := []
  callback := []
  chorded := [⟨[(0, .keyboard (.keyCode 30))], .keyboard (.keyCode 4)⟩, ⟨[(1, .keyboard (.keyCode 31))], .keyboard (.keyCode 6)⟩,
    ⟨[(2, .keyboard (.keyCode 32))], .keyboard (.keyCode 8)⟩]
  chordedAux := [.keyboard (.keyCode 5), .keyboard (.keyCode 7), .keyboard (.keyCode 9)]
  keyboard := []
  layerMods := []
  layered := []
  sticky := []
  tapDance := []
  tapHold := []

/-- The configuration for a chord table. As in the generated keymaps, `MAX_PRESSED_INDICES` is twice
`MAX_CHORD_SIZE` (src/keymap.rs, tests/*/expected.rs). -/
def config (chords : List Chorded.Chord) (size : Nat) : Config where
  automation := ⟨[], 0⟩
  chorded := ⟨200, chords, none, size, 2 * size⟩
  sticky := .onModifiedKeyRelease
  tapDance := ⟨200⟩
  tapHold := ⟨200, .ignore, none⟩
  layerCount := 0
  maxChords := chords.length

/-- Three chords of two keys. -/
def pairs : Cfg Ref Ev Ctx PKS KS :=
  ⟨system K, [.chorded (.chorded 0), .chorded (.auxiliary 0), .chorded (.chorded 1), .chorded (.auxiliary 1),
    .chorded (.chorded 2), .chorded (.auxiliary 2)], Search.std⟩

/-- One chord of three keys. -/
def triple : Cfg Ref Ev Ctx PKS KS :=
  ⟨system K, [.chorded (.chorded 0), .chorded (.auxiliary 0), .chorded (.auxiliary 1)], Search.std⟩

def start (chords : List Chorded.Chord) (size : Nat) : KM Ref Ev Ctx PKS KS := KM.new (Ctx.fromConfig (config chords size))

def press (i : Nat) : List Op := [.input (.press i), .tick]

def release (i : Nat) : List Op := [.input (.release i), .tick]

end Verif.ChordDemo

namespace Verif

open ChordDemo

/-- C40 is false: in a keymap with chords of two keys, holding five plain keys panics (`insert_pressed_index`
writes past the array of four). -/
theorem C40_refuted :
    (fun _ => ()) <$> run Ex.C 9 Ex.km0 (press 0 ++ press 1 ++ press 12 ++ press 13 ++ press 14) = .panic .capacity := by
  decide +kernel

/-- Holding four of them does not. -/
example : (fun km => km.pressed.length) <$> run Ex.C 9 Ex.km0 (press 0 ++ press 1 ++ press 12 ++ press 13) = .ok 4 := by
  decide +kernel

/-- C40 is false: three chords of two keys, all held, panic (the span of the pressed chords has room for four
indices). -/
theorem C40_refuted_span :
    (fun _ => ()) <$> run pairs 9 (start [[0, 1], [2, 3], [4, 5]] 2)
      (press 5 ++ press 4 ++ press 3 ++ press 2 ++ press 1 ++ press 0 ++ List.replicate 10 .tick) = .panic .capacity := by
  decide +kernel

/-- C40 is false: tapping a key of the chord repeatedly while the first one waits panics, with two keys held at
most (`pressed_indices` of the waiting key has room for three presses). -/
theorem C40_refuted_retap :
    (fun _ => ()) <$> run triple 9 (start [[0, 1, 2]] 3) (press 0 ++ press 1 ++ release 1 ++ press 1 ++ release 1 ++ press 1) = .panic .capacity := by
  decide +kernel

/-- A chord resolves although one of its keys was released again before. -/
theorem C40_released_member :
    (fun km => km.pressedKeys triple) <$>
      run triple 9 (start [[0, 1, 2]] 3) (press 0 ++ press 1 ++ release 1 ++ press 2 ++ List.replicate 10 .tick) =
      .ok (.ok [KeyOutput.fromKeyCode 30]) := by
  decide +kernel

namespace Chorded

/-- A history for `C40_context_partial`: a chord of two keys, with a third key held. -/
example : ∃ c, (Ctx.fromConfig 1 ⟨200, [[10, 11]], none, 2, 4⟩).handleAll
    [.input (.press 3), .input (.press 11), .input (.press 10), .key 11 (.chordResolved (.chord 0)), .input (.press 4),
      .input (.release 10), .input (.press 10)] = .ok c := by
  apply C40_context_partial
  · intro pre hp
    have := hp.length_le
    rw [List.prefix_iff_eq_take] at hp
    rw [hp]
    generalize pre.length = n at this
    simp only [List.length_cons, List.length_nil] at this
    have : ∀ n : Fin 8, (heldAfter (List.take n.1 [.input (.press 3), .input (.press 11), .input (.press 10),
      .key 11 (.chordResolved (.chord 0)), .input (.press 4), .input (.release 10), .input (.press 10)])).length ≤ 4 := by
      decide
    exact this ⟨n, by omega⟩
  · intro i hi
    simp only [List.mem_cons, Event.input.injEq, InputEvent.press.injEq, reduceCtorEq, false_or, List.not_mem_nil, or_false] at hi
    omega
  · intro pre j id post h
    match pre, h with
    | [a, b, c], h =>
      simp only [List.cons_append, List.nil_append, List.cons.injEq, Event.key.injEq, Ev.chordResolved.injEq,
        Resolution.chord.injEq] at h
      obtain ⟨rfl, rfl, rfl, ⟨rfl, rfl⟩, rfl⟩ := h
      refine ⟨by omega, [10, 11], rfl, by decide⟩
    | [], h => simp at h
    | [a], h => simp at h
    | [a, b], h => simp at h
    | [a, b, c, d], h => simp at h
    | [a, b, c, d, e], h => simp at h
    | [a, b, c, d, e, f], h => simp at h
    | a :: b :: c :: d :: e :: f :: g :: rest, h => simp at h

/-! Examples for C37, C38 and C39: two overlapping chords, seen from the auxiliary key 11. -/

/-- The configuration of the examples. -/
def exCfg : Config := ⟨200, [[10, 11], [10, 11, 12], [12, 13]], none, 3, 6⟩

def exKeys : List (Key Nat) := [⟨[(0, 100), (1, 101)], 110⟩, ⟨[(2, 102)], 112⟩]

def exAux : List Nat := [111, 113]

def exCtx : Ctx := Ctx.fromConfig 3 exCfg

/-- Key 11, then 10: the pair is complete, but the triple is possible; at the timeout key 11 vanishes into the chord. -/
example : ∃ p es, sysNewPressedKey exKeys exAux 11 exCtx (.auxiliary 0) = .ok (.pending p, es) ∧
    await exKeys exAux 11 exCtx (.auxiliary 0) p [.input (.press 10)] = .ok none ∧
    await exKeys exAux 11 exCtx (.auxiliary 0) p [.input (.press 10), .key 11 .timeout] =
      .ok (some (.noOp, resolved 11 (.chord 0))) ∧
    await exKeys exAux 11 exCtx (.auxiliary 0) p [.input (.press 10), .input (.press 12)] =
      .ok (some (.noOp, resolved 11 (.chord 1))) ∧
    await exKeys exAux 11 exCtx (.auxiliary 0) p [.input (.press 3)] =
      .ok (some (.key 111, resolved 11 .passthrough)) :=
  ⟨_, _, rfl, by decide, by decide, by decide, by decide⟩

/-- The hypotheses of `C38_any_order` are met by the triple in the order 12, 10, 11, seen from key 10's
chorded key, with an unrelated release in between. -/
example : ∃ p n, sysNewPressedKey exKeys exAux 10 exCtx (.chorded 0) = .ok (.pending p, [SchEv.after 200 (.key 10 .timeout)]) ∧
    await exKeys exAux 10 exCtx (.chorded 0) p [.input (.press 12), .input (.release 3), .input (.press 11)] =
      .ok (some (n, resolved 10 (.chord 1))) := by
  obtain ⟨p, n, h1, _, _, h4, _⟩ := C38_any_order (keys := exKeys) (aux := exAux) (idx := 10) (c := exCtx) (r := .chorded 0) (id := 1)
    (ch := [10, 11, 12]) (order := [12, 11]) (sp := []) (evs := [.input (.press 12), .input (.release 3), .input (.press 11)])
    (by decide) (by decide) (by decide) (by decide) (by decide) (by decide) (by decide)
    (by
      intro id' ch' h
      have := List.mem_of_getElem? h
      simp [exCtx, Ctx.fromConfig] at this)
    (by decide) (fun _ => ⟨101, by decide⟩) (by decide) (by simp)
  refine ⟨p, n, h1, h4 ?_⟩
  intro id' ch' h _ hsub
  match id', h with
  | 0, h =>
    simp only [exCtx, Ctx.fromConfig, exCfg, List.getElem?_cons_zero, Option.some.injEq] at h
    subst h
    exact absurd (hsub 12 (by simp)) (by simp)
  | 1, _ => rfl
  | 2, h =>
    simp only [exCtx, Ctx.fromConfig, exCfg, List.getElem?_cons_succ, List.getElem?_cons_zero, Option.some.injEq] at h
    subst h
    exact absurd (hsub 10 (by simp)) (by simp)
  | n + 3, h => simp [exCtx, Ctx.fromConfig, exCfg] at h

/-- The hypotheses of `C39_ends` and `C39_outside` are met while only key 11 is pressed. -/
example : NoneComplete exCtx 11 [] ∧ ∀ ch ∈ exCtx.config.chords, 11 ∈ ch → (∀ i, .input (.press i) ∈ ([] : List (Event Ev)) → i ∈ ch) → 13 ∉ ch := by
  constructor
  · intro ch hch hidx
    simp only [exCtx, Ctx.fromConfig, exCfg, List.mem_cons, List.not_mem_nil, or_false] at hch
    rcases hch with rfl | rfl | rfl
    · exact ⟨10, by simp, by omega, by simp⟩
    · exact ⟨10, by simp, by omega, by simp⟩
    · simp at hidx
  · intro ch hch hidx _
    simp only [exCtx, Ctx.fromConfig, exCfg, List.mem_cons, List.not_mem_nil, or_false] at hch
    rcases hch with rfl | rfl | rfl <;> simp at hidx ⊢

end Chorded

end Verif
