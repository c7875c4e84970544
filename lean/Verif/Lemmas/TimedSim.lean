import Verif.Lemmas.BoardStep
import Verif.Lemmas.Steps
import Verif.Spec.TimedLayout

/-!
# Tap-hold keys on the keymap and on the board
-/

namespace Verif.Comp

open Board Timed

section Lookup

variable {α β : Type}

theorem lookup_decode {f : α → Option β} {b : α} {cb : β} {rs : List (Option α)} {cs : List (Option β)} (hb : f b = some cb)
    (h1 : rs.length = cs.length) (h2 : ∀ i : Nat, rs[i]? = some none → cs[i]? = some none)
    (h3 : ∀ (i : Nat) r, rs[i]? = some (some r) → ∃ c, f r = some c ∧ cs[i]? = some (some c)) (on : List Bool)
    (hl : on.length = rs.length) (dflt : Option Nat) : f (lookup on dflt b rs) = some (lookup on dflt cb cs) := by
  unfold lookup
  suffices hsuff : (highest on rs = none ∧ highest on cs = none) ∨
      (∃ r c, highest on rs = some r ∧ f r = some c ∧ highest on cs = some c) by
    rcases hsuff with ⟨hn1, hn⟩ | ⟨r, c, hr1, hr, hc⟩
    · simp only [hn1, hn]
      cases dflt with
      | none => simpa using hb
      | some d =>
        simp only [Option.bind_some]
        cases hx : rs[d - 1]? with
        | none =>
          have : cs[d - 1]? = none := by rw [List.getElem?_eq_none_iff] at hx ⊢; omega
          rw [this]; simpa using hb
        | some o =>
          cases o with
          | none => rw [h2 _ hx]; simpa using hb
          | some r =>
            obtain ⟨c, hc, hcs⟩ := h3 _ r hx
            rw [hcs]; simpa using hc
    · simp only [hr1, hc, hr]
  rcases highest_index on rs hl with ⟨i, a1, ⟨r, a2, a3⟩, a4⟩ | ⟨a1, a2⟩
  · right
    obtain ⟨c, hc, hcs⟩ := h3 i r a2
    refine ⟨r, c, a3, hc, ?_⟩
    rcases highest_index on cs (by omega) with ⟨j, b1, ⟨c', b2, b3⟩, b4⟩ | ⟨b1, b2⟩
    · have hij : i = j := by
        rcases Nat.lt_trichotomy i j with hlt | heq | hgt
        · have := h2 j (a4 j hlt b1)
          rw [this] at b2; cases b2
        · exact heq
        · have := b4 i hgt a1
          rw [this] at hcs; cases hcs
      subst hij
      rw [hcs] at b2; cases b2
      exact b3
    · have := b2 i a1; rw [this] at hcs; cases hcs
  · left
    refine ⟨a1, ?_⟩
    rcases highest_index on cs (by omega) with ⟨j, b1, ⟨c', b2, b3⟩, b4⟩ | ⟨b1, b2⟩
    · have := h2 j (a2 j b1)
      rw [this] at b2; cases b2
    · exact b1

end Lookup

theorem actsOf_spec {K : Keys} {rs : List (Option Ref)} {cs : List (Option Act)} (h : actsOf K rs = some cs) :
    rs.length = cs.length ∧ (∀ i : Nat, rs[i]? = some none → cs[i]? = some none) ∧
      (∀ (i : Nat) r, rs[i]? = some (some r) → ∃ c, actOf K r = some c ∧ cs[i]? = some (some c)) := by
  induction rs generalizing cs with
  | nil => simp only [actsOf, Option.some.injEq] at h; subst h; simp
  | cons o rs ih =>
    cases o with
    | none =>
      simp only [actsOf, Option.map_eq_some_iff] at h
      obtain ⟨cs', h1, rfl⟩ := h
      obtain ⟨a, b, d⟩ := ih h1
      refine ⟨by simp [a], ?_, ?_⟩
      · intro i hi
        cases i with
        | zero => rfl
        | succ i => exact b i (by simpa using hi)
      · intro i r hi
        cases i with
        | zero => simp at hi
        | succ i => exact d i r (by simpa using hi)
    | some r =>
      simp only [actsOf] at h
      split at h
      · rename_i c cs' hc h1
        cases h
        obtain ⟨a, b, d⟩ := ih h1
        refine ⟨by simp [a], ?_, ?_⟩
        · intro i hi
          cases i with
          | zero => simp at hi
          | succ i => exact b i (by simpa using hi)
        · intro i r' hi
          cases i with
          | zero => simp only [List.getElem?_cons_zero, Option.some.injEq] at hi; subst hi; exact ⟨c, hc, rfl⟩
          | succ i => exact d i r' (by simpa using hi)
      · cases h

theorem timedLayoutOf_get {K : Keys} {refs : List Ref} {layout : List Pos} (h : timedLayoutOf K refs = some layout) (i : Nat) :
    (refs[i]?).map (posOf K) = (layout[i]?).map some := by
  induction refs generalizing layout i with
  | nil => simp only [timedLayoutOf, Option.some.injEq] at h; subst h; simp
  | cons r rs ih =>
    simp only [timedLayoutOf] at h
    split at h
    · rename_i e es he hes
      cases h
      cases i with
      | zero => simp [he]
      | succ i => simpa using ih hes i
    · cases h

/-- The state of the board, except for waiting keys; the chord bookkeeping satisfies `J`. -/
structure CoreWith (K : Keys) (count : Nat) (J : Chorded.Ctx → Prop) (km : CKM) (s : Board.State) : Prop where
  pending : km.sched.pending = []
  held : km.pressed.map (decode K) = s.held.map some
  nodup : (s.held.map Prod.fst).Nodup
  len : s.held.length ≤ 16
  active : km.ctx.sticky.active = []
  pressedIdx : km.ctx.sticky.pressedIdx = none
  caps : km.ctx.capsWord.active = false
  layers : km.ctx.layered.layers = s.on.map Layered.act
  dflt : km.ctx.layered.defaultLayer = s.dflt
  layerCount : s.on.length = count
  dfltOk : ∀ d, s.dflt = some d → 0 < d ∧ d ≤ count
  fits : ∀ p ∈ s.held, p.2.Fits count
  idle : J km.ctx.chorded

/-- The state of the board, except for waiting keys: `is` are the indices in the chord bookkeeping. -/
abbrev Core (K : Keys) (count : Nat) (km : CKM) (s : Board.State) (is : List Nat) : Prop :=
  CoreWith K count (fun c => Chorded.Idle c is) km s

theorem CoreWith.simWith {K : Keys} {count : Nat} {J : Chorded.Ctx → Prop} {km : CKM} {s : Board.State} (h : CoreWith K count J km s)
    (hp : km.pend = none) : SimWith K count J km s :=
  ⟨hp, h.pending, h.held, h.nodup, h.len, h.active, h.pressedIdx, h.caps, h.layers, h.dflt, h.layerCount, h.dfltOk, h.fits, h.idle⟩

theorem SimWith.coreWith {K : Keys} {count : Nat} {J : Chorded.Ctx → Prop} {km : CKM} {s : Board.State} (h : SimWith K count J km s) :
    CoreWith K count J km s :=
  ⟨h.pending, h.held, h.nodup, h.len, h.active, h.pressedIdx, h.caps, h.layers, h.dflt, h.layerCount, h.dfltOk, h.fits, h.idle⟩

theorem Core.sim {K : Keys} {count : Nat} {km : CKM} {s : Board.State} (h : Core K count km s (s.held.map Prod.fst)) (hp : km.pend = none) :
    Sim K count km s :=
  ⟨hp, h.pending, h.held, h.nodup, h.len, h.active, h.pressedIdx, h.caps, h.layers, h.dflt, h.layerCount, h.dfltOk, h.fits, h.idle⟩

theorem Sim.core {K : Keys} {count : Nat} {km : CKM} {s : Board.State} (h : Sim K count km s) : Core K count km s (s.held.map Prod.fst) :=
  ⟨h.pending, h.held, h.nodup, h.len, h.active, h.pressedIdx, h.caps, h.layers, h.dflt, h.layerCount, h.dfltOk, h.fits, h.idle⟩

/-- The core depends on the held keys, the context and the queue of immediate events. -/
theorem CoreWith.congr {J : Chorded.Ctx → Prop} {K : Keys} {count : Nat} {km km' : CKM} {s : Board.State} (h : CoreWith K count J km s)
    (h1 : km'.sched.pending = km.sched.pending) (h2 : km'.pressed = km.pressed) (h3 : km'.ctx = km.ctx) : CoreWith K count J km' s :=
  ⟨by rw [h1]; exact h.pending, by rw [h2]; exact h.held, h.nodup, h.len, by rw [h3]; exact h.active, by rw [h3]; exact h.pressedIdx,
    by rw [h3]; exact h.caps, by rw [h3]; exact h.layers, by rw [h3]; exact h.dflt, h.layerCount, h.dfltOk, h.fits, by rw [h3]; exact h.idle⟩

theorem CoreWith.quiet {J : Chorded.Ctx → Prop} {K : Keys} {n : Nat} {km : CKM} {s : Board.State} (h : CoreWith K n J km s) : Quiet km.ctx :=
  ⟨h.active, h.pressedIdx, h.caps, Layered.act_noSticky h.layers⟩

theorem CoreWith.length {J : Chorded.Ctx → Prop} {K : Keys} {n : Nat} {km : CKM} {s : Board.State} (h : CoreWith K n J km s) : km.pressed.length = s.held.length := by
  have := congrArg List.length h.held
  simpa using this

/-- A key has been pressed or decided: it is held from now on. -/
theorem CoreWith.hold {J : Chorded.Ctx → Prop} {K : Keys} {count : Nat} {km km' : CKM} {s : Board.State} {i : Nat} {r : Ref} {c : Cell} {l : Layered.Ctx}
    (h : CoreWith K count J km s) (hn : i ∉ s.held.map Prod.fst) (h16 : s.held.length < 16) (hr : heldAs K r = some c) (hf : c.Fits count)
    (hp : km'.sched.pending = []) (hps : km'.pressed = km.pressed ++ [.key i r (ksOf r)]) (hc : km'.ctx = { km.ctx with layered := l })
    (hl : l.layers = (c.press s).on.map Layered.act) (hd : l.defaultLayer = (c.press s).dflt) :
    CoreWith K count J km' (hold s i c) := by
  have hpress : Timed.hold s i c = { c.press s with held := s.held ++ [(i, c)] } := by
    unfold Timed.hold; cases c <;> rfl
  rw [hpress]
  refine ⟨hp, ?_, ?_, ?_, by rw [hc]; exact h.active, by rw [hc]; exact h.pressedIdx, by rw [hc]; exact h.caps, by rw [hc]; exact hl,
    by rw [hc]; exact hd, ?_, ?_, ?_, by rw [hc]; exact h.idle⟩
  · simp only [hps, List.map_append, h.held, List.map_cons, List.map_nil, decode_heldAs hr]
  · rw [List.map_append, List.nodup_append]
    refine ⟨h.nodup, by simp, ?_⟩
    intro a ha b hb
    simp only [List.map_cons, List.map_nil, List.mem_cons, List.not_mem_nil, or_false] at hb
    subst hb
    rintro rfl
    exact hn ha
  · simp only [List.length_append, List.length_cons, List.length_nil]; omega
  · rw [← h.layerCount]; exact press_on_length _ _
  · exact press_dflt hf h.dfltOk
  · intro p hp
    simp only [List.mem_append, List.mem_cons, List.not_mem_nil, or_false] at hp
    rcases hp with hp | rfl
    · exact h.fits p hp
    · exact hf

variable {K : Keys} {refs : List Ref} {S : Search}

/-! ## Pressing a key while none waits -/

/-- The first phase of a press: the context learns of it. -/
theorem notify_press {km : CKM} {hs : List (Nat × Cell)} (hh : km.pressed.map (decode K) = hs.map some) (hq : Quiet km.ctx) {i : Nat}
    {ch : Chorded.Ctx} (hch : km.ctx.chorded.handleEvent (.input (.press i)) = .ok ch) :
    notifyAll ⟨system K, refs, S⟩ km (.input (.press i)) = .ok { km with ctx := { km.ctx with chorded := ch } } := by
  refine notifyAll_quiet (C := ⟨system K, refs, S⟩)
    (fun j r ks hm => updateState_quiet hh km.ctx (.input (.press i)) (by intro j; simp) j r ks hm) ?_
  show km.ctx.handleEvent _ = _
  rw [ctx_press hq, hch]
  rfl

theorem holds_iff {s : Board.State} {i : Nat} : s.holds i = true ↔ i ∈ s.held.map Prod.fst := by
  simp only [Board.State.holds, List.any_eq_true, beq_iff_eq, List.mem_map]

theorem press_held {count n : Nat} {km : CKM} {s : Board.State} (h : Sim K count km s) {i : Nat} (hh : s.holds i = true) :
    Takes K count km s (processInputN ⟨system K, refs, S⟩ (n + 1) km (.press i)) := by
  obtain ⟨ch, hch, hidle⟩ := h.idle.press_held (holds_iff.1 hh)
  have hhas : hasPressed i km.pressed = true := by rw [hasPressed_held h.held i]; exact hh
  refine ⟨{ km.ctx with chorded := ch }, km.pressed, km.fired, ?_, ?_, rfl⟩
  · simp only [processInputN, processInput_none _ h.pend, processDirect, notify_press h.held h.quiet hch, Res.ok_bind, hhas, if_true]
    exact drain_empty h.pending
  · exact ⟨h.pend, h.pending, h.held, h.nodup, h.len, h.active, h.pressedIdx, h.caps, h.layers, h.dflt, h.layerCount, h.dfltOk, h.fits, hidle⟩

/-- A key that is not held is pressed: what remains to do. -/
theorem press_new {count n : Nat} {km : CKM} {s : Board.State} (h : Sim K count km s) {i : Nat} {r0 : Ref} (hh : s.holds i = false)
    (h16 : s.held.length < 16) (hi : i < 65535) (hr0 : refs[i]? = some r0) :
    ∃ ch, Chorded.Idle ch (s.held.map Prod.fst ++ [i]) ∧
      processInputN ⟨system K, refs, S⟩ n km (.press i) =
        (pressLoop ⟨system K, refs, S⟩ (handleEvent ⟨system K, refs, S⟩ n) i n { km with ctx := { km.ctx with chorded := ch } } r0 >>=
          fun km => drain (handleEvent ⟨system K, refs, S⟩ n) n km) := by
  have hni : i ∉ s.held.map Prod.fst := fun hm => by rw [holds_iff.2 hm] at hh; cases hh
  obtain ⟨ch, hch, hidle⟩ := h.idle.press hni hi (by simpa using h16)
  have hhas : hasPressed i km.pressed = false := by rw [hasPressed_held h.held i]; exact hh
  have hri : Res.index refs i = .ok r0 := by simpa using hr0
  refine ⟨ch, hidle, ?_⟩
  simp only [processInputN, processInput_none _ h.pend, processDirect, notify_press h.held h.quiet hch, Res.ok_bind, hhas,
    Bool.false_eq_true, if_false, hri]

/-- A layered key becomes the key the board picks. -/
theorem press_pos {he : Handler Ref Ev Ctx PKS KS} {m : Nat} {km : CKM} {s : Board.State} {i : Nat} {r0 : Ref} {p : Pos}
    (h : posOf K r0 = some p) (hl : km.ctx.layered.layers = s.on.map Layered.act) (hd : km.ctx.layered.defaultLayer = s.dflt)
    (hdf : ∀ d, s.dflt = some d → 0 < d ∧ d ≤ s.on.length) (hf : p.Fits s.on.length) :
    ∃ r m', m ≤ m' ∧ actOf K r = some (p.pick s) ∧ (p.pick s).Fits s.on.length ∧
      pressLoop ⟨system K, refs, S⟩ he i (m + 1) km r0 = pressLoop ⟨system K, refs, S⟩ he i m' km r := by
  have plain : ∀ a, actOf K r0 = some a → p = .act a → ∃ r m', m ≤ m' ∧ actOf K r = some (p.pick s) ∧ (p.pick s).Fits s.on.length ∧
      pressLoop ⟨system K, refs, S⟩ he i (m + 1) km r0 = pressLoop ⟨system K, refs, S⟩ he i m' km r := by
    rintro a ha rfl
    exact ⟨r0, m + 1, by omega, ha, hf, rfl⟩
  unfold posOf at h
  split at h
  · rename_i j
    split at h
    · rename_i k hk
      split at h
      · rename_i b as hb has
        cases h
        obtain ⟨hl1, hl2, hl3⟩ := actsOf_spec has
        refine ⟨lookup s.on s.dflt k.base k.layered, m, Nat.le_refl _,
          lookup_decode hb hl1 hl2 hl3 s.on (by rw [hl1, hf.2.1]) s.dflt, ?_, ?_⟩
        · exact Cell.Fits_lookup (P := fun a : Act => a.Fits s.on.length) hf.1 hf.2.2 hf.2.1.symm
        · have hi : Res.index K.layered j = .ok k := by simpa using hk
          have hn := Layered.newPressedKey_lookup (k := k) hl (by rw [hl1, hf.2.1]) (by rw [hd]; exact hdf)
          rw [hd] at hn
          have : newPressedKey K i km.ctx (.layered (.layered j)) = .ok (.newPressedKey (.key (lookup s.on s.dflt k.base k.layered)), []) := by
            simp only [newPressedKey, Layered.sysNewPressedKey, hi, hn, Res.ok_bind, Res.pure_eq, KeyEvents.mapEv, List.map_nil]
          rw [pressLoop]
          rw [show (system K).newPressedKey i km.ctx (.layered (.layered j)) = newPressedKey K i km.ctx (.layered (.layered j)) from rfl, this]
          simp only [Res.ok_bind, Sched.scheduleAll]
      · cases h
    · cases h
  · simp only [Option.map_eq_some_iff] at h
    obtain ⟨a, ha, rfl⟩ := h
    exact plain a ha rfl

/-- What a reference to a key without layers is. -/
theorem actOf_cases {r : Ref} {a : Act} (h : actOf K r = some a) :
    (∃ c, a = .cell c ∧ cellOf K r = some c) ∨
    (∃ k key t ho, r = .tapHold k ∧ K.tapHold[k]? = some key ∧ cellOf K key.tap = some t ∧ cellOf K key.hold = some ho ∧ a = .tapHold t ho) := by
  unfold actOf at h
  split at h
  · rename_i k
    split at h
    · rename_i key hk
      split at h
      · rename_i t ho h1 h2
        cases h
        exact .inr ⟨k, key, t, ho, rfl, hk, h1, h2, rfl⟩
      · cases h
    · cases h
  · simp only [Option.map_eq_some_iff] at h
    obtain ⟨c, hc, rfl⟩ := h
    exact .inl ⟨c, rfl, hc⟩

/-- A plain key or layer key is pressed. -/
theorem press_plain {count n m : Nat} {J : Chorded.Ctx → Prop} {km : CKM} {s : Board.State} {i : Nat} {r : Ref} {c : Cell} (h : CoreWith K count J km s)
    (hp : km.pend = none) (hn : i ∉ s.held.map Prod.fst) (h16 : s.held.length < 16) (hr : cellOf K r = some c) (hf : c.Fits count) :
    ∃ l f, (pressLoop ⟨system K, refs, S⟩ (handleEvent ⟨system K, refs, S⟩ (n + 2)) i (m + 1) km r >>=
        fun km => drain (handleEvent ⟨system K, refs, S⟩ (n + 2)) (n + 2) km) =
        .ok { km with ctx := { km.ctx with layered := l }, pressed := km.pressed ++ [.key i r (ksOf r)], fired := f } ∧
      CoreWith K count J { km with ctx := { km.ctx with layered := l }, pressed := km.pressed ++ [.key i r (ksOf r)], fired := f } (hold s i c) := by
  obtain ⟨hok, _⟩ := press_cell (refs := refs) (S := S) (n := n + 1) (m := m) (k := n) (i := i) (km := km) hp h.pending h.held h.quiet hr
    h.layers h.dflt (by rw [h.layerCount]; exact hf)
  obtain ⟨l, f, h1, h2, h3⟩ := hok (by rw [h.length]; exact h16)
  exact ⟨l, f, h1, h.hold hn h16 (heldAs_cell hr) hf h.pending rfl rfl h2 h3⟩

end Verif.Comp
