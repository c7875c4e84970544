import Verif.Lemmas.BoardSim

/-!
# One input event on the keymap and on the board, continued
-/

namespace Verif.Comp

open Board

theorem cellsOf_spec {K : Keys} {rs : List (Option Ref)} {cs : List (Option Cell)} (h : cellsOf K rs = some cs) :
    rs.length = cs.length ∧ (∀ i : Nat, rs[i]? = some none → cs[i]? = some none) ∧
      (∀ (i : Nat) r, rs[i]? = some (some r) → ∃ c, cellOf K r = some c ∧ cs[i]? = some (some c)) := by
  induction rs generalizing cs with
  | nil => simp only [cellsOf, Option.some.injEq] at h; subst h; simp
  | cons o rs ih =>
    cases o with
    | none =>
      simp only [cellsOf, Option.map_eq_some_iff] at h
      obtain ⟨cs', h1, rfl⟩ := h
      obtain ⟨a, b, d⟩ := ih h1
      refine ⟨by simp [a], ?_, ?_⟩
      · intro i hi
        cases i with
        | zero => rfl
        | succ i => exact b i (by simpa using hi)
      · intro i r hi
        cases i with
        | zero => simp at hi
        | succ i => exact d i r (by simpa using hi)
    | some r =>
      simp only [cellsOf] at h
      split at h
      · rename_i c cs' hc h1
        cases h
        obtain ⟨a, b, d⟩ := ih h1
        refine ⟨by simp [a], ?_, ?_⟩
        · intro i hi
          cases i with
          | zero => simp at hi
          | succ i => exact b i (by simpa using hi)
        · intro i r' hi
          cases i with
          | zero => simp only [List.getElem?_cons_zero, Option.some.injEq] at hi; subst hi; exact ⟨c, hc, rfl⟩
          | succ i => exact d i r' (by simpa using hi)
      · cases h

theorem highest_index {α : Type} (on : List Bool) (cs : List (Option α)) (hl : on.length = cs.length) :
    (∃ i : Nat, on[i]? = some true ∧ (∃ c, cs[i]? = some (some c) ∧ highest on cs = some c) ∧
      ∀ j, i < j → on[j]? = some true → cs[j]? = some none) ∨
    (highest on cs = none ∧ ∀ j : Nat, on[j]? = some true → cs[j]? = some none) := by
  induction on generalizing cs with
  | nil => right; simp [highest]
  | cons b on ih =>
    cases cs with
    | nil => simp at hl
    | cons c cs =>
      simp only [List.length_cons, Nat.add_right_cancel_iff] at hl
      rcases ih cs hl with ⟨i, h1, ⟨x, h2, h3⟩, h4⟩ | ⟨h1, h2⟩
      · left
        refine ⟨i + 1, by simpa using h1, ⟨x, by simpa using h2, by simp [highest, h3]⟩, ?_⟩
        intro j hj hon
        cases j with
        | zero => omega
        | succ j => simpa using h4 j (by omega) (by simpa using hon)
      · have hrest : ∀ j : Nat, 0 < j → (b :: on)[j]? = some true → (c :: cs)[j]? = some none := by
          intro j hj hon
          cases j with
          | zero => omega
          | succ j => simpa using h2 j (by simpa using hon)
        cases b with
        | false =>
          right
          refine ⟨by simp [highest, h1], ?_⟩
          intro j hon
          cases j with
          | zero => simp at hon
          | succ j => exact hrest (j + 1) (by omega) hon
        | true =>
          cases c with
          | none =>
            right
            refine ⟨by simp [highest, h1], ?_⟩
            intro j hon
            cases j with
            | zero => rfl
            | succ j => exact hrest (j + 1) (by omega) hon
          | some c => left; exact ⟨0, rfl, ⟨c, rfl, by simp [highest, h1]⟩, hrest⟩

/-- The key the firmware looks up is the one the board picks. -/
theorem lookup_cell {K : Keys} {b : Ref} {cb : Cell} {rs : List (Option Ref)} {cs : List (Option Cell)} (hb : cellOf K b = some cb)
    (h : cellsOf K rs = some cs) (on : List Bool) (hl : on.length = rs.length) (dflt : Option Nat) :
    cellOf K (lookup on dflt b rs) = some (lookup on dflt cb cs) := by
  obtain ⟨h1, h2, h3⟩ := cellsOf_spec h
  unfold lookup
  suffices hsuff : (highest on rs = none ∧ highest on cs = none) ∨
      (∃ r c, highest on rs = some r ∧ cellOf K r = some c ∧ highest on cs = some c) by
    rcases hsuff with ⟨hn1, hn⟩ | ⟨r, c, hr1, hr, hc⟩
    · simp only [hn1, hn]
      cases dflt with
      | none => simpa using hb
      | some d =>
        simp only [Option.bind_some]
        cases hx : rs[d - 1]? with
        | none =>
          have : cs[d - 1]? = none := by rw [List.getElem?_eq_none_iff] at hx ⊢; omega
          rw [this]; simpa using hb
        | some o =>
          cases o with
          | none => rw [h2 _ hx]; simpa using hb
          | some r =>
            obtain ⟨c, hc, hcs⟩ := h3 _ r hx
            rw [hcs]; simpa using hc
    · simp only [hr1, hc, hr]
  rcases highest_index on rs hl with ⟨i, a1, ⟨r, a2, a3⟩, a4⟩ | ⟨a1, a2⟩
  · right
    obtain ⟨c, hc, hcs⟩ := h3 i r a2
    refine ⟨r, c, a3, hc, ?_⟩
    rcases highest_index on cs (by omega) with ⟨j, b1, ⟨c', b2, b3⟩, b4⟩ | ⟨b1, b2⟩
    · have hij : i = j := by
        rcases Nat.lt_trichotomy i j with hlt | heq | hgt
        · have := h2 j (a4 j hlt b1)
          rw [this] at b2; cases b2
        · exact heq
        · have := b4 i hgt a1
          rw [this] at hcs; cases hcs
      subst hij
      rw [hcs] at b2; cases b2
      exact b3
    · have := b2 i a1; rw [this] at hcs; cases hcs
  · left
    refine ⟨a1, ?_⟩
    rcases highest_index on cs (by omega) with ⟨j, b1, ⟨c', b2, b3⟩, b4⟩ | ⟨b1, b2⟩
    · have := h2 j (a2 j b1)
      rw [this] at b2; cases b2
    · exact b1

variable {K : Keys} {refs : List Ref} {S : Search}

/-- Pressing a key without layers. -/
theorem press_cell {n m k : Nat} {km : CKM} {s : State} {hs : List (Nat × Cell)} {i : Nat} {r : Ref} {c : Cell} (hp : km.pend = none)
    (hq : km.sched.pending = []) (hh : km.pressed.map (decode K) = hs.map some) (hqt : Quiet km.ctx) (hr : cellOf K r = some c)
    (hl : km.ctx.layered.layers = s.on.map Layered.act) (hd : km.ctx.layered.defaultLayer = s.dflt) (hf : c.Fits s.on.length) :
    (km.pressed.length < 16 → ∃ l f,
      (pressLoop ⟨system K, refs, S⟩ (handleEvent ⟨system K, refs, S⟩ (n + 1)) i (m + 1) km r >>=
        fun km => drain (handleEvent ⟨system K, refs, S⟩ (n + 1)) (k + 2) km) =
        .ok { km with ctx := { km.ctx with layered := l }, pressed := km.pressed ++ [.key i r (ksOf r)], fired := f } ∧
      l.layers = (c.press s).on.map Layered.act ∧ l.defaultLayer = (c.press s).dflt) ∧
    (¬ km.pressed.length < 16 →
      ∃ p, pressLoop ⟨system K, refs, S⟩ (handleEvent ⟨system K, refs, S⟩ (n + 1)) i (m + 1) km r = .panic p) := by
  obtain ⟨pkr, es, hnpk, hes, hpkr⟩ := newPressedKey_cell hr km.ctx i
  have hko := keyOutput_cell hr
  have hh' : (km.pressed ++ [PressedInput.key i r (ksOf r)]).map (decode K) = (hs ++ [(i, c)]).map some := by
    rw [List.map_append, hh, List.map_append]
    simp [decode_key hr]
  -- the state after the press, when at most one event was emitted
  have loop : ∀ q : List (Option (Event Ev)), km.sched.scheduleAll S es = .ok { km.sched with pending := q } →
      pressLoop ⟨system K, refs, S⟩ (handleEvent ⟨system K, refs, S⟩ (n + 1)) i (m + 1) km r =
        (pushCap maxPressedKeys km.pressed (.key i r (ksOf r)) >>= fun ps =>
          match c with
          | .out ko => handleEvent ⟨system K, refs, S⟩ (n + 1) { km with sched := { km.sched with pending := q }, pressed := ps } (.keymap (.resolved i ko))
          | _ => .ok { km with sched := { km.sched with pending := q }, pressed := ps }) := by
    intro q hs
    simp only [pressLoop]
    rw [show (system K).newPressedKey i km.ctx r = newPressedKey K i km.ctx r from rfl, hnpk]
    simp only [Res.ok_bind, hs]
    rcases hpkr with rfl | ⟨rfl, hno, rfl⟩
    · simp only
      cases pushCap maxPressedKeys km.pressed (.key i r (ksOf r)) with
      | ok ps =>
        simp only [Res.ok_bind]
        rw [show (system K).keyOutput r (ksOf r) = keyOutput K r (ksOf r) from rfl, hko]
        cases c <;> rfl
      | panic p => rfl
      | fuel => rfl
    · simp only
      rw [show (system K).noOp = KS.noOp from rfl, hno]
      rfl
  have hsame : ({ km.sched with pending := [] } : Sched Ev) = km.sched := by rw [← hq]
  have hcount : ∀ q, km.sched.scheduleAll S es = .ok { km.sched with pending := q } → ¬ km.pressed.length < 16 →
      ∃ p, pressLoop ⟨system K, refs, S⟩ (handleEvent ⟨system K, refs, S⟩ (n + 1)) i (m + 1) km r = .panic p := by
    intro q hs hn
    rw [loop q hs]
    refine ⟨.capacity, ?_⟩
    unfold pushCap maxPressedKeys
    rw [if_neg hn]
    rfl
  have hpush : km.pressed.length < 16 → pushCap maxPressedKeys km.pressed (.key i r (ksOf r)) = .ok (km.pressed ++ [.key i r (ksOf r)]) := by
    intro hlt
    unfold pushCap maxPressedKeys
    rw [if_pos hlt]
  cases hc : c with
  | out ko =>
    subst hc
    have he : es = [] := hes
    subst he
    have hs : km.sched.scheduleAll S [] = .ok { km.sched with pending := [] } := by rw [hsame]; rfl
    refine ⟨fun hlt => ⟨km.ctx.layered, km.fired, ?_, hl, hd⟩, hcount _ hs⟩
    rw [loop _ hs, hpush hlt]
    simp only [Res.ok_bind]
    rw [handleEvent_quiet (C := ⟨system K, refs, S⟩) (ev := .keymap (.resolved i ko)) (ctx := km.ctx)
      (km := { km with sched := { km.sched with pending := [] }, pressed := km.pressed ++ [PressedInput.key i r (ksOf r)] }) hp (by intro ie; simp)
      (fun j r ks hm => updateState_quiet hh' km.ctx (.keymap (.resolved i ko)) (by intro j; simp) j r ks hm) (ctx_resolved hqt i ko)]
    simp only [Res.ok_bind, KM.fire]
    rw [drain_empty (by rfl), hsame]
  | nothing =>
    subst hc
    obtain ⟨cb, rfl⟩ := hes
    have hs := Sched.scheduleAll_imm S km.sched hq (.keymap (.callback cb))
    refine ⟨fun hlt => ?_, hcount _ hs⟩
    rw [loop _ hs, hpush hlt]
    simp only [Res.ok_bind]
    obtain ⟨f, hf⟩ := callback_event (K := K) (refs := refs) (S := S) (n := n) (m := k) (cb := cb)
      (km := { km with pressed := km.pressed ++ [.key i r (ksOf r)] }) hp hh' hq
    exact ⟨km.ctx.layered, f, hf, hl, hd⟩
  | _ =>
    all_goals
      rw [hc] at hes
      obtain ⟨md, rfl, hmd⟩ := hes
      have hs := Sched.scheduleAll_imm S km.sched hq (.key i (.layered md.newPressedKey.2))
      refine ⟨fun hlt => ?_, hcount _ hs⟩
      rw [loop _ hs, hpush hlt, hc]
      simp only [Res.ok_bind]
      rw [hc] at hf
      have : ∃ l', km.ctx.layered.handleLayerEvent md.newPressedKey.2 = .ok l' ∧ l'.layers = (c.press s).on.map Layered.act ∧
          l'.defaultLayer = (c.press s).dflt := by
        rw [hc]
        rcases hmd with ⟨l, h⟩ | ⟨l, h⟩ | ⟨b, h⟩ | ⟨l, h⟩
        · exact Layered.event_press (l := l) (b := 0) hl hd (.inl h) hf
        · exact Layered.event_press (l := l) (b := 0) hl hd (.inr (.inl h)) hf
        · exact Layered.event_press (l := 0) (b := b) hl hd (.inr (.inr (.inl h))) hf
        · exact Layered.event_press (l := l) (b := 0) hl hd (.inr (.inr (.inr h))) hf
      obtain ⟨l', h1, h2, h3⟩ := this
      have hx := layered_event (K := K) (refs := refs) (S := S) (n := n) (m := k) (i := i)
        (km := { km with pressed := km.pressed ++ [.key i r (ksOf r)] }) hp hh' hq h1
      rw [hc] at h2 h3
      exact ⟨l', km.fired, hx, h2, h3⟩

theorem Cell.Fits_lookup {α : Type} {P : α → Prop} {on : List Bool} {dflt : Option Nat} {b : α} {cs : List (Option α)} (hb : P b)
    (hc : ∀ c, some c ∈ cs → P c) (hl : on.length = cs.length) : P (lookup on dflt b cs) := by
  unfold lookup
  rcases highest_index on cs hl with ⟨i, _, ⟨c, h2, h3⟩, _⟩ | ⟨h1, _⟩
  · rw [h3]; exact hc c (List.mem_of_getElem? h2)
  · rw [h1]
    simp only
    cases dflt with
    | none => exact hb
    | some d =>
      simp only [Option.bind_some]
      cases hx : cs[d - 1]? with
      | none => exact hb
      | some o =>
        cases o with
        | none => exact hb
        | some c => exact hc c (List.mem_of_getElem? hx)

/-- A layered key becomes the key the board picks. -/
theorem press_entry {he : Handler Ref Ev Ctx PKS KS} {m : Nat} {km : CKM} {s : State} {i : Nat} {r0 : Ref} {e : Entry}
    (h : entryOf K r0 = some e) (hl : km.ctx.layered.layers = s.on.map Layered.act) (hd : km.ctx.layered.defaultLayer = s.dflt)
    (hdf : ∀ d, s.dflt = some d → 0 < d ∧ d ≤ s.on.length) (hf : e.Fits s.on.length) :
    ∃ r m', cellOf K r = some (e.pick s) ∧ (e.pick s).Fits s.on.length ∧
      pressLoop ⟨system K, refs, S⟩ he i (m + 2) km r0 = pressLoop ⟨system K, refs, S⟩ he i (m' + 1) km r := by
  have plain : ∀ c, cellOf K r0 = some c → e = .cell c → ∃ r m', cellOf K r = some (e.pick s) ∧ (e.pick s).Fits s.on.length ∧
      pressLoop ⟨system K, refs, S⟩ he i (m + 2) km r0 = pressLoop ⟨system K, refs, S⟩ he i (m' + 1) km r := by
    rintro c hc rfl
    exact ⟨r0, m + 1, hc, hf, rfl⟩
  unfold entryOf at h
  split at h
  · rename_i j
    split at h
    · rename_i k hk
      split at h
      · rename_i b cs hb hcs
        cases h
        obtain ⟨hl1, _, _⟩ := cellsOf_spec hcs
        refine ⟨lookup s.on s.dflt k.base k.layered, m, lookup_cell hb hcs s.on (by rw [hl1, hf.2.1]) s.dflt, ?_, ?_⟩
        · exact Cell.Fits_lookup (P := fun c => c.Fits s.on.length) hf.1 hf.2.2 hf.2.1.symm
        · have hi : Res.index K.layered j = .ok k := by simpa using hk
          have hn := Layered.newPressedKey_lookup (k := k) hl (by rw [hl1, hf.2.1]) (by rw [hd]; exact hdf)
          rw [hd] at hn
          have : newPressedKey K i km.ctx (.layered (.layered j)) = .ok (.newPressedKey (.key (lookup s.on s.dflt k.base k.layered)), []) := by
            simp only [newPressedKey, Layered.sysNewPressedKey, hi, hn, Res.ok_bind, Res.pure_eq, KeyEvents.mapEv, List.map_nil]
          rw [pressLoop]
          rw [show (system K).newPressedKey i km.ctx (.layered (.layered j)) = newPressedKey K i km.ctx (.layered (.layered j)) from rfl, this]
          simp only [Res.ok_bind, Sched.scheduleAll]
      · cases h
    · cases h
  · simp only [Option.map_eq_some_iff] at h
    obtain ⟨c, hc, rfl⟩ := h
    exact plain c hc rfl

theorem press_held_eq (c : Cell) (s : State) : (c.press s).held = s.held := by cases c <;> rfl
theorem release_held_eq (c : Cell) (s : State) : (c.release s).held = s.held := by cases c <;> rfl
theorem press_on_length (c : Cell) (s : State) : (c.press s).on.length = s.on.length := by cases c <;> simp [Cell.press]
theorem release_on_length (c : Cell) (s : State) : (c.release s).on.length = s.on.length := by cases c <;> simp [Cell.release]

theorem press_dflt {c : Cell} {s : State} {n : Nat} (hf : c.Fits n) (h : ∀ d, s.dflt = some d → 0 < d ∧ d ≤ n) :
    ∀ d, (c.press s).dflt = some d → 0 < d ∧ d ≤ n := by
  cases c with
  | default l =>
    intro d hd
    simp only [Cell.press] at hd
    split at hd
    · cases hd
    · cases hd; simp only [Cell.Fits] at hf; omega
  | _ => exact h

theorem release_dflt {c : Cell} {s : State} {n : Nat} (hf : c.Fits n) (h : ∀ d, s.dflt = some d → 0 < d ∧ d ≤ n) :
    ∀ d, (c.release s).dflt = some d → 0 < d ∧ d ≤ n := by
  cases c with
  | default l =>
    intro d hd
    simp only [Cell.release] at hd
    split at hd
    · cases hd
    · cases hd; simp only [Cell.Fits] at hf; omega
  | _ => exact h

theorem layoutOf_get {layout : List Entry} (h : layoutOf K refs = some layout) (i : Nat) :
    (refs[i]?).map (entryOf K) = (layout[i]?).map some := by
  induction refs generalizing layout i with
  | nil => simp only [layoutOf, Option.some.injEq] at h; subst h; simp
  | cons r rs ih =>
    simp only [layoutOf] at h
    split at h
    · rename_i e es he hes
      cases h
      cases i with
      | zero => simp [he]
      | succ i => simpa using ih hes i
    · cases h

/-- The keymap takes an event as the board does, and the chord bookkeeping then satisfies `J`. -/
def TakesWith (K : Keys) (count : Nat) (J : Chorded.Ctx → Prop) (km : CKM) (s' : State) (x : Res CKM) : Prop :=
  ∃ ctx ps f, x = .ok { km with ctx := ctx, pressed := ps, fired := f } ∧
    SimWith K count J { km with ctx := ctx, pressed := ps, fired := f } s' ∧
    (ctx.tapHold, ctx.tapDance) = (km.ctx.tapHold, km.ctx.tapDance)

/-- The keymap takes an event as the board does. -/
abbrev Takes (K : Keys) (count : Nat) (km : CKM) (s' : State) (x : Res CKM) : Prop :=
  TakesWith K count (fun c => Chorded.Idle c (s'.held.map Prod.fst)) km s' x

theorem release_indices (layout : List Entry) (s : State) (j : Nat) :
    (s.input layout (.release j)).held.map Prod.fst = (s.held.map Prod.fst).filter (fun i => i != j) := by
  rw [List.filter_map]
  simp only [State.input]
  cases hf : s.held.find? (fun p => p.1 == j) with
  | none =>
    have hself : s.held.filter (fun p => p.1 != j) = s.held := by
      rw [List.filter_eq_self]
      intro p hp
      have := List.find?_eq_none.1 hf p hp
      simpa using this
    show s.held.map Prod.fst = (s.held.filter (fun p => p.1 != j)).map Prod.fst
    rw [hself]
  | some p =>
    obtain ⟨i, c⟩ := p
    cases c <;> rfl

theorem process_release_with {layout : List Entry} {count n : Nat} {J J' : Chorded.Ctx → Prop} {km : CKM} {s : State} (h : SimWith K count J km s)
    (j : Nat) {ch : Chorded.Ctx} (hch : km.ctx.chorded.handleEvent (.input (.release j)) = .ok ch) (hidle : J' ch) :
    TakesWith K count J' km (s.input layout (.release j)) (processInputN ⟨system K, refs, S⟩ (n + 2) km (.release j)) := by
  have hctx : km.ctx.handleEvent (.input (.release j)) = .ok ({ km.ctx with chorded := ch }, []) := by
    rw [ctx_release h.quiet, hch]; rfl
  have hrem := removeKey_held h.held h.nodup j
  have hnp := notifyPressed_eq ⟨system K, refs, S⟩ km.ctx (.input (.release j)) (answers K (.input (.release j))) km.pressed km.sched
    (updateState_pressed h.held km.ctx (.input (.release j)))
  rw [eventsOf_release h.held h.nodup j] at hnp
  have hmap : (s.held.filter (fun p => p.1 != j)).map Prod.fst = (s.held.map Prod.fst).filter (fun i => i != j) := by
    rw [List.filter_map]; rfl
  have hsim : ∀ (l : Layered.Ctx) (s' : State), s'.held = s.held.filter (fun p => p.1 != j) → l.layers = s'.on.map Layered.act →
      l.defaultLayer = s'.dflt → s'.on.length = count → (∀ d, s'.dflt = some d → 0 < d ∧ d ≤ count) →
      SimWith K count J' { km with ctx := { km.ctx with chorded := ch, layered := l }, pressed := removeKey j km.pressed } s' := by
    intro l s' e1 e2 e3 e4 e5
    refine ⟨h.pend, h.pending, by rw [e1]; exact hrem, ?_, ?_, h.active, h.pressedIdx, h.caps, e2, e3, e4, e5, ?_, ?_⟩
    · rw [e1, hmap]; exact h.nodup.filter _
    · rw [e1]; exact Nat.le_trans (List.length_filter_le _ _) h.len
    · rw [e1]; intro p hp; exact h.fits p (List.mem_filter.1 hp).1
    · exact hidle
  have hone : ∀ (e : Layered.Ev) (l : Layered.Ctx), km.ctx.layered.handleLayerEvent e = .ok l →
      notifyPressed ⟨system K, refs, S⟩ km.ctx (.input (.release j)) km.pressed km.sched =
        (fun s' => (km.pressed, s')) <$> km.sched.scheduleAll S [SchEv.imm (.key j (.layered e))] →
      processInputN ⟨system K, refs, S⟩ (n + 2) km (.release j) =
        .ok { km with ctx := { km.ctx with chorded := ch, layered := l }, pressed := removeKey j km.pressed } := by
    intro e l he hn
    rw [Sched.scheduleAll_imm S km.sched h.pending] at hn
    have hx := layered_event (K := K) (refs := refs) (S := S) (n := n + 1) (m := n) (i := j)
      (km := { km with ctx := { km.ctx with chorded := ch }, pressed := removeKey j km.pressed }) h.pend hrem h.pending he
    simp only [processInputN, processInput_none _ h.pend, processDirect, notifyAll, hn, Res.map_ok, Res.ok_bind]
    rw [show (system K).ctxEvent km.ctx (.input (.release j)) = km.ctx.handleEvent (.input (.release j)) from rfl, hctx]
    simp only [Res.ok_bind, Sched.scheduleAll, Res.pure_eq]
    exact hx
  have hnone : notifyPressed ⟨system K, refs, S⟩ km.ctx (.input (.release j)) km.pressed km.sched =
        (fun s' => (km.pressed, s')) <$> km.sched.scheduleAll S [] →
      processInputN ⟨system K, refs, S⟩ (n + 2) km (.release j) =
        .ok { km with ctx := { km.ctx with chorded := ch }, pressed := removeKey j km.pressed } := by
    intro hn
    simp only [processInputN, processInput_none _ h.pend, processDirect, notifyAll, hn, Sched.scheduleAll, Res.map_ok, Res.ok_bind]
    rw [show (system K).ctxEvent km.ctx (.input (.release j)) = km.ctx.handleEvent (.input (.release j)) from rfl, hctx]
    simp only [Res.ok_bind, Sched.scheduleAll, Res.pure_eq]
    exact drain_empty h.pending
  cases hf : s.held.find? (fun p => p.1 == j) with
  | none =>
    rw [hf] at hnp
    refine ⟨_, _, _, hnone hnp, ?_, rfl⟩
    have hself : s.held.filter (fun p => p.1 != j) = s.held := by
      rw [List.filter_eq_self]
      intro p hp
      have := List.find?_eq_none.1 hf p hp
      simpa using this
    simp only [State.input, hf]
    exact hsim km.ctx.layered s hself.symm h.layers h.dflt h.layerCount h.dfltOk
  | some p =>
    obtain ⟨i, c⟩ := p
    have hmem : (i, c) ∈ s.held := List.mem_of_find?_eq_some hf
    have hij : i = j := by simpa using List.find?_some hf
    subst hij
    have hfit := h.fits _ hmem
    rw [hf] at hnp
    simp only [State.input, hf]
    cases c with
    | hold l =>
      simp only [answer, if_true] at hnp
      have hs := Layered.setLayer_ok km.ctx.layered.layers .inactive hfit.1 (by rw [h.layers, List.length_map, h.layerCount]; exact hfit.2)
      have hl : km.ctx.layered.handleLayerEvent (.deactivated l) = .ok { km.ctx.layered with layers := km.ctx.layered.layers.set (l - 1) .inactive } := by
        simp only [Layered.Ctx.handleLayerEvent, hs]; rfl
      refine ⟨_, _, _, hone _ _ hl hnp, ?_, rfl⟩
      refine hsim _ _ rfl ?_ h.dflt (by simpa [Cell.release] using h.layerCount) h.dfltOk
      simp only [Cell.release, List.map_set, h.layers]
      rfl
    | default l =>
      simp only [answer, if_true] at hnp
      refine ⟨_, _, _, hone _ _ rfl hnp, ?_, rfl⟩
      exact hsim _ _ rfl h.layers rfl h.layerCount (release_dflt hfit h.dfltOk)
    | out ko => exact ⟨_, _, _, hnone hnp, hsim _ _ rfl h.layers h.dflt h.layerCount h.dfltOk, rfl⟩
    | toggle l => exact ⟨_, _, _, hnone hnp, hsim _ _ rfl h.layers h.dflt h.layerCount h.dfltOk, rfl⟩
    | setLayers b => exact ⟨_, _, _, hnone hnp, hsim _ _ rfl h.layers h.dflt h.layerCount h.dfltOk, rfl⟩
    | nothing => exact ⟨_, _, _, hnone hnp, hsim _ _ rfl h.layers h.dflt h.layerCount h.dfltOk, rfl⟩

theorem process_release {layout : List Entry} {count n : Nat} {km : CKM} {s : State} (h : Sim K count km s) (j : Nat) :
    Takes K count km (s.input layout (.release j)) (processInputN ⟨system K, refs, S⟩ (n + 2) km (.release j)) := by
  obtain ⟨ch, hch, hidle⟩ := h.idle.release (i := j) h.nodup
  exact process_release_with h j hch (by rw [release_indices]; exact hidle)

theorem pressIndex_cases (c : Chorded.Ctx) (i : Nat) : (∃ c', c.pressIndex i = .ok c') ∨ ∃ p, c.pressIndex i = .panic p := by
  unfold Chorded.Ctx.pressIndex
  split
  · exact .inl ⟨_, rfl⟩
  · unfold Chorded.insertPressed
    split
    · exact .inl ⟨_, rfl⟩
    · split
      · exact .inl ⟨_, rfl⟩
      · exact .inr ⟨_, rfl⟩

theorem pressIndex_chords {c c' : Chorded.Ctx} {i : Nat} (h : c.pressIndex i = .ok c') :
    c'.pressedChords = c.pressedChords ∧ c'.latest = c.latest := by
  unfold Chorded.Ctx.pressIndex at h
  split at h
  · cases h; exact ⟨rfl, rfl⟩
  · simp only [Res.bind_eq_ok, Res.pure_eq, Res.ok.injEq] at h
    obtain ⟨xs, _, rfl⟩ := h
    exact ⟨rfl, rfl⟩

theorem Chorded.Idle.press_cases {c : Chorded.Ctx} {is : List Nat} (h : Chorded.Idle c is) (i : Nat) :
    (∃ c', c.handleEvent (.input (.press i)) = .ok c') ∨ ∃ p, c.handleEvent (.input (.press i)) = .panic p := by
  rcases pressIndex_cases c i with ⟨c', hc⟩ | ⟨p, hp⟩
  · have := pressIndex_chords hc
    exact .inl ⟨_, Chorded.Idle.after_press h.latest hc (by rw [this.1]; exact h.chords) (by rw [this.2]; exact h.latest)⟩
  · refine .inr ⟨p, ?_⟩
    simp only [Chorded.Ctx.handleEvent, hp]
    rfl

theorem process_press {layout : List Entry} {count n : Nat} {km : CKM} {s : State} (hlay : layoutOf K refs = some layout)
    (hfit : ∀ e ∈ layout, e.Fits count) (hlen : layout.length ≤ 65535) (h : Sim K count km s) (i : Nat) :
    (s.takes layout (.press i) = true →
      Takes K count km (s.input layout (.press i)) (processInputN ⟨system K, refs, S⟩ (n + 2) km (.press i))) ∧
    (s.takes layout (.press i) = false → ∃ p, processInputN ⟨system K, refs, S⟩ (n + 2) km (.press i) = .panic p) := by
  have hhas := hasPressed_held h.held i
  have hplen : km.pressed.length = s.held.length := by
    have := congrArg List.length h.held
    simpa using this
  -- the first phase
  have hnotify : ∀ ch, km.ctx.chorded.handleEvent (.input (.press i)) = .ok ch →
      notifyAll ⟨system K, refs, S⟩ km (.input (.press i)) = .ok { km with ctx := { km.ctx with chorded := ch } } := by
    intro ch hch
    refine notifyAll_quiet (C := ⟨system K, refs, S⟩)
      (fun j r ks hm => updateState_quiet h.held km.ctx (.input (.press i)) (by intro j; simp) j r ks hm) ?_
    show km.ctx.handleEvent _ = _
    rw [ctx_press h.quiet, hch]
    rfl
  have hproc : ∀ ch, km.ctx.chorded.handleEvent (.input (.press i)) = .ok ch →
      processInputN ⟨system K, refs, S⟩ (n + 2) km (.press i) =
        ((if s.holds i then .ok { km with ctx := { km.ctx with chorded := ch } }
          else Res.index refs i >>= fun r =>
            pressLoop ⟨system K, refs, S⟩ (handleEvent ⟨system K, refs, S⟩ (n + 2)) i (n + 2) { km with ctx := { km.ctx with chorded := ch } } r) >>=
          fun km => drain (handleEvent ⟨system K, refs, S⟩ (n + 2)) (n + 2) km) := by
    intro ch hch
    simp only [processInputN, processInput_none _ h.pend, processDirect, hnotify ch hch, Res.ok_bind, hhas]
    rfl
  have hholds : s.holds i = true ↔ i ∈ s.held.map Prod.fst := by
    simp only [State.holds, List.any_eq_true, beq_iff_eq, List.mem_map]
  by_cases hh : s.holds i = true
  · -- the key is held
    obtain ⟨ch, hch, hidle⟩ := h.idle.press_held (hholds.1 hh)
    constructor
    · intro _
      refine ⟨{ km.ctx with chorded := ch }, km.pressed, km.fired, ?_, ?_, rfl⟩
      · rw [hproc ch hch, if_pos hh]
        simp only [Res.ok_bind]
        exact drain_empty h.pending
      · simp only [State.input, hh, if_true]
        exact ⟨h.pend, h.pending, h.held, h.nodup, h.len, h.active, h.pressedIdx, h.caps, h.layers, h.dflt, h.layerCount, h.dfltOk, h.fits, hidle⟩
    · intro ht
      simp [State.takes, hh] at ht
  · have hni : i ∉ s.held.map Prod.fst := fun hm => hh (hholds.2 hm)
    rw [Bool.not_eq_true] at hh
    cases hle : layout[i]? with
    | none =>
      have hnl : ¬ i < layout.length := by rw [List.getElem?_eq_none_iff] at hle; omega
      have hri : Res.index refs i = .panic .index := by
        have := layoutOf_get hlay i
        rw [hle] at this
        simp only [Option.map_none, Option.map_eq_none_iff] at this
        unfold Res.index
        rw [this]
      constructor
      · intro ht; simp [State.takes, hh, hnl] at ht
      · intro _
        rcases Chorded.Idle.press_cases h.idle i with ⟨ch, hch⟩ | ⟨p, hp⟩
        · refine ⟨.index, ?_⟩
          rw [hproc ch hch, hh]
          simp only [Bool.false_eq_true, if_false, hri]
          rfl
        · refine ⟨p, ?_⟩
          have hnp := notifyPressed_eq ⟨system K, refs, S⟩ km.ctx (.input (.press i)) (fun _ _ _ => []) km.pressed km.sched
            (fun j r ks hm => updateState_quiet h.held km.ctx (.input (.press i)) (by intro j; simp) j r ks hm)
          have hnil : eventsOf (fun _ _ _ => []) km.pressed = ([] : KeyEvents Ev) := by
            simp only [eventsOf, List.flatMap_eq_nil_iff]; intro x _; cases x <;> rfl
          rw [hnil] at hnp
          simp only [processInputN, processInput_none _ h.pend, processDirect, notifyAll, hnp, Sched.scheduleAll, Res.map_ok, Res.ok_bind]
          rw [show (system K).ctxEvent km.ctx (.input (.press i)) = km.ctx.handleEvent (.input (.press i)) from rfl, ctx_press h.quiet, hp]
          rfl
    | some e =>
      have hlt : i < layout.length := (List.getElem?_eq_some_iff.1 hle).1
      obtain ⟨r0, hr0, he0⟩ : ∃ r0, refs[i]? = some r0 ∧ entryOf K r0 = some e := by
        have := layoutOf_get hlay i
        rw [hle] at this
        simpa [Option.map_eq_some_iff] using this
      have hri : Res.index refs i = .ok r0 := by simpa using hr0
      have hef : e.Fits s.on.length := by rw [h.layerCount]; exact hfit e (List.mem_of_getElem? hle)
      by_cases h16 : s.held.length < 16
      · obtain ⟨ch, hch, hidle⟩ := h.idle.press hni (by omega) (by simpa using h16)
        constructor
        · intro _
          obtain ⟨r, m', hr, hrf, hloop⟩ := press_entry (refs := refs) (S := S) (he := handleEvent ⟨system K, refs, S⟩ (n + 2)) (m := n) (i := i)
            (km := { km with ctx := { km.ctx with chorded := ch } }) he0 h.layers h.dflt (by rw [h.layerCount]; exact h.dfltOk) hef
          have hq : Quiet ({ km.ctx with chorded := ch } : Ctx) := ⟨h.active, h.pressedIdx, h.caps, h.quiet.layer⟩
          obtain ⟨hok, _⟩ := press_cell (refs := refs) (S := S) (n := n + 1) (m := m') (k := n) (i := i)
            (km := { km with ctx := { km.ctx with chorded := ch } }) h.pend h.pending h.held hq hr h.layers h.dflt hrf
          obtain ⟨l, f, h1, h2, h3⟩ := hok (by show km.pressed.length < 16; omega)
          refine ⟨{ km.ctx with chorded := ch, layered := l }, km.pressed ++ [.key i r (ksOf r)], f, ?_, ?_, rfl⟩
          · rw [hproc ch hch, hh]
            simp only [Bool.false_eq_true, if_false, hri, Res.ok_bind]
            rw [hloop]
            exact h1
          · simp only [State.input, hh, Bool.false_eq_true, if_false, hle]
            have hpick : ∀ hs, (e.pick s).press { s with held := hs } = { (e.pick s).press s with held := hs } := by
              intro hs; cases e.pick s <;> rfl
            rw [hpick]
            refine ⟨h.pend, h.pending, ?_, ?_, ?_, h.active, h.pressedIdx, h.caps, h2, h3, ?_, ?_, ?_, ?_⟩
            · simp only [List.map_append, h.held, List.map_cons, List.map_nil, decode_key hr]
            · rw [List.map_append, List.nodup_append]
              refine ⟨h.nodup, by simp, ?_⟩
              intro a ha b hb
              simp only [List.map_cons, List.map_nil, List.mem_cons, List.not_mem_nil, or_false] at hb
              subst hb
              rintro rfl
              exact hni ha
            · simp only [List.length_append, List.length_cons, List.length_nil]; omega
            · rw [← h.layerCount]; exact press_on_length _ _
            · rw [h.layerCount] at hrf
              exact press_dflt hrf h.dfltOk
            · intro p hp
              simp only [List.mem_append, List.mem_cons, List.not_mem_nil, or_false] at hp
              rcases hp with hp | rfl
              · exact h.fits p hp
              · rw [h.layerCount] at hrf; exact hrf
            · simpa using hidle
        · intro ht
          simp [State.takes, hh, hlt, h16] at ht
      · constructor
        · intro ht; simp [State.takes, hh, h16] at ht
        · intro _
          rcases Chorded.Idle.press_cases h.idle i with ⟨ch, hch⟩ | ⟨p, hp⟩
          · obtain ⟨r, m', hr, hrf, hloop⟩ := press_entry (refs := refs) (S := S) (he := handleEvent ⟨system K, refs, S⟩ (n + 2)) (m := n) (i := i)
              (km := { km with ctx := { km.ctx with chorded := ch } }) he0 h.layers h.dflt (by rw [h.layerCount]; exact h.dfltOk) hef
            have hq : Quiet ({ km.ctx with chorded := ch } : Ctx) := ⟨h.active, h.pressedIdx, h.caps, h.quiet.layer⟩
            obtain ⟨_, hno⟩ := press_cell (refs := refs) (S := S) (n := n + 1) (m := m') (k := n) (i := i)
              (km := { km with ctx := { km.ctx with chorded := ch } }) h.pend h.pending h.held hq hr h.layers h.dflt hrf
            obtain ⟨p, hp⟩ := hno (by show ¬ km.pressed.length < 16; omega)
            refine ⟨p, ?_⟩
            rw [hproc ch hch, hh]
            simp only [Bool.false_eq_true, if_false, hri, Res.ok_bind]
            rw [hloop, hp]
            rfl
          · refine ⟨p, ?_⟩
            have hnp := notifyPressed_eq ⟨system K, refs, S⟩ km.ctx (.input (.press i)) (fun _ _ _ => []) km.pressed km.sched
              (fun j r ks hm => updateState_quiet h.held km.ctx (.input (.press i)) (by intro j; simp) j r ks hm)
            have hnil : eventsOf (fun _ _ _ => []) km.pressed = ([] : KeyEvents Ev) := by
              simp only [eventsOf, List.flatMap_eq_nil_iff]; intro x _; cases x <;> rfl
            rw [hnil] at hnp
            simp only [processInputN, processInput_none _ h.pend, processDirect, notifyAll, hnp, Sched.scheduleAll, Res.map_ok, Res.ok_bind]
            rw [show (system K).ctxEvent km.ctx (.input (.press i)) = km.ctx.handleEvent (.input (.press i)) from rfl, ctx_press h.quiet, hp]
            rfl

end Verif.Comp
