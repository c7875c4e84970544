import Verif.Lemmas.ChordStep

/-!
# A waiting key of a chord is decided
-/

namespace Verif.Comp

open Board (Cell Entry lookup)
open Chords (Pos Outcome Waiting Rules)
open _root_.Verif.Chorded (resolutionOf Resolution Tracks)

variable {K : Keys} {refs : List Ref} {S : Search}

theorem ctx_chorded (c : Ctx) (i : Nat) (e : Chorded.Ev) :
    c.handleEvent (.key i (.chorded e)) = (fun ch => ({ c with chorded := ch }, [])) <$> c.chorded.handleEvent (.key i e) := by
  unfold Ctx.handleEvent sub
  simp only [Event.tryInto, Ev.toAutomation?, Ev.toCapsWord?, Ev.toChorded?, Ev.toLayered?, Ev.toSticky?, Option.map_none, Option.map_some,
    Res.ok_bind]
  cases c.chorded.handleEvent (.key i e) with
  | ok l => simp [KeyEvents.mapEv, KeyEvents.extend]
  | panic p => rfl
  | fuel => rfl

/-- The event of a decided key. -/
abbrev decidedEv (i : Nat) (o : Outcome) : Event Ev := .key i (.chorded (.chordResolved (resolutionOf o)))

/-- The first event is the one of the decided key: the context learns of it. -/
theorem drain_decided {n N : Nat} {km : CKM} {hs : List (Nat × Cell)} {i : Nat} {o : Outcome} {ch : Chorded.Ctx} {q : List (Option (Event Ev))}
    (hp : km.pend = none) (hh : km.pressed.map (decode K) = hs.map some) (hq : km.sched.pending = some (decidedEv i o) :: q)
    (hc : km.ctx.chorded.handleEvent (.key i (.chordResolved (resolutionOf o))) = .ok ch) :
    drain (handleEvent ⟨system K, refs, S⟩ (n + 1)) (N + 1) km =
      drain (handleEvent ⟨system K, refs, S⟩ (n + 1)) N { km with ctx := { km.ctx with chorded := ch }, sched := { km.sched with pending := q } } := by
  rw [drain_one hq]
  rw [handleEvent_quiet (C := ⟨system K, refs, S⟩) (ev := decidedEv i o) (ctx := { km.ctx with chorded := ch })
    (km := { km with sched := { km.sched with pending := q } }) hp (by intro ie; simp)
    (fun j r ks hm => updateState_quiet hh km.ctx (decidedEv i o) (by intro j; simp) j r ks hm)
    (by show km.ctx.handleEvent _ = _; rw [ctx_chorded, hc]; rfl)]
  rfl

theorem newPressedKey_cell_ctx {r : Ref} {c : Cell} (h : cellOf K r = some c) (c1 c2 : Ctx) (i : Nat) :
    newPressedKey K i c1 r = newPressedKey K i c2 r := by
  cases r with
  | layered r => cases r <;> first | rfl | simp [cellOf] at h
  | _ => first | rfl | simp [cellOf] at h

/-- The scheduler with one more immediate event in front. -/
theorem scheduleAll_front {s : Sched Ev} {x : Event Ev} {es : KeyEvents Ev} (hs : s.pending = []) (hes : es = [] ∨ ∃ y, es = [SchEv.imm y]) :
    ∃ q, s.scheduleAll S es = .ok { s with pending := q } ∧
      ({ s with pending := [some x] } : Sched Ev).scheduleAll S es = .ok { s with pending := some x :: q } := by
  rcases hes with rfl | ⟨y, rfl⟩
  · refine ⟨[], ?_, rfl⟩
    simp only [Sched.scheduleAll]
    rw [← hs]
  · exact ⟨[some y], Sched.scheduleAll_imm S s hs y, by
      simp [Sched.scheduleAll, Sched.scheduleEvent, SchEv.imm, Sched.enqueue, pushCap, Sched.pendingCap]⟩

theorem PressEvents.short {i : Nat} {r : Ref} {c : Cell} {es : KeyEvents Ev} (h : PressEvents K i r c es) : es = [] ∨ ∃ y, es = [SchEv.imm y] := by
  cases c with
  | out ko => exact .inl h
  | nothing => obtain ⟨cb, h⟩ := h; exact .inr ⟨_, h⟩
  | hold l => obtain ⟨m, h, _⟩ := h; exact .inr ⟨_, h⟩
  | toggle l => obtain ⟨m, h, _⟩ := h; exact .inr ⟨_, h⟩
  | setLayers l => obtain ⟨m, h, _⟩ := h; exact .inr ⟨_, h⟩
  | default l => obtain ⟨m, h, _⟩ := h; exact .inr ⟨_, h⟩

/-- Becoming a plain key or layer key, with the event of the decided key in front. -/
theorem pendLoop_decided {n m N count : Nat} {J : Chorded.Ctx → Prop} {km : CKM} {s : Board.State} {w : Timed.Waiting} {p : Pending Ref Ev PKS}
    {r : Ref} {c : Cell} {o : Outcome} {ch : Chorded.Ctx} (h : CoreWith K count J km s) (hi : p.idx = w.key) (hq : p.queued = w.seen.map Event.input)
    (h16 : s.held.length < 16) (hr : cellOf K r = some c) (h31 : (w.kept ++ km.inq).length ≤ 31)
    (hc : km.ctx.chorded.handleEvent (.key w.key (.chordResolved (resolutionOf o))) = .ok ch) :
    pendLoop ⟨system K, refs, S⟩ (handleEvent ⟨system K, refs, S⟩ (n + 1)) (N + 1) (m + 1)
        { km with sched := { km.sched with pending := [some (decidedEv w.key o)] } } p (.key r) =
      pendLoop ⟨system K, refs, S⟩ (handleEvent ⟨system K, refs, S⟩ (n + 1)) N (m + 1)
        { km with ctx := { km.ctx with chorded := ch } } p (.key r) := by
  obtain ⟨pkr, es, hnpk, hes, hpkr⟩ := newPressedKey_cell hr km.ctx w.key
  have hlen : km.pressed.length < 16 := by rw [h.length]; exact h16
  have hh' : (km.pressed ++ [PressedInput.key w.key r (ksOf r)]).map (decode K) = (s.held ++ [(w.key, c)]).map some := by
    rw [List.map_append, h.held, List.map_append]
    simp [decode_key hr]
  obtain ⟨q, hq1, hq2⟩ := scheduleAll_front (S := S) (x := decidedEv w.key o) h.pending hes.short
  have hent : ∀ (ctx : Ctx) (q : List (Option (Event Ev))), resolveEnter ⟨system K, refs, S⟩ { km with ctx := ctx, sched := { km.sched with pending := q } } { p with ref := r } (ksOf r) =
      .ok { km with ctx := ctx, pend := none, pressed := km.pressed ++ [.key w.key r (ksOf r)],
                    sched := { km.sched.cancel w.key with pending := q }, inq := w.kept ++ km.inq } := by
    intro ctx q
    exact resolveEnter_ok (K := K) (refs := refs) (S := S) (km := { km with ctx := ctx, sched := { km.sched with pending := q } })
      (p := { p with ref := r }) (ks := ksOf r) (w := w) hi hq hlen h31
  have key : ∀ ks, ks = ksOf r →
      resolve ⟨system K, refs, S⟩ (handleEvent ⟨system K, refs, S⟩ (n + 1)) (N + 1)
          { km with sched := { km.sched with pending := some (decidedEv w.key o) :: q } } { p with ref := r } ks =
        resolve ⟨system K, refs, S⟩ (handleEvent ⟨system K, refs, S⟩ (n + 1)) N
          { km with ctx := { km.ctx with chorded := ch }, sched := { km.sched with pending := q } } { p with ref := r } ks := by
    rintro ks rfl
    simp only [resolve]
    rw [hent km.ctx, hent]
    simp only [Res.ok_bind]
    exact congrArg (fun x => x >>= _) (drain_decided (K := K) (refs := refs) (S := S) (i := w.key) (o := o) (ch := ch) (q := q)
      (km := { km with pend := none, pressed := km.pressed ++ [.key w.key r (ksOf r)],
                       sched := { km.sched.cancel w.key with pending := some (decidedEv w.key o) :: q }, inq := w.kept ++ km.inq }) rfl hh' rfl hc)
  simp only [pendLoop]
  rw [show (system K).newPressedKey p.idx km.ctx r = newPressedKey K p.idx km.ctx r from rfl,
    show (system K).newPressedKey p.idx { km.ctx with chorded := ch } r = newPressedKey K p.idx { km.ctx with chorded := ch } r from rfl,
    newPressedKey_cell_ctx hr { km.ctx with chorded := ch } km.ctx, hi, hnpk]
  simp only [Res.ok_bind, hq1, hq2]
  rcases hpkr with rfl | ⟨rfl, hno, rfl⟩
  · simp only
    rw [← hi]
    have := key _ rfl
    rw [← hi] at this
    exact this
  · simp only
    rw [← hi]
    have := key _ hno.symm
    rw [← hi] at this
    exact this

/-- A layered key becomes the key the board picks. -/
theorem pend_entry {he : Handler Ref Ev Ctx PKS KS} {m N : Nat} {km : CKM} {s : Board.State} {p : Pending Ref Ev PKS} {r0 : Ref} {e : Entry}
    (h : entryOf K r0 = some e) (hl : km.ctx.layered.layers = s.on.map Layered.act) (hd : km.ctx.layered.defaultLayer = s.dflt)
    (hdf : ∀ d, s.dflt = some d → 0 < d ∧ d ≤ s.on.length) (hf : e.Fits s.on.length) :
    ∃ r m' p', p'.idx = p.idx ∧ p'.queued = p.queued ∧ cellOf K r = some (e.pick s) ∧ (e.pick s).Fits s.on.length ∧
      pendLoop ⟨system K, refs, S⟩ he N (m + 2) km p (.key r0) = pendLoop ⟨system K, refs, S⟩ he N (m' + 1) km p' (.key r) := by
  have plain : ∀ c, cellOf K r0 = some c → e = .cell c → ∃ r m' p', p'.idx = p.idx ∧ p'.queued = p.queued ∧ cellOf K r = some (e.pick s) ∧
      (e.pick s).Fits s.on.length ∧
      pendLoop ⟨system K, refs, S⟩ he N (m + 2) km p (.key r0) = pendLoop ⟨system K, refs, S⟩ he N (m' + 1) km p' (.key r) := by
    rintro c hc rfl
    exact ⟨r0, m + 1, p, rfl, rfl, hc, hf, rfl⟩
  unfold entryOf at h
  split at h
  · rename_i j
    split at h
    · rename_i k hk
      split at h
      · rename_i b cs hb hcs
        cases h
        obtain ⟨hl1, _, _⟩ := cellsOf_spec hcs
        refine ⟨lookup s.on s.dflt k.base k.layered, m, { p with ref := .layered (.layered j) }, rfl, rfl,
          lookup_cell hb hcs s.on (by rw [hl1, hf.2.1]) s.dflt, ?_, ?_⟩
        · exact Cell.Fits_lookup (P := fun c => c.Fits s.on.length) hf.1 hf.2.2 hf.2.1.symm
        · have hi : Res.index K.layered j = .ok k := by simpa using hk
          have hn := Layered.newPressedKey_lookup (k := k) hl (by rw [hl1, hf.2.1]) (by rw [hd]; exact hdf)
          rw [hd] at hn
          have : newPressedKey K p.idx km.ctx (.layered (.layered j)) = .ok (.newPressedKey (.key (lookup s.on s.dflt k.base k.layered)), []) := by
            simp only [newPressedKey, Layered.sysNewPressedKey, hi, hn, Res.ok_bind, Res.pure_eq, KeyEvents.mapEv, List.map_nil]
          rw [pendLoop]
          rw [show (system K).newPressedKey ({ p with ref := .layered (.layered j) } : Pending Ref Ev PKS).idx km.ctx (.layered (.layered j)) =
            newPressedKey K p.idx km.ctx (.layered (.layered j)) from rfl, this]
          simp only [Res.ok_bind, Sched.scheduleAll]
      · cases h
    · cases h
  · simp only [Option.map_eq_some_iff] at h
    obtain ⟨c, hc, rfl⟩ := h
    exact plain c hc rfl

/-- A waiting key is decided and held. -/
theorem chord_settle {n m N count : Nat} {J J' : Chorded.Ctx → Prop} {km : CKM} {s : Board.State} {w : Timed.Waiting} {p : Pending Ref Ev PKS}
    {nk : NPK Ref} {e : Entry} {o : Outcome} {ch : Chorded.Ctx} {cr : Chorded.Ref} (h : CoreWith K count J km s) (hi : p.idx = w.key)
    (hq : p.queued = w.seen.map Event.input) (hpr : p.ref = .chorded cr) (hn : w.key ∉ s.held.map Prod.fst)
    (h16 : s.held.length < 16) (hnk : NpkIs K nk e) (hf : e.Fits count) (h31 : (w.kept ++ km.inq).length ≤ 31)
    (hc : km.ctx.chorded.handleEvent (.key w.key (.chordResolved (resolutionOf o))) = .ok ch) (hJ : J' ch) :
    ∃ l f r, pendLoop ⟨system K, refs, S⟩ (handleEvent ⟨system K, refs, S⟩ (n + 1)) (N + 3) (m + 2)
          { km with sched := { km.sched with pending := [some (decidedEv w.key o)] } } p nk =
        .ok { km with pend := none, ctx := { km.ctx with chorded := ch, layered := l }, pressed := km.pressed ++ [.key w.key r (ksOf r)], fired := f,
                      sched := km.sched.cancel w.key, inq := w.kept ++ km.inq } ∧
      CoreWith K count J' { km with pend := none, ctx := { km.ctx with chorded := ch, layered := l }, pressed := km.pressed ++ [.key w.key r (ksOf r)],
                                    fired := f, sched := km.sched.cancel w.key, inq := w.kept ++ km.inq } (Chords.hold s w.key (e.pick s)) := by
  have hch : CoreWith K count J' { km with ctx := { km.ctx with chorded := ch } } s :=
    ⟨h.pending, h.held, h.nodup, h.len, h.active, h.pressedIdx, h.caps, h.layers, h.dflt, h.layerCount, h.dfltOk, h.fits, hJ⟩
  rcases hnk with ⟨r0, rfl, he⟩ | ⟨rfl, rfl⟩
  · obtain ⟨r, m', p', hpi, hpq, hr, hrf, hloop⟩ := pend_entry (K := K) (refs := refs) (S := S) (he := handleEvent ⟨system K, refs, S⟩ (n + 1))
      (N := N + 3) (m := m) (p := p) (s := s)
      (km := { km with sched := { km.sched with pending := [some (decidedEv w.key o)] } }) he h.layers h.dflt
      (by rw [h.layerCount]; exact h.dfltOk) (by rw [h.layerCount]; exact hf)
    rw [hloop, pendLoop_decided (N := N + 2) h (hpi.trans hi) (hpq.trans hq) h16 hr h31 hc]
    rw [h.layerCount] at hrf
    obtain ⟨l, f, h1, h2⟩ := settle_cell (K := K) (refs := refs) (S := S) (n := n) (m := m') (N := N) (w := w) (p := p')
      (km := { km with ctx := { km.ctx with chorded := ch } }) hch (hpi.trans hi) (hpq.trans hq) hn h16 hr hrf h31
    exact ⟨l, f, r, h1, h2⟩
  · refine ⟨km.ctx.layered, km.fired, .chorded cr, ?_, ?_⟩
    · have hlen : km.pressed.length < 16 := by rw [h.length]; exact h16
      have hent := resolveEnter_ok (K := K) (refs := refs) (S := S)
        (km := { km with sched := { km.sched with pending := [some (decidedEv w.key o)] } }) (p := p) (ks := (.noOp : KS)) (w := w) hi hq hlen h31
      have hh' : (km.pressed ++ [PressedInput.key w.key (Ref.chorded cr) KS.noOp]).map (decode K) = (s.held ++ [(w.key, Cell.nothing)]).map some := by
        rw [List.map_append, h.held, List.map_append]
        simp [decode, heldAs, ksOf]
      simp only [pendLoop, resolve]
      rw [show (system K).noOp = KS.noOp from rfl, hent]
      simp only [Res.ok_bind]
      rw [hpr]
      have hd := drain_decided (K := K) (refs := refs) (S := S) (n := n) (i := w.key) (o := o) (ch := ch) (q := []) (N := N + 2)
        (km := { km with pend := none, pressed := km.pressed ++ [.key w.key (Ref.chorded cr) KS.noOp],
                         sched := { km.sched.cancel w.key with pending := [some (decidedEv w.key o)] }, inq := w.kept ++ km.inq }) rfl hh' rfl hc
      refine (congrArg (fun x => x >>= _) hd).trans ?_
      rw [drain_empty (by rfl)]
      simp only [Res.ok_bind]
      rw [show (system K).keyOutput (.chorded cr) .noOp = keyOutput K (.chorded cr) .noOp from rfl]
      simp only [keyOutput, Res.ok_bind, Res.pure_eq]
      rw [show ({ km.sched.cancel w.key with pending := [] } : Sched Ev) = km.sched.cancel w.key by
        simp only [Sched.cancel]; rw [h.pending]]
      rfl
    · exact hch.hold (l := km.ctx.layered) (c := .nothing) (r := .chorded cr) hn h16 rfl trivial h.pending rfl rfl h.layers h.dflt

end Verif.Comp
