import Verif.Lemmas.TimedSim

/-!
# A waiting tap-hold key is decided
-/

namespace Verif.Comp

open Board Timed

/-! ## The kept events -/

theorem requeue_ok (C : Cfg Ref Ev Ctx PKS KS) {ies q : List InputEvent} (i : Nat) (s : Sched Ev) (h : ies.length + q.length ≤ 31) :
    requeue C i (ies.map Event.input) q s = .ok (q ++ ies, s) := by
  induction ies generalizing q with
  | nil => simp [requeue]
  | cons e es ih =>
    simp only [List.length_cons] at h
    have hp : pushCap inputCap q e = .ok (q ++ [e]) := by
      unfold pushCap inputCap
      rw [if_pos (by omega)]
    simp only [List.map_cons, requeue, hp, Res.ok_bind]
    rw [ih (by simp only [List.length_append, List.length_cons, List.length_nil]; omega)]
    simp

theorem isOwn_input (i : Nat) (e : InputEvent) : isOwn i (Event.input e : Event Ev) = ofKey i e := by
  cases e <;> simp [isOwn, ofKey, eq_comm]

theorem requeueList_inputs (i : Nat) (es : List InputEvent) :
    requeueList i (es.map (Event.input : InputEvent → Event Ev)) =
      ((es.filter (fun e => !ofKey i e) ++ (es.filter (ofKey i)).getLast?.toList).map Event.input) := by
  unfold requeueList
  have h1 : (es.map (Event.input : InputEvent → Event Ev)).filter (fun e => !isOwn i e) = (es.filter (fun e => !ofKey i e)).map Event.input := by
    rw [List.filter_map]
    congr 1
    apply List.filter_congr
    intro e _
    simp [isOwn_input]
  have h2 : (es.map (Event.input : InputEvent → Event Ev)).filter (isOwn i) = (es.filter (ofKey i)).map Event.input := by
    rw [List.filter_map]
    congr 1
    apply List.filter_congr
    intro e _
    simp [isOwn_input]
  rw [h1, h2, List.map_append, List.getLast?_map]
  cases (es.filter (ofKey i)).getLast? <;> rfl

variable {K : Keys} {refs : List Ref} {S : Search}

/-- The waiting key of the keymap. -/
def pendOf (w : Waiting) (k : Nat) (w' : Option Nat) : Pending Ref Ev PKS :=
  ⟨w.key, .tapHold k, .tapHold ⟨w'⟩, w.seen.map Event.input⟩

theorem resolveEnter_ok {km : CKM} {w : Waiting} {p : Pending Ref Ev PKS} {ks : KS} (hi : p.idx = w.key)
    (hq : p.queued = w.seen.map Event.input) (h16 : km.pressed.length < 16) (h31 : (w.kept ++ km.inq).length ≤ 31) :
    resolveEnter ⟨system K, refs, S⟩ km p ks =
      .ok { km with pend := none, pressed := km.pressed ++ [.key w.key p.ref ks], sched := km.sched.cancel w.key, inq := w.kept ++ km.inq } := by
  unfold resolveEnter
  have hp : pushCap maxPressedKeys km.pressed (PressedInput.key p.idx p.ref ks) = .ok (km.pressed ++ [.key p.idx p.ref ks]) := by
    unfold pushCap maxPressedKeys
    rw [if_pos h16]
  simp only [List.length_append] at h31
  have hr : requeue ⟨system K, refs, S⟩ 1 (requeueList p.idx p.queued) [] (km.sched.cancel p.idx) = .ok (w.kept, km.sched.cancel p.idx) := by
    rw [hq, hi, requeueList_inputs]
    have := requeue_ok (⟨system K, refs, S⟩ : Cfg Ref Ev Ctx PKS KS) (ies := w.kept) (q := []) 1 (km.sched.cancel w.key)
      (by simp only [List.length_nil]; omega)
    simpa [Waiting.kept] using this
  have he : extendCap inputCap w.kept km.inq = .ok (w.kept ++ km.inq) := by
    rw [extendCap_eq, if_pos (.inr (by unfold inputCap; omega))]
  simp only [hp, Res.ok_bind, hr, he, Res.pure_eq]
  rw [hi]

/-- The waiting key becomes a plain key or layer key. -/
theorem settle_cell {count n m N : Nat} {J : Chorded.Ctx → Prop} {km : CKM} {s : Board.State} {w : Waiting} {p : Pending Ref Ev PKS} {r : Ref} {c : Cell}
    (h : CoreWith K count J km s) (hi : p.idx = w.key) (hq : p.queued = w.seen.map Event.input) (hn : w.key ∉ s.held.map Prod.fst)
    (h16 : s.held.length < 16) (hr : cellOf K r = some c) (hf : c.Fits count) (h31 : (w.kept ++ km.inq).length ≤ 31) :
    ∃ l f, pendLoop ⟨system K, refs, S⟩ (handleEvent ⟨system K, refs, S⟩ (n + 1)) (N + 2) (m + 1) km p (.key r) =
        .ok { km with pend := none, ctx := { km.ctx with layered := l }, pressed := km.pressed ++ [.key w.key r (ksOf r)], fired := f,
                                      sched := km.sched.cancel w.key, inq := w.kept ++ km.inq } ∧
      CoreWith K count J { km with pend := none, ctx := { km.ctx with layered := l }, pressed := km.pressed ++ [.key w.key r (ksOf r)], fired := f,
                                      sched := km.sched.cancel w.key, inq := w.kept ++ km.inq } (hold s w.key c) := by
  obtain ⟨pkr, es, hnpk, hes, hpkr⟩ := newPressedKey_cell hr km.ctx w.key
  have hko := keyOutput_cell hr
  have hq0 := h.pending
  have hlen : km.pressed.length < 16 := by rw [h.length]; exact h16
  have hh' : (km.pressed ++ [PressedInput.key w.key r (ksOf r)]).map (decode K) = (s.held ++ [(w.key, c)]).map some := by
    rw [List.map_append, h.held, List.map_append]
    simp [decode_key hr]
  -- the state when the key is held and its events are to be handled
  let km1 : List (Option (Event Ev)) → CKM := fun q =>
    { km with pend := none, pressed := km.pressed ++ [.key w.key r (ksOf r)],
              sched := { km.sched.cancel w.key with pending := q }, inq := w.kept ++ km.inq }
  have loop : ∀ q : List (Option (Event Ev)), km.sched.scheduleAll S es = .ok { km.sched with pending := q } →
      pendLoop ⟨system K, refs, S⟩ (handleEvent ⟨system K, refs, S⟩ (n + 1)) (N + 2) (m + 1) km p (.key r) =
        (drain (handleEvent ⟨system K, refs, S⟩ (n + 1)) (N + 2) (km1 q) >>= fun km2 =>
          match c with
          | .out ko => handleEvent ⟨system K, refs, S⟩ (n + 1) km2 (.keymap (.resolved w.key ko))
          | _ => .ok km2) := by
    intro q hs
    have hent := resolveEnter_ok (K := K) (refs := refs) (S := S) (km := { km with sched := { km.sched with pending := q } })
      (p := { p with ref := r }) (ks := ksOf r) (w := w) hi hq hlen h31
    simp only [pendLoop]
    rw [show (system K).newPressedKey p.idx km.ctx r = newPressedKey K p.idx km.ctx r from rfl, hi, hnpk]
    simp only [Res.ok_bind, hs]
    rcases hpkr with rfl | ⟨rfl, hno, rfl⟩
    · simp only [resolve]
      rw [← hi, hent]
      simp only [Res.ok_bind]
      rw [show (system K).keyOutput r (ksOf r) = keyOutput K r (ksOf r) from rfl, hko, hi]
      cases c <;> rfl
    · simp only [resolve]
      rw [show (system K).noOp = ksOf r from hno.symm, ← hi, hent]
      simp only [Res.ok_bind]
      rw [show (system K).keyOutput r (ksOf r) = keyOutput K r (ksOf r) from rfl, hko]
      rfl
  have hcore : ∀ l f, l.layers = (c.press s).on.map Layered.act → l.defaultLayer = (c.press s).dflt →
      CoreWith K count J { km with pend := none, ctx := { km.ctx with layered := l }, pressed := km.pressed ++ [.key w.key r (ksOf r)], fired := f,
                                      sched := km.sched.cancel w.key, inq := w.kept ++ km.inq } (hold s w.key c) :=
    fun l f h2 h3 => h.hold hn h16 (heldAs_cell hr) hf hq0 rfl rfl h2 h3
  have hsame : ({ km.sched with pending := [] } : Sched Ev) = km.sched := by rw [← hq0]
  have hfit : c.Fits s.on.length := by rw [h.layerCount]; exact hf
  cases hc : c with
  | out ko =>
    subst hc
    have he : es = [] := hes
    subst he
    have hs : km.sched.scheduleAll S [] = .ok { km.sched with pending := [] } := by rw [hsame]; rfl
    refine ⟨km.ctx.layered, km.fired, ?_, hcore _ _ h.layers h.dflt⟩
    rw [loop _ hs, drain_empty (by rfl)]
    simp only [Res.ok_bind]
    rw [handleEvent_quiet (C := ⟨system K, refs, S⟩) (ev := .keymap (.resolved w.key ko)) (ctx := km.ctx)
      (km := km1 []) rfl (by intro ie; simp)
      (fun j r ks hm => updateState_quiet hh' km.ctx (.keymap (.resolved w.key ko)) (by intro j; simp) j r ks hm) (ctx_resolved h.quiet w.key ko)]
    simp only [KM.fire, km1]
    rw [show ({ km.sched.cancel w.key with pending := [] } : Sched Ev) = km.sched.cancel w.key by
      simp only [Sched.cancel]; rw [hq0]]
  | nothing =>
    subst hc
    obtain ⟨cb, rfl⟩ := hes
    have hs := Sched.scheduleAll_imm S km.sched hq0 (.keymap (.callback cb))
    obtain ⟨f, hf'⟩ := callback_event (K := K) (refs := refs) (S := S) (n := n) (m := N) (cb := cb)
      (km := { km with pend := none, pressed := km.pressed ++ [.key w.key r (ksOf r)], sched := km.sched.cancel w.key, inq := w.kept ++ km.inq })
      rfl hh' hq0
    refine ⟨km.ctx.layered, f, ?_, hcore _ _ h.layers h.dflt⟩
    rw [loop _ hs]
    simp only [km1]
    rw [hf']
    rfl
  | _ =>
    all_goals
      have hes' := hes
      rw [hc] at hes'
      obtain ⟨md, rfl, hmd⟩ := hes'
      have hs := Sched.scheduleAll_imm S km.sched hq0 (.key w.key (.layered md.newPressedKey.2))
      have : ∃ l', km.ctx.layered.handleLayerEvent md.newPressedKey.2 = .ok l' ∧ l'.layers = (c.press s).on.map Layered.act ∧
          l'.defaultLayer = (c.press s).dflt := by
        rw [hc] at hfit ⊢
        rcases hmd with ⟨l, h'⟩ | ⟨l, h'⟩ | ⟨b, h'⟩ | ⟨l, h'⟩
        · exact Layered.event_press (l := l) (b := 0) h.layers h.dflt (.inl h') hfit
        · exact Layered.event_press (l := l) (b := 0) h.layers h.dflt (.inr (.inl h')) hfit
        · exact Layered.event_press (l := 0) (b := b) h.layers h.dflt (.inr (.inr (.inl h'))) hfit
        · exact Layered.event_press (l := l) (b := 0) h.layers h.dflt (.inr (.inr (.inr h'))) hfit
      obtain ⟨l', h1, h2, h3⟩ := this
      have hx := layered_event (K := K) (refs := refs) (S := S) (n := n) (m := N) (i := w.key)
        (km := { km with pend := none, pressed := km.pressed ++ [.key w.key r (ksOf r)], sched := km.sched.cancel w.key, inq := w.kept ++ km.inq })
        rfl hh' hq0 h1
      refine ⟨l', km.fired, ?_, by rw [← hc]; exact hcore _ _ h2 h3⟩
      rw [loop _ hs]
      simp only [km1]
      rw [hx, hc]
      rfl

end Verif.Comp
