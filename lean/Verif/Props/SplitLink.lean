import Verif.Spec.SplitLink

/-!
# C68, C69, C70: the wire between the halves
-/

namespace Verif.SplitLink

open Verif.Split
open Verif.CApi (CEvent)

theorem Fits.sendable {ev : CEvent} (h : Fits ev) : Sendable ev.toInput := by
  obtain ⟨t, v⟩ := ev
  rcases h.1 with rfl | rfl <;> exact h.2

theorem Fits.serialize {ev : CEvent} (h : Fits ev) : serializeEvent ev = .ok (message ev) :=
  (C41_roundtrip _ h.sendable).1

theorem Fits.length {ev : CEvent} (h : Fits ev) : (message ev).length = 4 := (C41_roundtrip _ h.sendable).2.1

/-! ## Sending -/

/-- The event `keyboard_split_write` has taken and not yet put between tail and head. -/
def Tx.late (s : Tx) : List CEvent :=
  match s.writing with
  | .store ev _ => [ev]
  | .move _ => s.queue[s.head]?.toList
  | _ => []

/-- What holds at every step: `es` are the events in the queue, `sent` those before. -/
structure Tx.Inv (s : Tx) (sent es : List CEvent) : Prop where
  qlen : s.queue.length = 16
  hh : s.head < 16
  ht : s.tail < 16
  len : es.length = (s.head + 16 - s.tail) % 16
  get : ∀ i : Nat, i < es.length → s.queue[(s.tail + i) % 16]? = es[i]?
  taken : s.taken = sent ++ es ++ s.late
  next : ∀ n, ((∃ ev, s.writing = .store ev n) ∨ s.writing = .move n) → n = (s.head + 1) % 16 ∧ es.length ≤ 14
  stall : s.writing ≠ .critical → s.busy = false → es = []
  bytes : s.out ++ s.dmaBuf.drop (4 - s.left) = sent.flatMap message
  dlen : s.dmaBuf.length = 4
  left : s.left ≤ 4
  busy : s.busy = (decide (s.left ≠ 0) || s.tc)
  tc : s.tc = true → s.left = 0
  fits : ∀ e ∈ s.taken, Fits e

theorem Tx.Inv.init : Tx.Inv {} [] [] where
  qlen := rfl
  hh := by decide
  ht := by decide
  len := rfl
  get := by intro i h; cases h
  taken := rfl
  next := by intro n h; rcases h with ⟨ev, h⟩ | h <;> cases h
  stall := fun _ _ => rfl
  bytes := rfl
  dlen := rfl
  left := by decide
  busy := rfl
  tc := by intro h; cases h
  fits := by intro e h; cases h

/-- Taking the event at the tail. -/
theorem Tx.Inv.start {s : Tx} {sent es : List CEvent} {e : CEvent} (h : s.Inv sent (e :: es)) (hl : s.left = 0) (w : Writing)
    (hw : w = s.writing ∨ w = .no ∧ s.writing = .critical) (b : Bool) :
    ({ s with writing := w, busy := b, tc := false } : Tx).start =
        .ok { s with writing := w, busy := b, tc := false, tail := txNext s.tail, dmaBuf := message e, left := 4 } ∧
      ({ s with writing := w, busy := true, tc := false, tail := txNext s.tail, dmaBuf := message e, left := 4 } : Tx).Inv (sent ++ [e]) es := by
  have h0 := h.get 0 (by simp)
  have hh := h.hh
  have ht := h.ht
  have hlen := h.len
  simp only [List.length_cons] at hlen
  rw [Nat.add_zero, Nat.mod_eq_of_lt ht] at h0
  have hf : Fits e := h.fits e (by rw [h.taken]; simp)
  refine ⟨by simp only [Tx.start, h0, List.getElem?_cons_zero, hf.serialize, Res.ok_bind]; rfl, ?_⟩
  have hb := h.bytes
  rw [hl] at hb
  have hd : s.dmaBuf.drop (4 - 0) = [] := List.drop_eq_nil_of_le (by rw [h.dlen]; decide)
  rw [hd, List.append_nil] at hb
  exact {
    qlen := h.qlen
    hh := hh
    ht := by simp only [txNext, txQueueSize]; omega
    len := by simp only [txNext, txQueueSize]; omega
    get := by
      intro i hi
      have := h.get (i + 1) (by simpa using hi)
      simp only [txNext, txQueueSize]
      rw [show ((s.tail + 1) % 16 + i) % 16 = (s.tail + (i + 1)) % 16 by omega, this]
      rfl
    taken := by
      show s.taken = _
      rw [h.taken]
      rcases hw with rfl | ⟨rfl, hw⟩
      · simp [Tx.late]
      · simp [Tx.late, hw]
    next := by
      intro n hn
      have : w = s.writing := by
        rcases hw with hw | ⟨rfl, hw⟩
        · exact hw
        · rcases hn with ⟨ev, hn⟩ | hn <;> cases hn
      subst this
      have := h.next n hn
      simp only [List.length_cons] at this
      exact ⟨this.1, by omega⟩
    stall := by intro _ h; cases h
    bytes := by
      show s.out ++ (message e).drop (4 - 4) = _
      rw [hb]; simp
    dlen := hf.length
    left := Nat.le_refl 4
    busy := by simp
    tc := by intro h'; cases h'
    fits := h.fits }

/-- The invariant is kept, and nothing panics. -/
theorem Tx.Inv.step {s : Tx} {sent es : List CEvent} (h : s.Inv sent es) (a : TxAct) (ha : a.Fits) :
    ∃ s' sent' es', s.step a = .ok s' ∧ s'.Inv sent' es' := by
  have hh := h.hh
  have ht := h.ht
  have hlen := h.len
  cases a with
  | write ev =>
    cases hw : s.writing with
    | no =>
      simp only [Tx.step, hw]
      by_cases hn : txNext s.head = s.tail
      · rw [if_pos hn]
        refine ⟨_, sent, es, rfl, { h with taken := ?_, next := ?_, stall := ?_ }⟩
        · have := h.taken
          simp only [Tx.late, hw] at this ⊢
          exact this
        · intro n hn'
          rcases hn' with ⟨ev', hn'⟩ | hn' <;> cases hn'
        · exact fun _ hb => h.stall (by rw [hw]; simp) hb
      · rw [if_neg hn]
        refine ⟨_, sent, es, rfl, { h with taken := ?_, next := ?_, stall := ?_, fits := ?_ }⟩
        · have := h.taken
          simp only [Tx.late, hw] at this ⊢
          rw [this]; simp
        · intro n hn'
          rcases hn' with ⟨ev', hn'⟩ | hn'
          · cases hn'
            refine ⟨rfl, ?_⟩
            simp only [txNext, txQueueSize] at hn
            omega
          · cases hn'
        · intro _ hb
          exact h.stall (by rw [hw]; simp) hb
        · intro e he
          rcases List.mem_append.1 he with he | he
          · exact h.fits e he
          · rw [List.mem_singleton.1 he]; exact ha
    | store ev n => exact ⟨s, sent, es, by simp only [Tx.step, hw], h⟩
    | move n => exact ⟨s, sent, es, by simp only [Tx.step, hw], h⟩
    | critical => exact ⟨s, sent, es, by simp only [Tx.step, hw], h⟩
  | go =>
    cases hw : s.writing with
    | no => exact ⟨s, sent, es, by simp only [Tx.step, hw], h⟩
    | store ev n =>
      have hn := h.next n (.inl ⟨ev, hw⟩)
      simp only [Tx.step, hw]
      refine ⟨_, sent, es, rfl, { h with qlen := ?_, get := ?_, taken := ?_, next := ?_, stall := ?_ }⟩
      · rw [List.length_set]; exact h.qlen
      · intro i hi
        show (s.queue.set s.head ev)[(s.tail + i) % 16]? = _
        rw [List.getElem?_set_ne (by omega)]
        exact h.get i hi
      · have := h.taken
        simp only [Tx.late, hw] at this ⊢
        rw [this, List.getElem?_set_self (by rw [h.qlen]; exact hh)]
        rfl
      · intro n' hn'
        rcases hn' with ⟨ev', hn'⟩ | hn' <;> cases hn'
        exact hn
      · intro _ hb
        exact h.stall (by rw [hw]; simp) hb
    | move n =>
      have hn := h.next n (.inr hw)
      obtain ⟨ev, hev⟩ : ∃ ev, s.queue[s.head]? = some ev := ⟨_, List.getElem?_eq_getElem (by rw [h.qlen]; exact hh)⟩
      simp only [Tx.step, hw]
      refine ⟨_, sent, es ++ [ev], rfl, { h with hh := ?_, len := ?_, get := ?_, taken := ?_, next := ?_, stall := ?_ }⟩
      · show n < 16
        omega
      · show _ = (n + 16 - s.tail) % 16
        rw [List.length_append, List.length_singleton]
        omega
      · intro i hi
        rw [List.length_append, List.length_singleton] at hi
        by_cases hi' : i < es.length
        · rw [List.getElem?_append_left hi']
          exact h.get i hi'
        · have : i = es.length := by omega
          subst this
          show s.queue[(s.tail + es.length) % 16]? = _
          rw [List.getElem?_append_right (Nat.le_refl _), Nat.sub_self, show (s.tail + es.length) % 16 = s.head by omega, hev]
          rfl
      · have := h.taken
        simp only [Tx.late, hw, hev, Option.toList_some] at this ⊢
        rw [this]; simp
      · intro n' hn'
        rcases hn' with ⟨ev', hn'⟩ | hn' <;> cases hn'
      · intro hc; exact absurd rfl hc
    | critical =>
      have h1 : ({ s with writing := .no } : Tx).Inv sent es ∨ (s.busy = false ∧ es ≠ []) := by
        by_cases hb : s.busy = false ∧ es ≠ []
        · exact .inr hb
        · refine .inl { h with taken := ?_, next := ?_, stall := ?_ }
          · have := h.taken
            simp only [Tx.late, hw] at this ⊢
            exact this
          · intro n' hn'
            rcases hn' with ⟨ev', hn'⟩ | hn' <;> cases hn'
          · intro _ hb'
            by_cases he : es = []
            · exact he
            · exact absurd ⟨hb', he⟩ hb
      simp only [Tx.step, hw]
      by_cases hb : s.busy = false
      · rw [if_pos hb]
        by_cases hht : s.head = s.tail
        · rw [if_neg (by simpa using hht)]
          have he : es = [] := List.eq_nil_of_length_eq_zero (by omega)
          rcases h1 with h1 | h1
          · exact ⟨_, sent, es, rfl, h1⟩
          · exact absurd he h1.2
        · rw [if_pos hht]
          have he : 0 < es.length := by omega
          cases es with
          | nil => cases he
          | cons e es =>
            have hbz := h.busy
            rw [hb] at hbz
            have hl0 : s.left = 0 := by
              by_cases hl : s.left = 0
              · exact hl
              · rw [decide_eq_true hl] at hbz; cases hbz
            have ht0 : s.tc = false := by
              cases htc : s.tc with
              | false => rfl
              | true => rw [htc, Bool.or_true] at hbz; cases hbz
            have h2 := h.start hl0 .no (.inr ⟨rfl, hw⟩) true
            rw [← ht0] at h2
            exact ⟨_, _, _, h2.1, h2.2⟩
      · rw [if_neg hb]
        rcases h1 with h1 | h1
        · exact ⟨_, sent, es, rfl, h1⟩
        · exact absurd h1.1 hb
  | byte =>
    by_cases hl : s.left = 0
    · exact ⟨s, sent, es, by simp only [Tx.step, if_pos hl], h⟩
    · have hl4 := h.left
      obtain ⟨b, hb⟩ : ∃ b, s.dmaBuf[4 - s.left]? = some b := ⟨_, List.getElem?_eq_getElem (by rw [h.dlen]; omega)⟩
      have htc : s.tc = false := by
        cases htc : s.tc with
        | false => rfl
        | true => exact absurd (h.tc htc) hl
      simp only [Tx.step, if_neg hl]
      refine ⟨_, sent, es, rfl, { h with bytes := ?_, left := ?_, busy := ?_, tc := ?_ }⟩
      · rw [← h.bytes]
        show s.out ++ (s.dmaBuf[4 - s.left]?).toList ++ s.dmaBuf.drop (4 - (s.left - 1)) = _
        rw [hb, show 4 - (s.left - 1) = 4 - s.left + 1 by omega, List.append_assoc]
        congr 1
        obtain ⟨hlt, hbe⟩ := List.getElem?_eq_some_iff.1 hb
        rw [List.drop_eq_getElem_cons hlt, hbe]
        rfl
      · show s.left - 1 ≤ 4
        omega
      · show s.busy = _
        rw [h.busy, htc]
        by_cases h1 : s.left = 1
        · simp [h1]
        · have : s.left - 1 ≠ 0 := by omega
          simp [h1, hl, this]
      · show (if s.left = 1 then true else s.tc) = true → s.left - 1 = 0
        intro hx
        by_cases h1 : s.left = 1
        · omega
        · rw [if_neg h1, htc] at hx; cases hx
  | irq =>
    by_cases htc : s.tc = true
    · have hl0 := h.tc htc
      simp only [Tx.step, if_pos htc]
      by_cases hht : s.head = s.tail
      · rw [if_neg (by simpa using hht)]
        have he : es = [] := List.eq_nil_of_length_eq_zero (by omega)
        subst he
        refine ⟨_, sent, [], rfl, { h with taken := h.taken, stall := fun _ _ => rfl, busy := ?_, tc := ?_ }⟩
        · show false = (decide (s.left ≠ 0) || false)
          simp [hl0]
        · intro hx; cases hx
      · rw [if_pos hht]
        have he : 0 < es.length := by omega
        cases es with
        | nil => cases he
        | cons e es =>
          have h2 := h.start hl0 s.writing (.inl rfl) s.busy
          exact ⟨_, _, _, by rw [h2.1]; rfl, h2.2⟩
    · exact ⟨s, sent, es, by simp only [Tx.step, if_neg htc], h⟩

theorem Tx.Inv.run {s : Tx} {sent es : List CEvent} (h : s.Inv sent es) (acts : List TxAct) (ha : ∀ a ∈ acts, a.Fits) :
    ∃ s' sent' es', s.run acts = .ok s' ∧ s'.Inv sent' es' := by
  induction acts generalizing s sent es with
  | nil => exact ⟨s, sent, es, rfl, h⟩
  | cons a as ih =>
    obtain ⟨s1, sent1, es1, h1, hi⟩ := h.step a (ha a (by simp))
    obtain ⟨s2, sent2, es2, h2, hi2⟩ := ih hi (fun x hx => ha x (by simp [hx]))
    exact ⟨s2, sent2, es2, by simp only [Tx.run, h1, Res.ok_bind, h2], hi2⟩

theorem Tx.inv {acts : List TxAct} {s : Tx} (hf : ∀ a ∈ acts, a.Fits) (h : ({} : Tx).run acts = .ok s) : ∃ sent es, s.Inv sent es := by
  obtain ⟨s', sent, es, h', hi⟩ := Tx.Inv.init.run acts hf
  rw [h] at h'
  cases h'
  exact ⟨sent, es, hi⟩

theorem flatMap_message_length {es : List CEvent} (h : ∀ e ∈ es, Fits e) : (es.flatMap message).length = 4 * es.length := by
  induction es with
  | nil => rfl
  | cons e es ih =>
    rw [List.flatMap_cons, List.length_append, ih (fun x hx => h x (by simp [hx])), (h e (by simp)).length, List.length_cons]
    omega

theorem Tx.Inv.out_length {s : Tx} {sent es : List CEvent} (h : s.Inv sent es) : s.out.length + s.left = 4 * sent.length := by
  have h1 := congrArg List.length h.bytes
  rw [flatMap_message_length (fun e he => h.fits e (by rw [h.taken]; simp [he])), List.length_append, List.length_drop, h.dlen] at h1
  have := h.left
  omega

theorem Tx.Inv.late_length {s : Tx} {sent es : List CEvent} (h : s.Inv sent es) :
    s.late.length = if s.writing = .no ∨ s.writing = .critical then 0 else 1 := by
  unfold Tx.late
  cases hw : s.writing with
  | no => rfl
  | store ev n => rfl
  | move n => simp [List.getElem?_eq_getElem (show s.head < s.queue.length by rw [h.qlen]; exact h.hh)]
  | critical => rfl

/-- C68: with events that fit, sending never panics. -/
theorem C68_no_panic (acts : List TxAct) (hf : ∀ a ∈ acts, a.Fits) : ∃ s, ({} : Tx).run acts = .ok s := by
  obtain ⟨s, _, _, h, _⟩ := Tx.Inv.init.run acts hf
  exact ⟨s, h⟩

/-- C68: whenever the interrupt comes, the bytes sent are the messages of the events `keyboard_split_write` took, in order, none twice and
none torn, up to the last byte sent. -/
theorem C68_order {acts : List TxAct} {s : Tx} (hf : ∀ a ∈ acts, a.Fits) (h : ({} : Tx).run acts = .ok s) :
    s.out <+: s.taken.flatMap message := by
  obtain ⟨sent, es, hi⟩ := Tx.inv hf h
  refine ⟨s.dmaBuf.drop (4 - s.left) ++ (es ++ s.late).flatMap message, ?_⟩
  rw [← List.append_assoc, hi.bytes, hi.taken]
  simp

/-- C68: an event is refused only if fifteen messages or more are still to be sent, and always if there are more than fifteen. -/
theorem C68_room {acts : List TxAct} {s : Tx} (hf : ∀ a ∈ acts, a.Fits) (h : ({} : Tx).run acts = .ok s) (hw : s.writing = .no)
    (ev : CEvent) : ∃ s', s.step (.write ev) = .ok s' ∧
      (s'.taken = s.taken ∧ s'.dropped = s.dropped ++ [ev] ∧ s.out.length + 4 * 15 ≤ 4 * s.taken.length ∨
       s'.taken = s.taken ++ [ev] ∧ s'.dropped = s.dropped ∧ 4 * s.taken.length ≤ s.out.length + 4 * 15) := by
  obtain ⟨sent, es, hi⟩ := Tx.inv hf h
  have h1 := hi.out_length
  have h2 := hi.len
  have h3 := hi.hh
  have h4 := hi.ht
  have h5 := hi.left
  have h6 : s.taken.length = sent.length + es.length := by
    rw [hi.taken, List.length_append, List.length_append, hi.late_length, hw]; simp
  simp only [Tx.step, hw]
  by_cases hn : txNext s.head = s.tail
  · rw [if_pos hn]
    refine ⟨_, rfl, ?_⟩
    simp only [txNext, txQueueSize] at hn
    exact .inl ⟨rfl, rfl, by omega⟩
  · rw [if_neg hn]
    refine ⟨_, rfl, ?_⟩
    simp only [txNext, txQueueSize] at hn
    exact .inr ⟨rfl, rfl, by omega⟩

/-- What the sending half does in a while: `keyboard_split_write` runs on, the interrupt comes if it is due, a byte is sent. -/
def txRound : List TxAct := [.go, .irq, .byte]

/-- How many steps `keyboard_split_write` still makes. -/
def Writing.steps : Writing → Nat
  | .no => 0
  | .store _ _ => 3
  | .move _ => 2
  | .critical => 1

/-- How many bytes are still to be sent. -/
def Tx.unsent (s : Tx) : Nat := 4 * s.taken.length - s.out.length

theorem Tx.Inv.unsent {s : Tx} {sent es : List CEvent} (h : s.Inv sent es) :
    s.unsent = 4 * (es.length + s.late.length) + s.left ∧ s.unsent + s.out.length = 4 * s.taken.length ∧ s.unsent ≤ 64 := by
  have h1 := h.out_length
  have h2 := h.len
  have h5 := h.left
  have h6 : s.taken.length = sent.length + es.length + s.late.length := by
    rw [h.taken, List.length_append, List.length_append]
  have h7 := h.late_length
  have h8 : ¬ (s.writing = .no ∨ s.writing = .critical) → es.length ≤ 14 := by
    intro hn
    cases hw : s.writing with
    | no => exact absurd (.inl hw) hn
    | critical => exact absurd (.inr hw) hn
    | store ev n => exact (h.next n (.inl ⟨ev, hw⟩)).2
    | move n => exact (h.next n (.inr hw)).2
  unfold Tx.unsent
  refine ⟨by omega, by omega, ?_⟩
  by_cases hc : s.writing = .no ∨ s.writing = .critical
  · rw [if_pos hc] at h7; omega
  · rw [if_neg hc] at h7
    have := h8 hc
    omega

theorem Tx.go_spec {s s' : Tx} {sent es : List CEvent} (h : s.Inv sent es) (hs : s.step .go = .ok s') :
    s'.taken = s.taken ∧ s'.out = s.out ∧ s'.writing.steps = s.writing.steps - 1 := by
  cases hw : s.writing with
  | no => simp only [Tx.step, hw] at hs; cases hs; exact ⟨rfl, rfl, by rw [hw]; rfl⟩
  | store ev n => simp only [Tx.step, hw] at hs; cases hs; exact ⟨rfl, rfl, rfl⟩
  | move n => simp only [Tx.step, hw] at hs; cases hs; exact ⟨rfl, rfl, rfl⟩
  | critical =>
    simp only [Tx.step, hw] at hs
    split at hs
    · split at hs
      · unfold Tx.start at hs
        split at hs
        · cases hs
        · obtain ⟨b, _, hb⟩ := Res.bind_eq_ok.1 hs
          cases hb
          exact ⟨rfl, rfl, rfl⟩
      · cases hs; exact ⟨rfl, rfl, rfl⟩
    · cases hs; exact ⟨rfl, rfl, rfl⟩

theorem Tx.irq_spec {s s' : Tx} {sent es : List CEvent} (h : s.Inv sent es) (hs : s.step .irq = .ok s') :
    s'.taken = s.taken ∧ s'.out = s.out ∧ s'.writing = s.writing ∧ s'.tc = false := by
  simp only [Tx.step] at hs
  split at hs
  · split at hs
    · obtain ⟨s1, h1, h2⟩ := Res.bind_eq_ok.1 hs
      cases h2
      unfold Tx.start at h1
      split at h1
      · cases h1
      · obtain ⟨b, _, hb⟩ := Res.bind_eq_ok.1 h1
        cases hb
        exact ⟨rfl, rfl, rfl, rfl⟩
    · cases hs; exact ⟨rfl, rfl, rfl, rfl⟩
  · cases hs
    rename_i htc
    exact ⟨rfl, rfl, rfl, by simpa using htc⟩

theorem Tx.byte_spec {s s' : Tx} {sent es : List CEvent} (h : s.Inv sent es) (hs : s.step .byte = .ok s') :
    s'.taken = s.taken ∧ s'.writing = s.writing ∧ (s.left = 0 → s' = s) ∧ (s.left ≠ 0 → s'.out.length = s.out.length + 1) := by
  simp only [Tx.step] at hs
  split at hs
  · cases hs
    rename_i hl
    exact ⟨rfl, rfl, fun _ => rfl, fun h => absurd hl h⟩
  · cases hs
    rename_i hl
    refine ⟨rfl, rfl, fun h => absurd h hl, fun _ => ?_⟩
    have := h.left
    show (s.out ++ (s.dmaBuf[4 - s.left]?).toList).length = _
    rw [List.getElem?_eq_getElem (show 4 - s.left < s.dmaBuf.length by rw [h.dlen]; omega)]
    simp

/-- One round sends a byte if there is one, once `keyboard_split_write` has returned. -/
theorem Tx.Inv.round {s : Tx} {sent es : List CEvent} (h : s.Inv sent es) :
    ∃ s' sent' es', s.run txRound = .ok s' ∧ s'.Inv sent' es' ∧ s'.taken = s.taken ∧ s'.writing.steps = s.writing.steps - 1 ∧
      s'.unsent ≤ s.unsent ∧ (s'.writing = .no → s'.unsent ≤ s.unsent - 1) := by
  obtain ⟨s1, t1, e1, h1, i1⟩ := h.step .go trivial
  obtain ⟨s2, t2, e2, h2, i2⟩ := i1.step .irq trivial
  obtain ⟨s3, t3, e3, h3, i3⟩ := i2.step .byte trivial
  have g1 := Tx.go_spec h h1
  have g2 := Tx.irq_spec i1 h2
  have g3 := Tx.byte_spec i2 h3
  refine ⟨s3, t3, e3, by simp only [txRound, Tx.run, h1, h2, h3, Res.ok_bind], i3, by rw [g3.1, g2.1, g1.1],
    by rw [g3.2.1, g2.2.2.1, g1.2.2], ?_, ?_⟩
  · by_cases hl : s2.left = 0
    · rw [g3.2.2.1 hl]
      unfold Tx.unsent
      rw [g2.1, g1.1, g2.2.1, g1.2.1]
      exact Nat.le_refl _
    · have := g3.2.2.2 hl
      unfold Tx.unsent
      rw [g3.1, g2.1, g1.1, this, g2.2.1, g1.2.1]
      omega
  · intro hw
    by_cases hl : s2.left = 0
    · have hw2 : s2.writing = .no := by rw [← g3.2.1]; exact hw
      have hb := i2.busy
      rw [hl, g2.2.2.2] at hb
      have he := i2.stall (by rw [hw2]; simp) hb
      have hu := i2.unsent.1
      rw [he, i2.late_length, hw2, hl] at hu
      rw [g3.2.2.1 hl]
      simp at hu
      omega
    · have := g3.2.2.2 hl
      unfold Tx.unsent
      rw [g3.1, g2.1, g1.1, this, g2.2.1, g1.2.1]
      omega

theorem Tx.run_append (s : Tx) (as bs : List TxAct) : s.run (as ++ bs) = (s.run as >>= fun s => s.run bs) := by
  induction as generalizing s with
  | nil => rfl
  | cons a as ih =>
    simp only [List.cons_append, Tx.run]
    cases s.step a with
    | ok s' => simp only [Res.ok_bind, ih]
    | panic p => rfl
    | fuel => rfl

theorem Tx.Inv.rounds {s : Tx} {sent es : List CEvent} (h : s.Inv sent es) (n : Nat) :
    ∃ s' sent' es', s.run (List.replicate n txRound).flatten = .ok s' ∧ s'.Inv sent' es' ∧ s'.taken = s.taken ∧
      (s.writing.steps + s.unsent ≤ n → s'.out = s.taken.flatMap message) := by
  induction n generalizing s sent es with
  | zero =>
    refine ⟨s, sent, es, rfl, h, rfl, fun hn => ?_⟩
    have h0 : s.unsent = 0 := by omega
    have hu := h.unsent.1
    have hlen : es.length = 0 ∧ s.late.length = 0 ∧ s.left = 0 := by omega
    have hb := h.bytes
    rw [hlen.2.2, List.drop_eq_nil_of_le (by rw [h.dlen]; decide), List.append_nil] at hb
    rw [h.taken, List.eq_nil_of_length_eq_zero hlen.1, List.eq_nil_of_length_eq_zero hlen.2.1, hb]
    simp
  | succ n ih =>
    obtain ⟨s1, t1, e1, h1, i1, tk1, w1, u1, v1⟩ := h.round
    obtain ⟨s2, t2, e2, h2, i2, tk2, hfin⟩ := ih i1
    refine ⟨s2, t2, e2, ?_, i2, by rw [tk2, tk1], fun hn => ?_⟩
    · rw [List.replicate_succ, List.flatten_cons, Tx.run_append, h1, Res.ok_bind, h2]
    · rw [← tk1]
      refine hfin ?_
      by_cases hw : s1.writing = .no
      · have := v1 hw
        rw [hw]
        show 0 + _ ≤ n
        rw [hw] at w1
        simp only [Writing.steps] at w1
        by_cases hz : s.unsent = 0
        · omega
        · omega
      · have : s1.writing.steps ≠ 0 := by
          cases hw' : s1.writing with
          | no => exact absurd hw' hw
          | _ => simp [Writing.steps]
        omega

/-- C68: while bytes are sent and the interrupt comes, everything that was taken is sent; nothing is left behind however the calls and
interrupts were interleaved before. -/
theorem C68_delivered {acts : List TxAct} {s : Tx} (hf : ∀ a ∈ acts, a.Fits) (h : ({} : Tx).run acts = .ok s) (n : Nat) (hn : 67 ≤ n) :
    ∃ s', s.run (List.replicate n txRound).flatten = .ok s' ∧ s'.out = s.taken.flatMap message := by
  obtain ⟨sent, es, hi⟩ := Tx.inv hf h
  obtain ⟨s', _, _, h', _, _, hx⟩ := hi.rounds n
  refine ⟨s', h', hx ?_⟩
  have := hi.unsent.2.2
  have : s.writing.steps ≤ 3 := by cases s.writing <;> simp [Writing.steps]
  omega

/-! ## Receiving -/

theorem receiveBytes_append {buf m m' : List Byte} {xs ys : List Byte} {e e' : List CEvent} (h1 : receiveBytes buf xs = .ok (m, e))
    (h2 : receiveBytes m ys = .ok (m', e')) : receiveBytes buf (xs ++ ys) = .ok (m', e ++ e') := by
  induction xs generalizing buf e with
  | nil => cases h1; exact h2
  | cons x xs ih =>
    obtain ⟨⟨b1, ev⟩, hx, hr⟩ := Res.bind_eq_ok.1 h1
    obtain ⟨⟨b2, evs⟩, hy, hz⟩ := Res.bind_eq_ok.1 hr
    cases hz
    have := ih hy
    simp only [List.cons_append, receiveBytes, hx, this, Res.ok_bind, List.append_assoc]

/-- The bytes the running interrupt is about to give to the keymap. -/
def Rx.processing (s : Rx) : List Byte :=
  match s.handling with
  | .process old len => (s.buffer old).take len
  | .processFull old => (s.buffer old).take 16
  | _ => []

/-- The bytes the DMA controller has written since it was started, and one that waits. -/
def Rx.filled (s : Rx) : List Byte := (s.buffer s.cur).take (16 - s.counter) ++ s.held.toList

/-- What holds at every step while the receiving half keeps up: `done` are the bytes given to the keymap. -/
structure Rx.Inv (s : Rx) (arrived done : List Byte) : Prop where
  l0 : s.buf0.length = 16
  l1 : s.buf1.length = 16
  counter : s.counter ≤ 16
  target : s.target = s.cur
  held : s.held ≠ none → s.counter = 0
  lost : s.lost = []
  tc : s.tc = true → s.counter = 0 ∨ ∃ o, s.handling = .processFull o
  stop : s.counter = 0 → s.tc = true ∧ ∀ o, s.handling ≠ .processFull o
  idle : s.handling = .idle → s.tc = false
  swap : ∀ len, s.handling = .swap len → s.tc = false ∧ len = 16 - s.counter
  process : ∀ o len, s.handling = .process o len → o = !s.cur ∧ len ≤ 16
  full : s.handling = .full → s.counter = 0
  processFull : ∀ o, s.handling = .processFull o → o = !s.cur
  data : done ++ (s.processing ++ s.filled) = arrived
  recv : receiveBytes (List.replicate 4 0) done = .ok (s.msg, s.events)

theorem Rx.Inv.init : Rx.Inv {} [] [] where
  l0 := rfl
  l1 := rfl
  counter := by decide
  target := rfl
  held := fun h => absurd rfl h
  lost := rfl
  tc := by intro h; cases h
  stop := by intro h; cases h
  idle := by intro h; cases h
  swap := by intro n h; cases h
  process := by intro o n h; cases h
  full := by intro h; cases h
  processFull := by intro o h; cases h
  data := rfl
  recv := rfl

theorem take_set {xs : List Byte} {n : Nat} {b : Byte} (h : n < xs.length) : (xs.set n b).take (n + 1) = xs.take n ++ [b] := by
  rw [List.take_set, List.take_succ_eq_append_getElem h, List.set_append_right _ _ (by rw [List.length_take]; omega)]
  simp [Nat.min_eq_left (Nat.le_of_lt h)]

/-- The DMA controller writes a byte. -/
theorem Rx.store_spec {s : Rx} (hl0 : s.buf0.length = 16) (hl1 : s.buf1.length = 16) (ht : s.target = s.cur) (hc : s.counter ≤ 16)
    (h0 : s.counter ≠ 0) (hh : s.held = none) (b : Byte) :
    (s.store b).buf0.length = 16 ∧ (s.store b).buf1.length = 16 ∧ (s.store b).counter = s.counter - 1 ∧
    (s.store b).filled = s.filled ++ [b] ∧ (s.store b).buffer (!s.cur) = s.buffer (!s.cur) ∧
    (s.store b).tc = (if s.counter = 1 then true else s.tc) ∧
    (s.store b).cur = s.cur ∧ (s.store b).target = s.cur ∧ (s.store b).held = none ∧ (s.store b).handling = s.handling ∧
    (s.store b).msg = s.msg ∧ (s.store b).events = s.events ∧ (s.store b).lost = s.lost ∧ (s.store b).idle = s.idle := by
  have hk : 16 - (s.counter - 1) = 16 - s.counter + 1 := by omega
  obtain ⟨msg, cur, b0, b1, counter, target, tc, idle, held, handling, events, lost⟩ := s
  simp only at hl0 hl1 ht hc h0 hh hk
  subst ht hh
  cases target with
  | false =>
    refine ⟨?_, ?_, rfl, ?_, rfl, rfl, rfl, rfl, rfl, rfl, rfl, rfl, rfl, rfl⟩
    · simp [Rx.store, hl0]
    · simp [Rx.store, hl1]
    · simp only [Rx.store, Rx.filled, Rx.buffer, rxBufferSize, Bool.false_eq_true, if_false, hk]
      rw [take_set (by omega)]
      simp
  | true =>
    refine ⟨?_, ?_, rfl, ?_, rfl, rfl, rfl, rfl, rfl, rfl, rfl, rfl, rfl, rfl⟩
    · simp [Rx.store, hl0]
    · simp [Rx.store, hl1]
    · simp only [Rx.store, Rx.filled, Rx.buffer, rxBufferSize, if_true, hk]
      rw [take_set (by omega)]
      simp

theorem Rx.Inv.byte {s : Rx} {arrived done : List Byte} (h : s.Inv arrived done) (hk : s.KeepsUp) (b : Byte) :
    (s.byte b).Inv (arrived ++ [b]) done := by
  by_cases hc : s.counter = 0
  · have hh := hk.1 hc
    have e : s.byte b = { s with held := some b } := by simp only [Rx.byte, hc, hh]; rfl
    rw [e]
    exact { h with held := fun _ => hc
                   data := by
                    rw [← h.data]
                    show done ++ (s.processing ++ ((s.buffer s.cur).take (16 - s.counter) ++ [b])) = _
                    simp only [Rx.filled, hh, Option.toList_none, List.append_nil, List.append_assoc] }
  · have hh : s.held = none := by
      cases hx : s.held with
      | none => rfl
      | some x => exact absurd (h.held (by rw [hx]; simp)) hc
    have e : s.byte b = s.store b := by simp only [Rx.byte, if_pos (show s.counter ≠ 0 from hc)]
    obtain ⟨a0, a1, a2, a3, a4, a5, a6, a7, a8, a9, a10, a11, a12, a13⟩ := Rx.store_spec h.l0 h.l1 h.target h.counter hc hh b
    rw [e]
    refine { l0 := a0, l1 := a1, counter := ?_, target := ?_, held := ?_, lost := ?_, tc := ?_, stop := ?_, idle := ?_, swap := ?_, process := ?_,
             full := ?_, processFull := ?_, data := ?_, recv := ?_ }
    · rw [a2]; have := h.counter; omega
    · rw [a7, a6]
    · rw [a8]; exact fun h => absurd rfl h
    · rw [a12, h.lost]
    · intro ht
      rw [a2, a9]
      rw [a5] at ht
      by_cases h1 : s.counter = 1
      · exact .inl (by omega)
      · rw [if_neg h1] at ht
        rcases h.tc ht with h2 | h2
        · exact absurd h2 hc
        · exact .inr h2
    · intro hz
      rw [a2] at hz
      have h1 : s.counter = 1 := by omega
      refine ⟨by rw [a5, if_pos h1], fun o ho => ?_⟩
      rw [a9] at ho
      exact hk.2.2 (.inr ⟨o, ho⟩) h1
    · intro hi
      rw [a9] at hi
      rw [a5, if_neg (hk.2.2 (.inl hi))]
      exact h.idle hi
    · intro len hi
      rw [a9] at hi
      exact absurd hi (hk.2.1 len)
    · intro o len hi
      rw [a9] at hi
      rw [a6]
      exact h.process o len hi
    · intro hi
      rw [a9] at hi
      exact absurd (h.full hi) hc
    · intro o hi
      rw [a9] at hi
      rw [a6]
      exact h.processFull o hi
    · have hp : (s.store b).processing = s.processing := by
        unfold Rx.processing
        rw [a9]
        cases hi : s.handling with
        | process o len =>
          have := (h.process o len hi).1
          subst this
          simp only [a4]
        | processFull o =>
          have := h.processFull o hi
          subst this
          simp only [a4]
        | _ => rfl
      rw [hp, a3, ← h.data]
      simp
    · rw [a10, a11]; exact h.recv

/-- Swapping the buffers. -/
theorem Rx.restart_spec {s : Rx} (hl0 : s.buf0.length = 16) (hl1 : s.buf1.length = 16) :
    s.restart.buf0.length = 16 ∧ s.restart.buf1.length = 16 ∧ s.restart.counter = 16 - s.held.toList.length ∧
    s.restart.filled = s.held.toList ∧ s.restart.buffer s.cur = s.buffer s.cur ∧ s.restart.tc = s.tc ∧
    s.restart.cur = !s.cur ∧ s.restart.target = !s.cur ∧ s.restart.held = none ∧
    s.restart.msg = s.msg ∧ s.restart.events = s.events ∧ s.restart.lost = s.lost := by
  have hb : ({ s with cur := !s.cur, counter := rxBufferSize, target := !s.cur, held := none } : Rx).buffer s.cur = s.buffer s.cur := by
    cases s.cur <;> rfl
  have hfl : ({ s with cur := !s.cur, counter := rxBufferSize, target := !s.cur, held := none } : Rx).filled = [] := by
    simp [Rx.filled, rxBufferSize]
  cases hh : s.held with
  | none =>
    have e : s.restart = { s with cur := !s.cur, counter := rxBufferSize, target := !s.cur, held := none } := by
      simp only [Rx.restart, hh]
    rw [e]
    exact ⟨hl0, hl1, rfl, hfl, hb, rfl, rfl, rfl, rfl, rfl, rfl, rfl⟩
  | some b =>
    have e : s.restart = ({ s with cur := !s.cur, counter := rxBufferSize, target := !s.cur, held := none } : Rx).store b := by
      simp only [Rx.restart, hh]
    obtain ⟨a0, a1, a2, a3, a4, a5, a6, a7, a8, a9, a10, a11, a12, a13⟩ :=
      Rx.store_spec (s := { s with cur := !s.cur, counter := rxBufferSize, target := !s.cur, held := none }) hl0 hl1 rfl (Nat.le_refl 16)
        (by simp [rxBufferSize]) rfl b
    rw [e]
    refine ⟨a0, a1, a2, ?_, ?_, ?_, a6, a7, a8, a10, a11, a12⟩
    · rw [a3, hfl]; rfl
    · rw [← hb]
      simpa using a4
    · rw [a5]; rfl

theorem Rx.Inv.step {s : Rx} {arrived done : List Byte} (h : s.Inv arrived done) (a : RxAct) (hk : ∀ b, a = .byte b → s.KeepsUp) :
    ∃ s' done', s.step a = .ok s' ∧ s'.Inv (arrived ++ arriving [a]) done' := by
  cases a with
  | byte b => exact ⟨_, done, rfl, h.byte (hk b rfl) b⟩
  | quiet =>
    refine ⟨_, done, rfl, ?_⟩
    rw [show arriving [RxAct.quiet] = [] from rfl, List.append_nil]
    exact { h with data := h.data }
  | go =>
    rw [show arriving [RxAct.go] = [] from rfl, List.append_nil]
    have hd := h.data
    have hproc : ∀ o len, ∃ m evs, s.process o len = .ok { s with msg := m, events := s.events ++ evs } ∧
        receiveBytes s.msg ((s.buffer o).take len) = .ok (m, evs) := by
      intro o len
      obtain ⟨m, hm⟩ := C43_no_panic s.msg ((s.buffer o).take len)
      exact ⟨m, _, by simp only [Rx.process, hm, Res.ok_bind], hm⟩
    cases hi : s.handling with
    | no =>
      simp only [Rx.processing, hi] at hd
      simp only [Rx.step, hi]
      by_cases htc : s.tc = true
      · rw [if_pos htc]
        have hc : s.counter = 0 := by
          rcases h.tc htc with hc | ⟨o, hc⟩
          · exact hc
          · rw [hi] at hc; cases hc
        exact ⟨_, done, rfl, { h with
          tc := fun _ => .inl hc
          stop := fun _ => ⟨htc, fun o x => by cases x⟩
          idle := fun x => by cases x
          swap := fun _ x => by cases x
          process := fun _ _ x => by cases x
          full := fun _ => hc
          processFull := fun _ x => by cases x
          data := hd }⟩
      · rw [if_neg htc]
        by_cases hid : s.idle = true
        · rw [if_pos hid]
          exact ⟨_, done, rfl, { h with
            tc := fun x => absurd x htc
            stop := fun x => absurd (h.stop x).1 htc
            idle := fun _ => by simpa using htc
            swap := fun _ x => by cases x
            process := fun _ _ x => by cases x
            full := fun x => by cases x
            processFull := fun _ x => by cases x
            data := hd }⟩
        · rw [if_neg hid]
          exact ⟨s, done, rfl, h⟩
    | idle =>
      simp only [Rx.processing, hi] at hd
      simp only [Rx.step, hi]
      have htc := h.idle hi
      exact ⟨_, done, rfl, { h with
        tc := fun x => by rw [show s.tc = true from x] at htc; cases htc
        stop := fun x => by rw [(h.stop x).1] at htc; cases htc
        idle := fun x => by cases x
        swap := fun _ x => by cases x; exact ⟨htc, rfl⟩
        process := fun _ _ x => by cases x
        full := fun x => by cases x
        processFull := fun _ x => by cases x
        data := hd }⟩
    | swap len =>
      simp only [Rx.processing, hi] at hd
      simp only [Rx.step, hi]
      obtain ⟨htc, hlen⟩ := h.swap len hi
      obtain ⟨a0, a1, a2, a3, a4, a5, a6, a7, a8, a9, a10, a11⟩ := Rx.restart_spec (s := s) h.l0 h.l1
      exact ⟨_, done, rfl, {
        l0 := a0, l1 := a1
        counter := by show s.restart.counter ≤ 16; rw [a2]; omega
        target := by show s.restart.target = s.restart.cur; rw [a7, a6]
        held := fun x => absurd a8 x
        lost := by show s.restart.lost = []; rw [a11, h.lost]
        tc := fun x => by rw [show s.restart.tc = true from x] at a5; rw [← a5] at htc; cases htc
        stop := fun x => by
          have : s.restart.counter = 0 := x
          rw [a2] at this
          have : s.held.toList.length ≤ 1 := by cases s.held <;> simp
          omega
        idle := fun x => by cases x
        swap := fun _ x => by cases x
        process := fun o n x => by
          cases x
          refine ⟨?_, by omega⟩
          show s.cur = !s.restart.cur
          rw [a6, Bool.not_not]
        full := fun x => by cases x
        processFull := fun _ x => by cases x
        data := by
          show done ++ ((s.restart.buffer s.cur).take len ++ s.restart.filled) = arrived
          rw [a3, a4, ← hd, hlen]
          simp [Rx.filled]
        recv := by
          show _ = Res.ok (s.restart.msg, s.restart.events)
          rw [a9, a10]; exact h.recv }⟩
    | process o len =>
      obtain ⟨m, evs, h1, h2⟩ := hproc o len
      simp only [Rx.processing, hi] at hd
      simp only [Rx.step, hi, h1, Res.ok_bind]
      exact ⟨_, done ++ (s.buffer o).take len, rfl, { h with
        tc := fun x => by
          rcases h.tc x with hc | ⟨o', hc⟩
          · exact .inl hc
          · rw [hi] at hc; cases hc
        stop := fun x => ⟨(h.stop x).1, fun o x => by cases x⟩
        idle := fun x => by cases x
        swap := fun _ x => by cases x
        process := fun _ _ x => by cases x
        full := fun x => by cases x
        processFull := fun _ x => by cases x
        data := by
          show done ++ (s.buffer o).take len ++ ([] ++ s.filled) = arrived
          rw [← hd]; simp
        recv := receiveBytes_append h.recv h2 }⟩
    | full =>
      simp only [Rx.processing, hi] at hd
      simp only [Rx.step, hi]
      have hc := h.full hi
      obtain ⟨a0, a1, a2, a3, a4, a5, a6, a7, a8, a9, a10, a11⟩ := Rx.restart_spec (s := s) h.l0 h.l1
      exact ⟨_, done, rfl, {
        l0 := a0, l1 := a1
        counter := by show s.restart.counter ≤ 16; rw [a2]; omega
        target := by show s.restart.target = s.restart.cur; rw [a7, a6]
        held := fun x => absurd a8 x
        lost := by show s.restart.lost = []; rw [a11, h.lost]
        tc := fun x => .inr ⟨_, rfl⟩
        stop := fun x => by
          have : s.restart.counter = 0 := x
          rw [a2] at this
          have : s.held.toList.length ≤ 1 := by cases s.held <;> simp
          omega
        idle := fun x => by cases x
        swap := fun _ x => by cases x
        process := fun _ _ x => by cases x
        full := fun x => by cases x
        processFull := fun o x => by
          cases x
          show s.cur = !s.restart.cur
          rw [a6, Bool.not_not]
        data := by
          show done ++ ((s.restart.buffer s.cur).take 16 ++ s.restart.filled) = arrived
          rw [a3, a4, ← hd]
          simp [Rx.filled, hc]
        recv := by
          show _ = Res.ok (s.restart.msg, s.restart.events)
          rw [a9, a10]; exact h.recv }⟩
    | processFull o =>
      obtain ⟨m, evs, h1, h2⟩ := hproc o 16
      simp only [Rx.processing, hi] at hd
      simp only [Rx.step, hi, rxBufferSize, h1, Res.ok_bind]
      exact ⟨_, done ++ (s.buffer o).take 16, rfl, { h with
        tc := fun x => by cases x
        stop := fun x => absurd hi ((h.stop x).2 o)
        idle := fun x => by cases x
        swap := fun _ x => by cases x
        process := fun _ _ x => by cases x
        full := fun x => by cases x
        processFull := fun _ x => by cases x
        data := by
          show done ++ (s.buffer o).take 16 ++ ([] ++ s.filled) = arrived
          rw [← hd]; simp
        recv := receiveBytes_append h.recv h2 }⟩

theorem arriving_cons (a : RxAct) (as : List RxAct) : arriving (a :: as) = arriving [a] ++ arriving as := by cases a <;> rfl

theorem Rx.Inv.run {s : Rx} {arrived done : List Byte} (h : s.Inv arrived done) (acts : List RxAct) (ha : s.Along acts) :
    ∃ s' done', s.run acts = .ok s' ∧ s'.Inv (arrived ++ arriving acts) done' := by
  induction acts generalizing s arrived done with
  | nil => exact ⟨s, done, rfl, by simpa [arriving] using h⟩
  | cons a as ih =>
    obtain ⟨s1, d1, h1, i1⟩ := h.step a ha.1
    obtain ⟨s2, d2, h2, i2⟩ := ih i1 (ha.2 s1 h1)
    refine ⟨s2, d2, by simp only [Rx.run, h1, Res.ok_bind, h2], ?_⟩
    rw [arriving_cons, ← List.append_assoc]
    exact i2

/-- C69: while the receiving half keeps up, the bytes given to the keymap are those that came in, in order, up to one of them: no byte is
lost, given twice, or given out of order, however the two interrupts and the bytes are interleaved. -/
theorem C69_exact_partial (acts : List RxAct) (ha : ({} : Rx).Along acts) :
    ∃ s n, ({} : Rx).run acts = .ok s ∧ s.lost = [] ∧
      receiveBytes (List.replicate 4 0) ((arriving acts).take n) = .ok (s.msg, s.events) := by
  obtain ⟨s, done, h, hi⟩ := Rx.Inv.init.run acts ha
  refine ⟨s, done.length, h, hi.lost, ?_⟩
  have := hi.data
  rw [List.nil_append] at this
  rw [← this, List.take_left]
  exact hi.recv

/-- Nothing is left to do. -/
structure Rx.Clean (s : Rx) : Prop where
  handling : s.handling = .no
  tc : s.tc = false
  idle : s.idle = false
  counter : s.counter = 16
  held : s.held = none

theorem Rx.Clean.go {s : Rx} (h : s.Clean) (n : Nat) : s.run (List.replicate n .go) = .ok s := by
  induction n with
  | zero => rfl
  | succ n ih => simp only [List.replicate_succ, Rx.run, Rx.step, h.handling, h.tc, h.idle, Bool.false_eq_true, if_false, Res.ok_bind, ih]

theorem Rx.run_append (s : Rx) (as bs : List RxAct) : s.run (as ++ bs) = (s.run as >>= fun s => s.run bs) := by
  induction as generalizing s with
  | nil => rfl
  | cons a as ih =>
    simp only [List.cons_append, Rx.run]
    cases s.step a with
    | ok s' => simp only [Res.ok_bind, ih]
    | panic p => rfl
    | fuel => rfl

theorem Rx.process_ok (s : Rx) (o : Bool) (len : Nat) : ∃ m evs, s.process o len = .ok { s with msg := m, events := s.events ++ evs } := by
  obtain ⟨m, hm⟩ := C43_no_panic s.msg ((s.buffer o).take len)
  exact ⟨m, ((receive s.msg ((s.buffer o).take len)).filterMap id).map cEvent, by simp only [Rx.process, hm, Res.ok_bind]⟩

/-- An interrupt that is pending or runs, without bytes that come in. -/
theorem Rx.Inv.go {s : Rx} {arrived done : List Byte} (h : s.Inv arrived done) : ∃ s' done', s.step .go = .ok s' ∧ s'.Inv arrived done' := by
  obtain ⟨s', d, h1, h2⟩ := h.step .go (by intro b hb; cases hb)
  refine ⟨s', d, h1, ?_⟩
  rwa [show arriving [RxAct.go] = [] from rfl, List.append_nil] at h2

theorem Rx.Inv.goes {s : Rx} {arrived done : List Byte} (h : s.Inv arrived done) (n : Nat) :
    ∃ s' done', s.run (List.replicate n .go) = .ok s' ∧ s'.Inv arrived done' := by
  induction n generalizing s done with
  | zero => exact ⟨s, done, rfl, h⟩
  | succ n ih =>
    obtain ⟨s1, d1, h1, i1⟩ := h.go
    obtain ⟨s2, d2, h2, i2⟩ := ih i1
    exact ⟨s2, d2, by simp only [List.replicate_succ, Rx.run, h1, Res.ok_bind, h2], i2⟩

/-- The interrupt that runs comes to its end. -/
theorem Rx.Inv.finish {s : Rx} {arrived done : List Byte} (h : s.Inv arrived done) :
    ∃ k s' done', k ≤ 3 ∧ s.run (List.replicate k .go) = .ok s' ∧ s'.Inv arrived done' ∧ s'.handling = .no := by
  have one : ∀ {s : Rx} {done}, s.Inv arrived done → (∃ o n, s.handling = .process o n) ∨ (∃ o, s.handling = .processFull o) →
      ∃ s' done', s.step .go = .ok s' ∧ s'.Inv arrived done' ∧ s'.handling = .no := by
    intro s done h hh
    obtain ⟨s', d, h1, h2⟩ := h.go
    refine ⟨s', d, h1, h2, ?_⟩
    rcases hh with ⟨o, n, hh⟩ | ⟨o, hh⟩
    · obtain ⟨m, evs, hp⟩ := Rx.process_ok s o n
      simp only [Rx.step, hh, hp, Res.ok_bind] at h1
      cases h1; rfl
    · obtain ⟨m, evs, hp⟩ := Rx.process_ok s o rxBufferSize
      simp only [Rx.step, hh, hp, Res.ok_bind] at h1
      cases h1; rfl
  have two : ∀ {s : Rx} {done}, s.Inv arrived done → (∃ n, s.handling = .swap n) ∨ s.handling = .full →
      ∃ s1 s' done', s.step .go = .ok s1 ∧ s1.step .go = .ok s' ∧ s'.Inv arrived done' ∧ s'.handling = .no := by
    intro s done h hh
    obtain ⟨s1, d, h1, h2⟩ := h.go
    obtain ⟨s2, d2, h3, h4, h5⟩ := one h2 (by
      rcases hh with ⟨n, hh⟩ | hh
      · simp only [Rx.step, hh] at h1
        cases h1; exact .inl ⟨_, _, rfl⟩
      · simp only [Rx.step, hh] at h1
        cases h1; exact .inr ⟨_, rfl⟩)
    exact ⟨s1, s2, d2, h1, h3, h4, h5⟩
  cases hh : s.handling with
  | no => exact ⟨0, s, done, by omega, rfl, h, hh⟩
  | process o n =>
    obtain ⟨s', d, h1, h2, h3⟩ := one h (.inl ⟨o, n, hh⟩)
    exact ⟨1, s', d, by omega, by simp [List.replicate, Rx.run, h1], h2, h3⟩
  | processFull o =>
    obtain ⟨s', d, h1, h2, h3⟩ := one h (.inr ⟨o, hh⟩)
    exact ⟨1, s', d, by omega, by simp [List.replicate, Rx.run, h1], h2, h3⟩
  | swap n =>
    obtain ⟨s1, s', d, h0, h1, h2, h3⟩ := two h (.inl ⟨n, hh⟩)
    exact ⟨2, s', d, by omega, by simp [List.replicate, Rx.run, h0, h1], h2, h3⟩
  | full =>
    obtain ⟨s1, s', d, h0, h1, h2, h3⟩ := two h (.inr hh)
    exact ⟨2, s', d, by omega, by simp [List.replicate, Rx.run, h0, h1], h2, h3⟩
  | idle =>
    obtain ⟨s0, d0, h0, i0⟩ := h.go
    obtain ⟨s1, s', d, h1, h2, h3, h4⟩ := two i0 (by
      simp only [Rx.step, hh] at h0
      cases h0; exact .inl ⟨_, rfl⟩)
    exact ⟨3, s', d, by omega, by simp [List.replicate, Rx.run, h0, h1, h2], h3, h4⟩

/-- The interrupt of the DMA controller is done. -/
theorem Rx.Inv.goFull {s : Rx} {arrived done : List Byte} (h : s.Inv arrived done) (hh : s.handling = .no) (htc : s.tc = true) :
    ∃ s' done', s.run (List.replicate 3 .go) = .ok s' ∧ s'.Inv arrived done' ∧ s'.handling = .no ∧ s'.tc = false ∧ s'.idle = s.idle := by
  obtain ⟨s1, d1, h1, i1⟩ := h.go
  obtain ⟨s2, d2, h2, i2⟩ := i1.go
  obtain ⟨s3, d3, h3, i3⟩ := i2.go
  refine ⟨s3, d3, by simp [List.replicate, Rx.run, h1, h2, h3], i3, ?_⟩
  simp only [Rx.step, hh, if_pos htc] at h1
  cases h1
  simp only [Rx.step] at h2
  cases h2
  obtain ⟨m, evs, hp⟩ := Rx.process_ok { ({ s with handling := .full } : Rx).restart with handling := .processFull s.cur } s.cur rxBufferSize
  simp only [Rx.step, hp, Res.ok_bind] at h3
  cases h3
  refine ⟨rfl, rfl, ?_⟩
  cases hx : s.held with
  | none => simp only [Rx.restart, hx]
  | some b => simp only [Rx.restart, hx, Rx.store]; split <;> rfl

/-- The interrupt of the idle line is done: all bytes have been given to the keymap. -/
theorem Rx.Inv.goIdle {s : Rx} {arrived done : List Byte} (h : s.Inv arrived done) (hh : s.handling = .no) (htc : s.tc = false)
    (hid : s.idle = true) : ∃ s', s.run (List.replicate 4 .go) = .ok s' ∧ s'.Inv arrived arrived ∧ s'.Clean := by
  obtain ⟨s1, d1, h1, i1⟩ := h.go
  obtain ⟨s2, d2, h2, i2⟩ := i1.go
  obtain ⟨s3, d3, h3, i3⟩ := i2.go
  obtain ⟨s4, d4, h4, i4⟩ := i3.go
  have hrun : s.run (List.replicate 4 .go) = .ok s4 := by simp [List.replicate, Rx.run, h1, h2, h3, h4]
  have hheld : s.held = none := by
    cases hx : s.held with
    | none => rfl
    | some b =>
      have := (h.stop (h.held (by rw [hx]; simp))).1
      rw [htc] at this; cases this
  have e1 : s1 = { s with handling := .idle } := by
    have : s.step .go = .ok { s with handling := .idle } := by
      simp only [Rx.step, hh, if_neg (show ¬ s.tc = true by rw [htc]; simp), if_pos hid]
    rw [this] at h1; cases h1; rfl
  have e2 : s2 = { s with handling := .swap (rxBufferSize - s.counter) } := by subst e1; cases h2; rfl
  have e3 : s3 = { ({ s with handling := .swap (rxBufferSize - s.counter) } : Rx).restart with
      idle := false, handling := .process s.cur (rxBufferSize - s.counter) } := by subst e2; cases h3; rfl
  obtain ⟨_, _, r2, _, _, r5, _, _, r8, _⟩ :=
    Rx.restart_spec (s := { s with handling := .swap (rxBufferSize - s.counter) }) h.l0 h.l1
  have f3 : s3.tc = false ∧ s3.idle = false ∧ s3.counter = 16 ∧ s3.held = none ∧ s3.handling = .process s.cur (rxBufferSize - s.counter) := by
    subst e3
    refine ⟨r5.trans htc, rfl, ?_, r8, rfl⟩
    show ({ s with handling := .swap (rxBufferSize - s.counter) } : Rx).restart.counter = 16
    rw [r2, hheld]; rfl
  obtain ⟨m, evs, hp⟩ := Rx.process_ok s3 s.cur (rxBufferSize - s.counter)
  have e4 : s4 = { s3 with msg := m, events := s3.events ++ evs, handling := .no } := by
    simp only [Rx.step, f3.2.2.2.2, hp, Res.ok_bind] at h4
    cases h4; rfl
  have hc : s4.Clean := by
    subst e4
    exact ⟨rfl, f3.1, f3.2.1, f3.2.2.1, f3.2.2.2.1⟩
  refine ⟨_, hrun, ?_, hc⟩
  have hd := i4.data
  have h0 : d4 = arrived := by
    rw [← hd]
    simp only [Rx.processing, hc.handling, Rx.filled, hc.counter, hc.held, Nat.sub_self, List.take_zero]
    simp
  rw [h0] at i4
  exact i4

theorem Rx.replicate_go (k n : Nat) (h : k ≤ n) : List.replicate n RxAct.go = List.replicate k RxAct.go ++ List.replicate (n - k) RxAct.go := by
  rw [List.replicate_append_replicate]
  congr 1
  omega

/-- When no interrupt runs, the line becomes idle and no byte comes in for a while, all bytes are given to the keymap. -/
theorem Rx.Inv.settle {s : Rx} {arrived done : List Byte} (h : s.Inv arrived done) (hh : s.handling = .no) (n : Nat) (hn : 7 ≤ n) :
    ∃ s', s.run (.quiet :: List.replicate n .go) = .ok s' ∧ s'.Inv arrived arrived ∧ s'.Clean := by
  have h0 : ({ s with idle := true } : Rx).Inv arrived done := { h with data := h.data }
  have e : s.run (.quiet :: List.replicate n .go) = ({ s with idle := true } : Rx).run (List.replicate n .go) := rfl
  rw [e]
  by_cases htc : s.tc = true
  · obtain ⟨s1, d1, h1, i1, a1, a2, a3⟩ := h0.goFull hh htc
    obtain ⟨s', h2, h3, h4⟩ := i1.goIdle a1 a2 a3
    refine ⟨s', ?_, h3, h4⟩
    rw [Rx.replicate_go 3 n (by omega), Rx.run_append, h1, Res.ok_bind, Rx.replicate_go 4 (n - 3) (by omega), Rx.run_append, h2,
      Res.ok_bind, h4.go]
  · have htc : s.tc = false := by simpa using htc
    obtain ⟨s', h1, h2, h3⟩ := h0.goIdle hh htc rfl
    refine ⟨s', ?_, h2, h3⟩
    rw [Rx.replicate_go 4 n (by omega), Rx.run_append, h1, Res.ok_bind, h3.go]

/-- C69: and when the line becomes idle while no interrupt runs, all bytes are given to the keymap. -/
theorem C69_settles_partial {acts : List RxAct} {s : Rx} (ha : ({} : Rx).Along acts) (h : ({} : Rx).run acts = .ok s)
    (hh : s.handling = .no) (n : Nat) (hn : 7 ≤ n) :
    ∃ s', s.run (.quiet :: List.replicate n .go) = .ok s' ∧
      receiveBytes (List.replicate 4 0) (arriving acts) = .ok (s'.msg, s'.events) := by
  obtain ⟨s1, done, h1, hi⟩ := Rx.Inv.init.run acts ha
  rw [h] at h1
  cases h1
  obtain ⟨s', h2, h3, _⟩ := hi.settle hh n hn
  exact ⟨s', h2, h3.recv⟩

section
/-- Eight key events. -/
def eight : List CEvent := [⟨.press, 1⟩, ⟨.press, 2⟩, ⟨.release, 1⟩, ⟨.release, 2⟩, ⟨.press, 3⟩, ⟨.press, 4⟩, ⟨.release, 3⟩, ⟨.release, 4⟩]

/-- Bytes that come in. -/
def coming (bs : List Byte) : List RxAct := bs.map .byte

/-- Sixteen bytes and their interrupt; twelve more; the line is idle for a moment; three more come before the interrupt of the idle line is
entered, and the last one just after. -/
def twice : List RxAct :=
  coming ((eight.take 4).flatMap message) ++ List.replicate 3 .go ++ coming (((eight.drop 4).take 3).flatMap message) ++ [.quiet] ++
    coming ((message ⟨.release, 4⟩).take 3) ++ [.go] ++ coming [0] ++ List.replicate 6 .go

/-- C69 in full is false: the four events of the buffer before are given to the keymap once more. -/
theorem C69_twice_refuted : arriving twice = eight.flatMap message ∧
    (fun s => (s.events, s.lost)) <$> ({} : Rx).run twice = .ok (eight ++ eight.take 4, []) := by decide +kernel

/-- A byte that comes between reading the counter and stopping the DMA controller. -/
def gone : List RxAct :=
  coming (message ⟨.press, 1⟩) ++ [.quiet, .go, .go] ++ coming ((message ⟨.release, 1⟩).take 1) ++ [.go, .go] ++
    coming ((message ⟨.release, 1⟩).drop 1) ++ [.quiet] ++ List.replicate 8 .go

/-- C69 in full is false: a release is never given to the keymap, though the UART received all its bytes. -/
theorem C69_gone_refuted : arriving gone = [⟨.press, 1⟩, ⟨.release, 1⟩].flatMap message ∧
    (fun s => (s.events, s.lost, s.handling)) <$> ({} : Rx).run gone = .ok ([⟨.press, 1⟩], [], .no) := by decide +kernel

end

/-! ## Both halves -/

theorem cEvent_toInput {ev : CEvent} (h : Fits ev) : cEvent ev.toInput = ev := by
  obtain ⟨t, v⟩ := ev
  rcases h.1 with h | h <;> (simp only at h; subst h; rfl)

/-- The messages of some events and a part of another are received as these events. -/
theorem receive_take {es : List CEvent} (hf : ∀ e ∈ es, Fits e) (n : Nat) :
    ∃ buf, receiveBytes (List.replicate 4 0) ((es.flatMap message).take n) = .ok (buf, es.take (n / 4)) := by
  obtain ⟨buf, h⟩ := C43_no_panic (List.replicate 4 0) ((es.flatMap message).take n)
  refine ⟨buf, ?_⟩
  rw [h]
  have hrt : ∀ (xs : List Byte) (b : List Byte) (k : Nat), receive b (xs.take k) = (receive b xs).take k := by
    intro xs
    induction xs with
    | nil => intro b k; simp [receive]
    | cons x xs ih =>
      intro b k
      cases k with
      | zero => rfl
      | succ k => simp only [List.take_succ_cons, receive, ih]
  have he : receive (List.replicate 4 0) (es.flatMap message) = es.flatMap fun e => [none, none, none, some e.toInput] := by
    have h1 := C42_exact [0, 0, 0, 0] (.inl rfl) (es.map CEvent.toInput) (by
      intro x hx
      obtain ⟨e, he, rfl⟩ := List.mem_map.1 hx
      exact (hf e he).sendable)
    rw [List.flatMap_map, List.flatMap_map] at h1
    exact h1
  rw [hrt, he]
  congr 2
  clear h he hrt
  induction es generalizing n with
  | nil => simp
  | cons e es ih =>
    simp only [List.flatMap_cons, List.cons_append, List.nil_append]
    match n with
    | 0 => rfl
    | 1 => rfl
    | 2 => rfl
    | 3 => rfl
    | n + 4 =>
      rw [show (n + 4) / 4 = n / 4 + 1 by omega]
      simp only [List.take_succ_cons, List.filterMap_cons, id, List.map_cons, cEvent_toInput (hf e (by simp))]
      rw [ih (fun x hx => hf x (by simp [hx]))]

/-- What holds on the link: the bytes on the wire are between those that were sent and those that came in. -/
structure Link.Inv (s : Link) (arrived : List Byte) : Prop where
  tx : ∃ sent es, s.tx.Inv sent es
  rx : ∃ done, s.rx.Inv arrived done
  wire : arrived ++ s.wire = s.tx.out

theorem Link.Inv.init : Link.Inv {} [] := ⟨⟨[], [], Tx.Inv.init⟩, ⟨[], Rx.Inv.init⟩, rfl⟩

theorem Tx.out_grows {s s' : Tx} {a : TxAct} (h : s.step a = .ok s') : s.out <+: s'.out := by
  cases a with
  | write ev =>
    simp only [Tx.step] at h
    split at h
    · split at h <;> cases h <;> exact List.prefix_refl _
    · cases h; exact List.prefix_refl _
  | go =>
    simp only [Tx.step] at h
    split at h
    · cases h; exact List.prefix_refl _
    · cases h; exact List.prefix_refl _
    · cases h; exact List.prefix_refl _
    · split at h
      · split at h
        · unfold Tx.start at h
          split at h
          · cases h
          · obtain ⟨b, _, hb⟩ := Res.bind_eq_ok.1 h
            cases hb
            exact List.prefix_refl _
        · cases h; exact List.prefix_refl _
      · cases h; exact List.prefix_refl _
  | byte =>
    simp only [Tx.step] at h
    split at h
    · cases h; exact List.prefix_refl _
    · cases h; exact List.prefix_append _ _
  | irq =>
    simp only [Tx.step] at h
    split at h
    · split at h
      · obtain ⟨s1, h1, h2⟩ := Res.bind_eq_ok.1 h
        cases h2
        unfold Tx.start at h1
        split at h1
        · cases h1
        · obtain ⟨b, _, hb⟩ := Res.bind_eq_ok.1 h1
          cases hb
          exact List.prefix_refl _
      · cases h; exact List.prefix_refl _
    · cases h; exact List.prefix_refl _

theorem Link.Inv.step {s : Link} {arrived : List Byte} (h : s.Inv arrived) (a : LinkAct) (hf : a.Fits)
    (hk : a = .arrive → s.wire ≠ [] → s.rx.KeepsUp) : ∃ s' arrived', s.step a = .ok s' ∧ s'.Inv arrived' := by
  obtain ⟨⟨sent, es, ht⟩, ⟨done, hr⟩, hw⟩ := h
  cases a with
  | tx a =>
    obtain ⟨t, sent', es', h1, h2⟩ := ht.step a hf
    refine ⟨{ s with tx := t, wire := s.wire ++ t.out.drop s.tx.out.length }, arrived, by simp only [Link.step, h1, Res.ok_bind],
      ⟨⟨sent', es', h2⟩, ⟨done, hr⟩, ?_⟩⟩
    obtain ⟨d, hd⟩ := Tx.out_grows h1
    show arrived ++ (s.wire ++ t.out.drop s.tx.out.length) = t.out
    rw [← List.append_assoc, hw, ← hd, List.drop_left]
  | arrive =>
    cases hwr : s.wire with
    | nil => exact ⟨s, arrived, by simp only [Link.step, hwr], ⟨⟨sent, es, ht⟩, ⟨done, hr⟩, hw⟩⟩
    | cons b bs =>
      obtain ⟨r, d, h1, h2⟩ := hr.step (.byte b) (fun _ _ => hk rfl (by rw [hwr]; simp))
      refine ⟨{ s with wire := bs, rx := r }, arrived ++ [b], by simp only [Link.step, hwr, h1, Res.ok_bind], ⟨⟨sent, es, ht⟩, ⟨d, h2⟩, ?_⟩⟩
      show arrived ++ [b] ++ bs = s.tx.out
      rw [← hw, hwr]; simp
  | quiet =>
    obtain ⟨r, d, h1, h2⟩ := hr.step .quiet (by intro b hb; cases hb)
    rw [show arriving [RxAct.quiet] = [] from rfl, List.append_nil] at h2
    exact ⟨{ s with rx := r }, arrived, by simp only [Link.step, h1, Res.ok_bind], ⟨⟨sent, es, ht⟩, ⟨d, h2⟩, hw⟩⟩
  | go =>
    obtain ⟨r, d, h1, h2⟩ := hr.go
    exact ⟨{ s with rx := r }, arrived, by simp only [Link.step, h1, Res.ok_bind], ⟨⟨sent, es, ht⟩, ⟨d, h2⟩, hw⟩⟩

theorem Link.Inv.run {s : Link} {arrived : List Byte} (h : s.Inv arrived) (acts : List LinkAct) (hf : ∀ a ∈ acts, a.Fits)
    (ha : s.Along acts) : ∃ s' arrived', s.run acts = .ok s' ∧ s'.Inv arrived' := by
  induction acts generalizing s arrived with
  | nil => exact ⟨s, arrived, rfl, h⟩
  | cons a as ih =>
    obtain ⟨s1, d1, h1, i1⟩ := h.step a (hf a (by simp)) ha.1
    obtain ⟨s2, d2, h2, i2⟩ := ih i1 (fun x hx => hf x (by simp [hx])) (ha.2 s1 h1)
    exact ⟨s2, d2, by simp only [Link.run, h1, Res.ok_bind, h2], i2⟩

theorem Link.Inv.events {s : Link} {arrived : List Byte} (h : s.Inv arrived) : s.rx.events <+: s.tx.taken := by
  obtain ⟨⟨sent, es, ht⟩, ⟨done, hr⟩, hw⟩ := h
  have h1 : done <+: s.tx.taken.flatMap message := by
    refine ⟨s.rx.processing ++ s.rx.filled ++ s.wire ++ (s.tx.dmaBuf.drop (4 - s.tx.left) ++ (es ++ s.tx.late).flatMap message), ?_⟩
    rw [← List.append_assoc, ← List.append_assoc (bs := s.rx.processing ++ s.rx.filled), hr.data, hw, ← List.append_assoc, ht.bytes, ht.taken]
    simp
  obtain ⟨buf, h2⟩ := receive_take ht.fits done.length
  rw [← List.prefix_iff_eq_take.1 h1, hr.recv] at h2
  have h3 : s.rx.events = _ := congrArg Prod.snd (Res.ok.inj h2)
  rw [h3]
  exact List.take_prefix _ _

/-- C70: while the receiving half keeps up, the keymap there is given the events that `keyboard_split_write` took on the other half, in
order, none twice, none changed; up to one of them. -/
theorem C70_order_partial (acts : List LinkAct) (hf : ∀ a ∈ acts, a.Fits) (ha : ({} : Link).Along acts) :
    ∃ s, ({} : Link).run acts = .ok s ∧ s.rx.events <+: s.tx.taken := by
  obtain ⟨s, arrived, h, hi⟩ := Link.Inv.init.run acts hf ha
  exact ⟨s, h, hi.events⟩

/-- After ten steps no interrupt runs. -/
theorem Rx.Inv.calm {s : Rx} {arrived done : List Byte} (h : s.Inv arrived done) :
    ∃ s' done', s.run (List.replicate 10 .go) = .ok s' ∧ s'.Inv arrived done' ∧ s'.handling = .no := by
  have fixed : ∀ {s : Rx} (n : Nat), s.handling = .no → s.tc = false → s.idle = false → s.run (List.replicate n .go) = .ok s := by
    intro s n h1 h2 h3
    induction n with
    | zero => rfl
    | succ n ih => simp only [List.replicate_succ, Rx.run, Rx.step, h1, h2, h3, Bool.false_eq_true, if_false, Res.ok_bind, ih]
  have last : ∀ {s : Rx} {done : List Byte} (n : Nat), s.Inv arrived done → 4 ≤ n → s.handling = .no → s.tc = false →
      ∃ s' done', s.run (List.replicate n .go) = .ok s' ∧ s'.Inv arrived done' ∧ s'.handling = .no := by
    intro s done n hi hn h1 h2
    cases h3 : s.idle with
    | false => exact ⟨s, done, fixed n h1 h2 h3, hi, h1⟩
    | true =>
      obtain ⟨s', h4, h5, h6⟩ := hi.goIdle h1 h2 h3
      exact ⟨s', arrived, by rw [Rx.replicate_go 4 n hn, Rx.run_append, h4, Res.ok_bind, h6.go], h5, h6.handling⟩
  obtain ⟨k, s1, d1, hk, h1, i1, hh⟩ := h.finish
  rw [Rx.replicate_go k 10 (by omega), Rx.run_append, h1, Res.ok_bind]
  cases htc : s1.tc with
  | false => exact last _ i1 (by omega) hh htc
  | true =>
    obtain ⟨s2, d2, h2, i2, a1, a2, _⟩ := i1.goFull hh htc
    rw [Rx.replicate_go 3 (10 - k) (by omega), Rx.run_append, h2, Res.ok_bind]
    exact last _ i2 (by omega) a1 a2

/-- The receiving half comes to rest. -/
def rest : List LinkAct := List.replicate 10 .go ++ .quiet :: List.replicate 10 .go

/-- What happens on the link in a while: the receiving half comes to rest, the sending half makes a round, a byte comes in. -/
def linkRound : List LinkAct := rest ++ txRound.map .tx ++ [.arrive]

theorem Link.run_append (s : Link) (as bs : List LinkAct) : s.run (as ++ bs) = (s.run as >>= fun s => s.run bs) := by
  induction as generalizing s with
  | nil => rfl
  | cons a as ih =>
    simp only [List.cons_append, Link.run]
    cases s.step a with
    | ok s' => simp only [Res.ok_bind, ih]
    | panic p => rfl
    | fuel => rfl

theorem Link.along_append {s : Link} {as bs : List LinkAct} (h : s.Along as) (h' : ∀ s', s.run as = .ok s' → s'.Along bs) : s.Along (as ++ bs) := by
  induction as generalizing s with
  | nil => exact h' s rfl
  | cons a as ih =>
    refine ⟨h.1, fun s1 h1 => ih (h.2 s1 h1) fun s' hs => h' s' ?_⟩
    simp only [Link.run, h1, Res.ok_bind, hs]

theorem Link.along_free {s : Link} {as : List LinkAct} (h : ∀ a ∈ as, a ≠ .arrive) : s.Along as := by
  induction as generalizing s with
  | nil => trivial
  | cons a as ih => exact ⟨fun ha => absurd ha (h a (by simp)), fun s' _ => ih fun x hx => h x (by simp [hx])⟩

theorem Link.run_go (s : Link) (n : Nat) {r : Rx} (h : s.rx.run (List.replicate n .go) = .ok r) :
    s.run (List.replicate n .go) = .ok { s with rx := r } := by
  induction n generalizing s with
  | zero => cases h; rfl
  | succ n ih =>
    simp only [List.replicate_succ, Rx.run] at h
    obtain ⟨r1, h1, h2⟩ := Res.bind_eq_ok.1 h
    simp only [List.replicate_succ, Link.run, Link.step, h1, Res.ok_bind]
    exact ih { s with rx := r1 } h2

theorem Link.run_tx (s : Link) (as : List TxAct) {t : Tx} (h : s.tx.run as = .ok t) :
    s.tx.out <+: t.out ∧ s.run (as.map .tx) = .ok { s with tx := t, wire := s.wire ++ t.out.drop s.tx.out.length } := by
  induction as generalizing s with
  | nil => cases h; exact ⟨List.prefix_refl _, by simp [Link.run]⟩
  | cons a as ih =>
    simp only [Tx.run] at h
    obtain ⟨t1, h1, h2⟩ := Res.bind_eq_ok.1 h
    obtain ⟨g1, g2⟩ := ih { s with tx := t1, wire := s.wire ++ t1.out.drop s.tx.out.length } h2
    obtain ⟨x, hx⟩ := Tx.out_grows h1
    obtain ⟨y, hy⟩ := g1
    simp only at hy g2
    refine ⟨⟨x ++ y, by rw [← List.append_assoc, hx, hy]⟩, ?_⟩
    simp only [List.map_cons, Link.run, Link.step, h1, Res.ok_bind, g2]
    congr 2
    rw [List.append_assoc, ← hy, List.drop_left, ← hx, List.drop_left, List.append_assoc, List.drop_left]

theorem rest_free : ∀ a ∈ rest, a ≠ .arrive := by decide

/-- The receiving half comes to rest and has given all bytes to the keymap. -/
theorem Link.Inv.rest {s : Link} {arrived : List Byte} (h : s.Inv arrived) :
    ∃ r, s.run SplitLink.rest = .ok { s with rx := r } ∧ r.Inv arrived arrived ∧ r.Clean := by
  obtain ⟨done, hr⟩ := h.rx
  obtain ⟨r1, d1, h1, i1, hh⟩ := hr.calm
  obtain ⟨r2, h2, i2, hc⟩ := i1.settle hh 10 (by omega)
  refine ⟨r2, ?_, i2, hc⟩
  rw [SplitLink.rest, Link.run_append, Link.run_go s 10 h1, Res.ok_bind]
  simp only [Rx.run] at h2
  obtain ⟨r3, h3, h4⟩ := Res.bind_eq_ok.1 h2
  simp only [Link.run, Link.step, h3, Res.ok_bind]
  exact Link.run_go { s with rx := r3 } 10 h4

/-- What is left to do. -/
def Link.todo (s : Link) : Nat := s.tx.writing.steps + s.tx.unsent + s.wire.length

theorem Link.Inv.round {s : Link} {arrived : List Byte} (h : s.Inv arrived) :
    ∃ s' arrived', s.Along linkRound ∧ s.run linkRound = .ok s' ∧ s'.Inv arrived' ∧ s'.tx.taken = s.tx.taken ∧ s'.todo ≤ s.todo - 1 := by
  obtain ⟨r, h1, i1, hc⟩ := h.rest
  obtain ⟨sent, es, ht⟩ := h.tx
  obtain ⟨t, sent', es', h2, i2, tk, w2, u2, v2⟩ := ht.round
  obtain ⟨⟨y, hy⟩, h3⟩ := Link.run_tx { s with rx := r } txRound h2
  simp only at hy h3
  rw [← hy, List.drop_left] at h3
  have hku : r.KeepsUp := by
    refine ⟨fun _ => hc.held, fun len hx => ?_, fun hx => ?_⟩
    · rw [hc.handling] at hx; cases hx
    · rw [hc.handling] at hx
      rcases hx with hx | ⟨_, hx⟩ <;> cases hx
  have hrun : s.run (SplitLink.rest ++ txRound.map .tx) = .ok { s with rx := r, tx := t, wire := s.wire ++ y } := by
    rw [Link.run_append, h1, Res.ok_bind, h3]
  have halong : s.Along linkRound := by
    refine Link.along_append (Link.along_free (by decide)) fun s' hs => ?_
    rw [hrun] at hs
    cases hs
    exact ⟨fun _ _ => hku, fun _ _ => trivial⟩
  have iv : ({ s with rx := r, tx := t, wire := s.wire ++ y } : Link).Inv arrived :=
    ⟨⟨sent', es', i2⟩, ⟨arrived, i1⟩, by show arrived ++ (s.wire ++ y) = t.out; rw [← List.append_assoc, h.wire, hy]⟩
  obtain ⟨s', arrived', h4, i4⟩ := iv.step .arrive trivial (fun _ _ => hku)
  refine ⟨s', arrived', halong, ?_, i4, ?_, ?_⟩
  · rw [linkRound, Link.run_append, hrun, Res.ok_bind, Link.run, h4]; rfl
  · cases hw : s.wire ++ y with
    | nil => simp only [Link.step, hw] at h4; cases h4; exact tk
    | cons b bs =>
      simp only [Link.step, hw] at h4
      obtain ⟨r', _, h5⟩ := Res.bind_eq_ok.1 h4
      cases h5; exact tk
  · have hyl : t.out.length = s.tx.out.length + y.length := by rw [← hy, List.length_append]
    have hu := ht.unsent.2.1
    have hu' := i2.unsent.2.1
    rw [tk] at hu'
    have htx : s'.tx = t ∧ s'.wire.length = s.wire.length + y.length - 1 := by
      cases hw : s.wire ++ y with
      | nil =>
        simp only [Link.step, hw] at h4
        cases h4
        have := congrArg List.length hw
        simp at this
        exact ⟨rfl, by simp [this]⟩
      | cons b bs =>
        simp only [Link.step, hw] at h4
        obtain ⟨r', _, h5⟩ := Res.bind_eq_ok.1 h4
        cases h5
        have := congrArg List.length hw
        simp at this
        exact ⟨rfl, by simp [this]⟩
    unfold Link.todo
    rw [htx.1, htx.2]
    by_cases hw : t.writing = .no
    · have := v2 hw
      rw [hw] at w2 ⊢
      simp only [Writing.steps] at w2 ⊢
      omega
    · have : t.writing.steps ≠ 0 := by
        cases hw' : t.writing with
        | no => exact absurd hw' hw
        | _ => simp [Writing.steps]
      omega

theorem Link.Inv.rounds {s : Link} {arrived : List Byte} (h : s.Inv arrived) (n : Nat) (hn : s.todo ≤ n) :
    ∃ s', s.Along ((List.replicate n linkRound).flatten ++ SplitLink.rest) ∧ s.run ((List.replicate n linkRound).flatten ++ SplitLink.rest) = .ok s' ∧
      s'.rx.events = s.tx.taken := by
  induction n generalizing s arrived with
  | zero =>
    obtain ⟨r, h1, i1, hc⟩ := h.rest
    refine ⟨_, Link.along_free rest_free, h1, ?_⟩
    obtain ⟨sent, es, ht⟩ := h.tx
    have h0 : s.tx.unsent = 0 ∧ s.wire.length = 0 := by unfold Link.todo at hn; omega
    have hu := ht.unsent.1
    have hlen : es.length = 0 ∧ s.tx.late.length = 0 ∧ s.tx.left = 0 := by omega
    have hb := ht.bytes
    rw [hlen.2.2, List.drop_eq_nil_of_le (by rw [ht.dlen]; decide), List.append_nil] at hb
    have htk : s.tx.taken = sent := by
      rw [ht.taken, List.eq_nil_of_length_eq_zero hlen.1, List.eq_nil_of_length_eq_zero hlen.2.1]; simp
    have hw := h.wire
    rw [List.eq_nil_of_length_eq_zero h0.2, List.append_nil, hb, ← htk] at hw
    obtain ⟨buf, h2⟩ := receive_take ht.fits (4 * s.tx.taken.length)
    rw [List.take_of_length_le (by rw [flatMap_message_length ht.fits]; exact Nat.le_refl _), ← hw, i1.recv] at h2
    have h3 : r.events = _ := congrArg Prod.snd (Res.ok.inj h2)
    show r.events = _
    rw [h3, show 4 * s.tx.taken.length / 4 = s.tx.taken.length by omega, List.take_length]
  | succ n ih =>
    obtain ⟨s1, a1, hal, h1, i1, tk, ht⟩ := h.round
    obtain ⟨s2, hal2, h2, he⟩ := ih i1 (by omega)
    refine ⟨s2, ?_, ?_, by rw [he, tk]⟩
    · rw [List.replicate_succ, List.flatten_cons, List.append_assoc]
      refine Link.along_append hal fun s' hs => ?_
      rw [h1] at hs
      cases hs
      exact hal2
    · rw [List.replicate_succ, List.flatten_cons, List.append_assoc, Link.run_append, h1, Res.ok_bind, h2]

/-- C70: and when both halves then run on without hurry, the keymap of the one is given all events taken on the other, whatever went on
before: no call, interrupt or byte leaves the link stuck. -/
theorem C70_delivered_partial {acts : List LinkAct} {s : Link} (hf : ∀ a ∈ acts, a.Fits) (ha : ({} : Link).Along acts)
    (h : ({} : Link).run acts = .ok s) (n : Nat) (hn : 67 + s.wire.length ≤ n) :
    ∃ s', s.Along ((List.replicate n linkRound).flatten ++ rest) ∧ s.run ((List.replicate n linkRound).flatten ++ rest) = .ok s' ∧
      s'.rx.events = s.tx.taken := by
  obtain ⟨s1, arrived, h1, hi⟩ := Link.Inv.init.run acts hf ha
  rw [h] at h1
  cases h1
  refine hi.rounds n ?_
  obtain ⟨sent, es, ht⟩ := hi.tx
  have := ht.unsent.2.2
  have : s.tx.writing.steps ≤ 3 := by cases s.tx.writing <;> simp [Writing.steps]
  unfold Link.todo
  omega

/-! ## The hypotheses can be met -/

section Demo

/-- Calling `keyboard_split_write` and letting it run to its end. -/
def write (ev : CEvent) : List TxAct := [.write ev, .go, .go, .go]

/-- Seventeen calls in a row: the first event is being sent, fifteen wait, the last is refused, and the queue is full. -/
example : (fun s => (s.taken.length, s.dropped, s.out, s.writing)) <$>
    ({} : Tx).run ((List.range 17).flatMap fun i => write ⟨.press, i⟩) = .ok (16, [⟨.press, 16⟩], [], .no) := by decide +kernel

/-- `Rx.Along` can be computed. -/
def Rx.alongB (s : Rx) : List RxAct → Bool
  | [] => true
  | a :: as =>
    (match a, s.handling with
      | .byte _, .swap _ => false
      | .byte _, .idle => s.counter != 1 && (s.counter != 0 || s.held == none)
      | .byte _, .processFull _ => s.counter != 1 && (s.counter != 0 || s.held == none)
      | .byte _, _ => s.counter != 0 || s.held == none
      | _, _ => true) &&
    match s.step a with
    | .ok s' => s'.alongB as
    | _ => true

theorem Rx.alongB_sound {s : Rx} {as : List RxAct} (h : s.alongB as = true) : s.Along as := by
  induction as generalizing s with
  | nil => trivial
  | cons a as ih =>
    simp only [Rx.alongB, Bool.and_eq_true] at h
    refine ⟨fun b hb => ?_, fun s' hs => ih ?_⟩
    · subst hb
      have h1 := h.1
      cases hh : s.handling <;> simp [hh] at h1 <;> (unfold Rx.KeepsUp; rw [hh]; simp; grind)
    · have h2 := h.2
      rw [hs] at h2
      exact h2

/-- Bytes while the interrupts run: thirty-two bytes, of which the seventeenth comes before the interrupt of the sixteenth was entered, and
others while it works on them. -/
def busyLine : List RxAct :=
  coming ((eight.flatMap message).take 17) ++ [.go, .go] ++ coming (((eight.flatMap message).drop 17).take 9) ++ [.go, .quiet, .go] ++
    coming (((eight.flatMap message).drop 26).take 3) ++ [.go, .go, .go] ++ coming ((eight.flatMap message).drop 29)

example : ({} : Rx).Along busyLine ∧ arriving busyLine = eight.flatMap message ∧
    (fun s => (s.handling, s.events)) <$> ({} : Rx).run busyLine = .ok (.no, eight.take 7) :=
  ⟨Rx.alongB_sound (by decide +kernel), by decide +kernel⟩

/-- What `C69_settles_partial` says of it. -/
example : (fun s => s.events) <$> ({} : Rx).run (busyLine ++ .quiet :: List.replicate 7 .go) = .ok eight := by decide +kernel

/-- The schedules of the two refutations are just those where the receiving half does not keep up. -/
example : ({} : Rx).alongB twice = false ∧ ({} : Rx).alongB gone = false := by decide +kernel

/-- `C70_delivered_partial` after calls and an interrupt in the middle of one: eight events reach the other half. -/
example : ∃ s s' : Link, s.tx.taken = eight ∧
    s.run ((List.replicate 67 linkRound).flatten ++ rest) = .ok s' ∧ s'.rx.events = eight := by
  have hk : (fun s => (s.tx.taken, s.wire)) <$> ({} : Link).run ((eight.flatMap write).map .tx) = .ok (eight, []) := by decide +kernel
  cases h : ({} : Link).run ((eight.flatMap write).map .tx) with
  | ok s =>
    rw [h] at hk
    simp only [Res.map_ok, Res.ok.injEq, Prod.mk.injEq] at hk
    have hall : ∀ a ∈ (eight.flatMap write).map LinkAct.tx, a.Fits ∧ a ≠ .arrive := by
      intro a ha
      obtain ⟨b, hb, rfl⟩ := List.mem_map.1 ha
      refine ⟨?_, by simp⟩
      obtain ⟨e, he, hb⟩ := List.mem_flatMap.1 hb
      have hfe : ∀ e ∈ eight, Fits e := by simp [eight, Fits]
      simp only [write, List.mem_cons, List.not_mem_nil, or_false] at hb
      rcases hb with rfl | rfl | rfl | rfl
      · exact hfe e he
      all_goals trivial
    obtain ⟨s', _, h1, h2⟩ := C70_delivered_partial (fun a ha => (hall a ha).1) (Link.along_free fun a ha => (hall a ha).2) h 67
      (by rw [hk.2]; simp)
    exact ⟨s, s', hk.1, h1, by rw [h2, hk.1]⟩
  | panic p => rw [h] at hk; cases hk
  | fuel => rw [h] at hk; cases hk

end Demo

end Verif.SplitLink
