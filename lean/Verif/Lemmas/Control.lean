import Verif.Spec.Control

/-!
# Control transfers
-/

namespace Verif.Control

theorem load_eq {s : State} {src : List Byte} {n : Nat} (h : n ≤ src.length) :
    s.load src n = some { s with buf := src.take n ++ s.buf.drop n } := by rw [State.load, if_pos h]

theorem ge64 (n : Nat) : (if n ≥ 64 then 64 else n) = min n 64 := by split <;> omega

theorem gt64 (n : Nat) : (if n > 64 then 64 else n) = min n 64 := by split <;> omega

/-- In the data stage of reading a descriptor: `c` is the packet that is ready, `rest` what is left after it. -/
structure Sending (k : Settings) (s : State) (c rest : List Byte) (tog : Bool) : Prop where
  kept : s.settings = k
  buf : s.buf.length = 64
  packet : s.packet = c
  size : c.length = s.txLen
  rest : s.descr.take s.len = rest
  enough : s.len ≤ s.descr.length
  full : s.len = 0 ∨ s.txLen = 64
  tog : s.txTog = tog
  res : s.txRes = .ack
  std : s.type &&& 0x60 = 0
  code : s.code = 0x06

/-- After the data stage. -/
structure Sent (k : Settings) (s : State) : Prop where
  kept : s.settings = k
  std : s.type &&& 0x60 = 0
  buf : s.buf.length = 64
  len : s.len = 0
  tog : s.rxTog = true
  res : s.rxRes = .ack

theorem onIn_end {k : Settings} {s : State} {c : List Byte} {tog : Bool} (h : Sending k s c [] tog) (h0 : s.len = 0) :
    ∃ s', s.onIn = some s' ∧ Sent k s' := by
  simp only [State.onIn, State.atEnd, h0, if_true, h.std, ne_eq, not_true_eq_false, if_false, h.code]
  exact ⟨_, rfl, h.kept, h.std, h.buf, rfl, rfl, rfl⟩

theorem onIn_next {k : Settings} {s : State} {c rest : List Byte} {tog : Bool} (h : Sending k s c rest tog) (h0 : s.len ≠ 0) :
    ∃ s', s.onIn = some s' ∧ Sending k s' (rest.take 64) (rest.drop 64) (!tog) ∧ s'.len = s.len - min s.len 64 := by
  have hb := h.buf
  have he := h.enough
  simp only [State.onIn, State.atEnd, if_neg h0, h.std, ne_eq, not_true_eq_false, if_false, h.code, ge64]
  rw [show ((0x06 : Byte).toNat) = 6 from rfl]
  simp only []
  rw [load_eq (by omega)]
  refine ⟨_, rfl, ⟨h.kept, ?_, ?_, ?_, ?_, ?_, ?_, ?_, ?_, h.std, h.code⟩, rfl⟩
  · simp only [List.length_append, List.length_take, List.length_drop, hb]; omega
  · simp only [State.packet]
    rw [List.take_append_of_le_length (by simp only [List.length_take]; omega), List.take_take, ← h.rest, List.take_take]
    congr 1; omega
  · rw [← h.rest]; simp only [List.length_take]; omega
  · simp only []
    rw [← h.rest, List.drop_take]
    by_cases h64 : 64 ≤ s.len
    · rw [Nat.min_eq_right h64]
    · rw [show s.len - min s.len 64 = 0 by omega, show s.len - 64 = 0 by omega, List.take_zero, List.take_zero]
  · simp only [List.length_drop]; omega
  · simp only []; omega
  · simp only [h.tog]
  · exact h.res

theorem readData_eq (want : Nat) : ∀ {k : Settings} {s : State} {c rest : List Byte} {tog : Bool}, Sending k s c rest tog →
    c.length + rest.length ≤ want → (c.length + rest.length = want ∨ (c.length + rest.length) % 64 ≠ 0) →
    ∃ s', readData s want tog = .done s' (c ++ rest) ∧ Sent k s' := by
  induction want using Nat.strongRecOn with
  | ind want ih =>
    intro k s c rest tog h hw hm
    have hb := h.buf
    have hs := h.size
    have hl : s.len = rest.length := by rw [← h.rest, List.length_take]; have := h.enough; omega
    have hc : c.length ≤ 64 := by rw [← h.packet, State.packet, List.length_take]; omega
    rw [readData, h.res]
    simp only [h.packet, h.tog, ne_eq, not_true_eq_false, false_or]
    rw [if_neg (by omega)]
    by_cases h0 : s.len = 0
    · have hr : rest = [] := List.eq_nil_of_length_eq_zero (by omega)
      subst hr
      obtain ⟨s', he, hd⟩ := onIn_end h h0
      refine ⟨s', ?_, hd⟩
      simp only [he]
      rw [dif_pos, List.append_nil]
      simp only [List.length_nil, Nat.add_zero] at hm
      omega
    · obtain ⟨s', he, hd, hl'⟩ := onIn_next h h0
      have hf : c.length = 64 := by rcases h.full with h | h <;> omega
      simp only [he]
      rw [dif_neg (by omega)]
      have ht : (rest.take 64).length + (rest.drop 64).length = rest.length := by
        simp only [List.length_take, List.length_drop]; omega
      obtain ⟨s'', he', hd'⟩ := ih (want - c.length) (by omega) hd (by omega) (by omega)
      rw [he', List.take_append_drop]
      exact ⟨s'', rfl, hd'⟩

theorem statusOut_sent {k : Settings} {s : State} {bs : List Byte} (h : Sent k s) : ∃ s', statusOut s bs = .done s' bs ∧ s'.buf.length = 64 ∧ s'.settings = k := by
  rw [statusOut, h.res]
  simp only [h.tog, if_true]
  refine ⟨_, rfl, ?_⟩
  have hn : ¬ (s.type &&& 0x60 = 0x20) := by rw [h.std]; decide
  simp only [State.onOut, List.length_nil, List.drop_zero, List.nil_append, hn, false_and, and_false, if_false]
  split <;> exact ⟨h.buf, h.kept⟩

theorem getDescriptor_eq {s : State} {d : List Byte} {n : Nat} (hl : lookup s.value s.index = some (d, n)) (hn : n ≤ d.length) :
    s.getDescriptor = some ({ s with
      len := min n s.len, buf := d.take (min (min n s.len) 64) ++ s.buf.drop (min (min n s.len) 64), descr := d.drop (min (min n s.len) 64) }, false) := by
  rw [State.getDescriptor, hl]
  by_cases hlt : s.len > n
  · simp only [hlt, if_true, ge64]
    rw [load_eq (by omega), Nat.min_eq_left (show n ≤ s.len by omega)]
    rfl
  · simp only [hlt, if_false, ge64]
    rw [load_eq (by omega), Nat.min_eq_right (show s.len ≤ n by omega)]
    rfl

theorem setup_descriptor {s : State} (hb : s.buf.length = 64) {r : Setup} (hd : r.type &&& 0x80 ≠ 0) (ht : r.type &&& 0x60 = 0) (hc : r.request = 0x06)
    {d : List Byte} {n : Nat} (hl : lookup r.value r.index = some (d, n)) (hn : n ≤ d.length) :
    ∃ s', s.onSetup r = some s' ∧
      Sending s.settings s' (d.take (min (min n r.length.toNat) 64)) ((d.drop (min (min n r.length.toNat) 64)).take (min n r.length.toNat - min (min n r.length.toNat) 64)) true := by
  have hbuf : (s.receive r).buf.length = 64 := by simp [State.receive, Setup.bytes, hb]
  have hr : (s.receive r).request = (s.receive r).getDescriptor := by
    rw [State.request, if_neg (fun h => h ht), State.standard]
    simp only [State.receive, hc]
    rfl
  rw [State.onSetup, hr, getDescriptor_eq (s := s.receive r) hl hn, Option.map_some]
  have hlen : (s.receive r).len = r.length.toNat := rfl
  have htype : (s.receive r).type = r.type := rfl
  have hcode : (s.receive r).code = 0x06 := hc
  have hk : (s.receive r).settings = s.settings := rfl
  generalize s.receive r = t at *
  simp only [State.answer, hlen, htype, hd, Bool.false_eq_true, if_false, ne_eq, not_false_eq_true, if_true, gt64]
  refine ⟨_, rfl, ⟨hk, ?_, ?_, ?_, rfl, ?_, ?_, rfl, rfl, htype ▸ ht, hcode⟩⟩
  · simp only [List.length_append, List.length_take, List.length_drop, hbuf]; omega
  · simp only [State.packet]
    rw [List.take_append_of_le_length (by simp only [List.length_take]; omega), List.take_take, Nat.min_self]
  · simp only [List.length_take]; omega
  · simp only [List.length_drop]; omega
  · simp only []; omega

/-- A request for a descriptor which there is, in any state. -/
theorem read_descriptor {s : State} (hb : s.buf.length = 64) {r : Setup} (hd : r.type &&& 0x80 ≠ 0) (ht : r.type &&& 0x60 = 0) (hc : r.request = 0x06)
    {d : List Byte} {n : Nat} (hl : lookup r.value r.index = some (d, n)) (hn : n ≤ d.length) (hm : n % 64 ≠ 0) :
    ∃ s', read s r = .done s' (d.take (min n r.length.toNat)) ∧ s'.buf.length = 64 ∧ s'.settings = s.settings := by
  obtain ⟨s', he, h⟩ := setup_descriptor hb hd ht hc hl hn
  rw [read, he]
  simp only []
  by_cases h0 : r.length = 0
  · rw [if_pos h0]
    have h0' : r.length.toNat = 0 := by rw [h0]; rfl
    rw [h0'] at h ⊢
    simp only [Nat.min_zero, Nat.zero_min, List.take_zero, Nat.sub_zero] at h ⊢
    obtain ⟨s'', he', hs⟩ := onIn_end h (by have := h.enough; have e := congrArg List.length h.rest; rw [List.length_take, List.length_nil] at e; omega)
    have hz : s'.txLen = 0 := h.size.symm
    rw [statusIn, h.res]
    simp only [h.tog, hz, and_self, if_true, he']
    exact ⟨s'', rfl, hs.buf, hs.kept⟩
  · rw [if_neg h0]
    have h0' : r.length.toNat ≠ 0 := fun h => h0 (BitVec.eq_of_toNat_eq h)
    have hlen : (d.take (min (min n r.length.toNat) 64)).length + ((d.drop (min (min n r.length.toNat) 64)).take (min n r.length.toNat - min (min n r.length.toNat) 64)).length = min n r.length.toNat := by
      simp only [List.length_take, List.length_drop]; omega
    obtain ⟨s'', he', hs⟩ := readData_eq r.length.toNat h (by omega) (by omega)
    rw [he']
    simp only []
    obtain ⟨s3, he3, hb3⟩ := statusOut_sent (bs := d.take (min n r.length.toNat)) hs
    refine ⟨s3, ?_, hb3⟩
    rw [← he3]
    congr 1
    rw [← List.take_append_drop (min (min n r.length.toNat) 64) (d.take (min n r.length.toNat)), List.take_take, List.drop_take]
    congr 2; omega

theorem lookup_le {v i : BitVec 16} {d : List Byte} {n : Nat} (h : lookup v i = some (d, n)) : n ≤ d.length ∧ n % 64 ≠ 0 := by
  unfold lookup at h
  split at h <;> (try split at h) <;> first | (cases h; done) | (cases h; decide +kernel)

/-- A request for a descriptor which there is not. -/
theorem setup_absent {s : State} {r : Setup} (ht : r.type &&& 0x60 = 0) (hc : r.request = 0x06) (hl : lookup r.value r.index = none) :
    s.onSetup r = some { s.receive r with len := 0, txTog := true, txRes := .stall, rxTog := true, rxRes := .stall } := by
  have hr : (s.receive r).request = (s.receive r).getDescriptor := by
    rw [State.request, if_neg (fun h => h ht), State.standard]
    simp only [State.receive, hc]
    rfl
  have hg : (s.receive r).getDescriptor = some ({ s.receive r with len := 0 }, true) := by
    rw [State.getDescriptor, show lookup (s.receive r).value (s.receive r).index = none from hl]
    by_cases h0 : (s.receive r).len > 0
    · simp only [h0, if_true, ge64, Nat.zero_min]
      rw [load_eq (by omega)]
      rfl
    · have h0' : (s.receive r).len = 0 := by omega
      simp only [h0, if_false, ge64]
      simp only [h0', Nat.zero_min]
      rw [load_eq (by omega)]
      generalize s.receive r = t at h0' ⊢
      cases t; simp only at h0'; subst h0'; rfl
  rw [State.onSetup, hr, hg]; rfl

theorem read_absent {s : State} {r : Setup} (ht : r.type &&& 0x60 = 0) (hc : r.request = 0x06) (hl : lookup r.value r.index = none) :
    ∃ s', read s r = .stalled s' ∧ s'.buf = r.bytes ++ s.buf.drop 8 ∧ s'.settings = s.settings := by
  rw [read, setup_absent ht hc hl]
  simp only [statusIn, readData]
  split <;> exact ⟨_, rfl, rfl, rfl⟩

theorem readData_one {s : State} {want : Nat} (hr : s.txRes = .ack) (ht : s.txTog = true) {s' : State} (hi : s.onIn = some s')
    (h : s.packet.length = want) : readData s want true = .done s' s.packet := by
  rw [readData, hr]
  simp only [ht, ne_eq, not_true_eq_false, false_or, hi]
  rw [if_neg (by omega), dif_pos (.inr h)]

theorem request_std {s : State} (h : s.type &&& 0x60 = 0) : s.request = s.standard := by
  rw [State.request, if_neg (fun h' => h' h)]

theorem request_class {s : State} (h : s.type &&& 0x60 = 0x20) : s.request = some s.classRequest := by
  rw [State.request, if_pos (by rw [h]; decide), if_pos h]

theorem answer_status {s : State} (hd : s.type &&& 0x80 = 0) (hl : s.len = 0) :
    s.answer false = { s with txLen := 0, txTog := true, txRes := .ack, rxTog := false, rxRes := .ack } := by
  rw [State.answer, if_neg (by decide), if_neg (fun h => h hd), if_pos hl]

/-- A transfer without data. -/
theorem write_plain {s : State} {r : Setup} {t s' : State} (hd : r.type &&& 0x80 = 0) (ht : t.type = r.type) (hl : t.len = 0)
    (hr : (s.receive r).request = some (t, false))
    (hi : State.onIn { t with txLen := 0, txTog := true, txRes := .ack, rxTog := false, rxRes := .ack } = some s') : write s r [] = .done s' [] := by
  rw [write, State.onSetup, hr, Option.map_some]
  simp only []
  rw [answer_status (by rw [ht, hd]) hl, if_pos trivial, statusIn]
  simp only [and_self, if_true, hi]

theorem atEnd_eq {s : State} (hl : s.len = 0) : s.atEnd = { s with rxTog := true, rxRes := .ack, txTog := false, txRes := .ack } := if_pos hl

theorem onIn_class {s : State} (ht : s.type &&& 0x60 ≠ 0) (hl : s.len = 0) :
    s.onIn = some { s with rxTog := true, rxRes := .ack, txTog := false, txRes := .ack } := by
  rw [State.onIn, atEnd_eq hl]
  exact if_pos ht

theorem onIn_std {s : State} (ht : s.type &&& 0x60 = 0) (hl : s.len = 0) (h5 : s.code.toNat ≠ 5) (h6 : s.code.toNat ≠ 6) :
    s.onIn = some { s with rxTog := true, rxRes := .ack, txTog := false, txRes := .ack } := by
  rw [State.onIn, atEnd_eq hl]
  refine (if_neg (fun h => h ht)).trans ?_
  simp only [h5, h6]

theorem onIn_address {s : State} (ht : s.type &&& 0x60 = 0) (hl : s.len = 0) (h5 : s.code = 5) :
    s.onIn = some { s with rxTog := true, rxRes := .ack, txTog := false, txRes := .ack, devAddr := (s.devAddr &&& 0x80) ||| s.addr } := by
  rw [State.onIn, atEnd_eq hl]
  refine (if_neg (fun h => h ht)).trans ?_
  simp only [h5]
  rfl

theorem write_address (s : State) (a : Byte) : ∃ s', write s (setAddress a) [] = .done s' [] ∧ s'.buf = (setAddress a).bytes ++ s.buf.drop 8 ∧
    s'.settings = { s.settings with addr := a, devAddr := (s.devAddr &&& 0x80) ||| a } := by
  have ha : low (a.setWidth 16) = a := by simp [low]
  refine ⟨{ s.receive (setAddress a) with
      addr := a, txLen := 0, txTog := false, txRes := .ack, rxTog := true, rxRes := .ack, devAddr := (s.devAddr &&& 0x80) ||| a }, ?_, rfl, rfl⟩
  refine write_plain (t := { s.receive (setAddress a) with addr := a }) (show (0x00 : Byte) &&& 0x80 = 0 by decide) rfl rfl ?_ ?_
  · rw [request_std (show (0x00 : Byte) &&& 0x60 = 0 by decide)]
    show some ({ s.receive (setAddress a) with addr := low (a.setWidth 16) }, false) = _
    rw [ha]
  · exact onIn_address (show (0x00 : Byte) &&& 0x60 = 0 by decide) rfl rfl

theorem write_configuration (s : State) (c : Byte) : ∃ s', write s (setConfiguration c) [] = .done s' [] ∧
    s'.buf = (setConfiguration c).bytes ++ s.buf.drop 8 ∧ s'.settings = { s.settings with config := c, enumerated := true } := by
  have ha : low (c.setWidth 16) = c := by simp [low]
  refine ⟨{ s.receive (setConfiguration c) with
      config := c, enumerated := true, txLen := 0, txTog := false, txRes := .ack, rxTog := true, rxRes := .ack }, ?_, rfl, rfl⟩
  refine write_plain (t := { s.receive (setConfiguration c) with config := c, enumerated := true }) (show (0x00 : Byte) &&& 0x80 = 0 by decide) rfl rfl ?_ ?_
  · rw [request_std (show (0x00 : Byte) &&& 0x60 = 0 by decide)]
    show some ({ s.receive (setConfiguration c) with config := low (c.setWidth 16), enumerated := true }, false) = _
    rw [ha]
  · exact onIn_std (show (0x00 : Byte) &&& 0x60 = 0 by decide) rfl (show (9 : Byte).toNat ≠ 5 by decide) (show (9 : Byte).toNat ≠ 6 by decide)

theorem high_append (a b : Byte) : high (a ++ b) = a := by
  unfold high
  apply BitVec.eq_of_getLsbD_eq
  intro i hi
  simp only [BitVec.getLsbD_setWidth, BitVec.getLsbD_ushiftRight, BitVec.getLsbD_append, hi, decide_true, Bool.true_and]
  rw [if_neg (by omega), Nat.add_sub_cancel_left]

theorem low_append (a b : Byte) : low (a ++ b) = b := by
  unfold low
  apply BitVec.eq_of_getLsbD_eq
  intro i hi
  simp only [BitVec.getLsbD_setWidth, BitVec.getLsbD_append, hi, decide_true, Bool.true_and, if_true]

theorem write_idle (s : State) (i : BitVec 16) (hi : i.toNat < 3) (d : Byte) : ∃ s', write s (setIdle i d) [] = .done s' [] ∧
    s'.buf = (setIdle i d).bytes ++ s.buf.drop 8 ∧ s'.settings = { s.settings with idle := s.idle.set i.toNat d } := by
  refine ⟨{ s.receive (setIdle i d) with
      idle := s.idle.set i.toNat d, txLen := 0, txTog := false, txRes := .ack, rxTog := true, rxRes := .ack }, ?_, rfl, rfl⟩
  refine write_plain (t := { s.receive (setIdle i d) with idle := s.idle.set i.toNat d }) (show (0x21 : Byte) &&& 0x80 = 0 by decide) rfl rfl ?_ ?_
  · rw [request_class (show (0x21 : Byte) &&& 0x60 = 0x20 by decide)]
    have : (s.receive (setIdle i d)).classRequest = ({ s.receive (setIdle i d) with idle := s.idle.set i.toNat (high (d ++ 0#8)) }, false) :=
      if_pos hi
    rw [this, high_append]
  · exact onIn_class (show (0x21 : Byte) &&& 0x60 ≠ 0 by decide) rfl

/-! ## Histories -/

theorem load_length {s s' : State} {src : List Byte} {n : Nat} (h : s.load src n = some s') (hb : s.buf.length = 64) (hn : n ≤ 64) : s'.buf.length = 64 := by
  rw [State.load] at h
  split at h
  · cases h; simp only [List.length_append, List.length_take, List.length_drop, hb]; omega
  · cases h

theorem put_length (s : State) (i : Nat) (b : Byte) : (s.put i b).buf.length = s.buf.length := by simp [State.put]

theorem answer_buf (s : State) (e : Bool) : (s.answer e).buf = s.buf := by
  simp only [State.answer]; split <;> (try split) <;> (try split) <;> rfl

theorem getDescriptor_length {s : State} (hb : s.buf.length = 64) {x : State × Bool} (h : s.getDescriptor = some x) : x.1.buf.length = 64 := by
  rw [State.getDescriptor] at h
  simp only [ge64] at h
  cases hl : lookup s.value s.index with
  | none =>
    simp only [hl] at h
    split at h <;>
    · simp only [Option.bind_eq_bind, Option.bind_eq_some_iff, Option.pure_def, Option.some.injEq] at h
      obtain ⟨t, ht, rfl⟩ := h
      have hx : t.buf.length = 64 := load_length ht hb (Nat.min_le_right _ _)
      exact hx
  | some dn =>
    obtain ⟨d, n⟩ := dn
    simp only [hl] at h
    split at h <;>
    · simp only [Option.bind_eq_bind, Option.bind_eq_some_iff, Option.pure_def, Option.some.injEq] at h
      obtain ⟨t, ht, rfl⟩ := h
      have hx : t.buf.length = 64 := load_length ht hb (Nat.min_le_right _ _)
      exact hx

theorem clearFeature_buf (s : State) : s.clearFeature.1.buf = s.buf := by
  simp only [State.clearFeature]; split <;> (try split) <;> (try split) <;> rfl

theorem setFeature_buf (s : State) : s.setFeature.1.buf = s.buf := by
  simp only [State.setFeature]; split <;> (try split) <;> (try split) <;> rfl

theorem getStatus_length (s : State) : s.getStatus.1.buf.length = s.buf.length := by
  simp only [State.getStatus]
  split <;> (try split) <;> (try split) <;> (try split) <;> simp [put_length]

theorem classRequest_length (s : State) : s.classRequest.1.buf.length = s.buf.length := by
  simp only [State.classRequest]
  split <;> (try split) <;> simp [put_length]

theorem request_length {s : State} (hb : s.buf.length = 64) {x : State × Bool} (h : s.request = some x) : x.1.buf.length = 64 := by
  rw [State.request] at h
  split at h
  · split at h
    · cases h; rw [classRequest_length, hb]
    · cases h; exact hb
  · rw [State.standard] at h
    split at h
    · exact getDescriptor_length hb h
    all_goals (cases h)
    · exact hb
    · simp only []; split <;> simp only [put_length, hb]
    · exact hb
    · rw [clearFeature_buf, hb]
    · rw [setFeature_buf, hb]
    · simp only []; split <;> simp only [put_length, hb]
    · exact hb
    · rw [getStatus_length, hb]
    · exact hb

theorem step_length {s s' : State} {e : Event} (he : e.Fits) (hb : s.buf.length = 64) (h : s.step e = some s') : s'.buf.length = 64 := by
  cases e with
  | setup r =>
    simp only [State.step, State.onSetup, Option.map_eq_some_iff] at h
    obtain ⟨x, hx, rfl⟩ := h
    rw [answer_buf]
    exact request_length (by simp [State.receive, Setup.bytes, hb]) hx
  | «in» =>
    simp only [State.step] at h
    split at h
    · simp only [State.onIn, ge64] at h
      have hb' : s.atEnd.buf.length = 64 := by rw [State.atEnd]; split <;> exact hb
      generalize s.atEnd = t at h hb'
      split at h
      · cases h; exact hb'
      · split at h
        · simp only [Option.bind_eq_bind, Option.bind_eq_some_iff, Option.pure_def, Option.some.injEq] at h
          obtain ⟨u, hu, rfl⟩ := h
          have hx : u.buf.length = 64 := load_length hu hb' (Nat.min_le_right _ _)
          exact hx
        · cases h; exact hb'
        · cases h; exact hb'
    · cases h; exact hb
  | out tog data =>
    simp only [State.step, Option.some.injEq] at h
    subst h
    have hl : (data ++ s.buf.drop data.length).length = 64 := by
      have : data.length ≤ 64 := he
      simp only [List.length_append, List.length_drop, hb]; omega
    split
    · simp only [State.onOut]
      split <;> split <;> exact hl
    · exact hb
  | reset => cases h; exact hb

theorem run_length {es : List Event} : ∀ {s s' : State}, (∀ e ∈ es, e.Fits) → s.buf.length = 64 → s.run es = some s' → s'.buf.length = 64 := by
  induction es with
  | nil => intro s s' _ hb h; cases h; exact hb
  | cons e es ih =>
    intro s s' hf hb h
    simp only [State.run, Option.bind_eq_some_iff] at h
    obtain ⟨t, ht, h⟩ := h
    exact ih (fun x hx => hf x (.tail _ hx)) (step_length (hf e (.head _)) hb ht) h

/-- The end of the descriptor has not been passed. -/
def Safe (s : State) : Prop := s.type &&& 0x60 = 0 → s.code = 0x06 → s.txRes = .ack → s.len ≤ s.descr.length

theorem answer_frame (s : State) (e : Bool) : (s.answer e).type = s.type ∧ (s.answer e).code = s.code := by
  simp only [State.answer]; split <;> (try split) <;> (try split) <;> exact ⟨rfl, rfl⟩

theorem classRequest_type (s : State) : s.classRequest.1.type = s.type := by
  simp only [State.classRequest]; split <;> (try split) <;> rfl

theorem clearFeature_code (s : State) : s.clearFeature.1.code = s.code := by
  simp only [State.clearFeature]; split <;> (try split) <;> (try split) <;> rfl

theorem setFeature_code (s : State) : s.setFeature.1.code = s.code := by
  simp only [State.setFeature]; split <;> (try split) <;> (try split) <;> rfl

theorem getStatus_code (s : State) : s.getStatus.1.code = s.code := by
  simp only [State.getStatus]
  split <;> (try split) <;> (try split) <;> (try split) <;> rfl

theorem toNat_six {b : Byte} (h : b.toNat = 6) : b = 0x06 := BitVec.eq_of_toNat_eq h

theorem standard_code {s : State} (h6 : s.code ≠ 0x06) : ∃ x, s.standard = some x ∧ x.1.code = s.code := by
  rw [State.standard]
  split
  · exact absurd (toNat_six (by assumption)) h6
  · exact ⟨_, rfl, rfl⟩
  · refine ⟨_, rfl, ?_⟩; simp only []; split <;> rfl
  · exact ⟨_, rfl, rfl⟩
  · exact ⟨_, rfl, clearFeature_code s⟩
  · exact ⟨_, rfl, setFeature_code s⟩
  · refine ⟨_, rfl, ?_⟩; simp only []; split <;> rfl
  · exact ⟨_, rfl, rfl⟩
  · exact ⟨_, rfl, getStatus_code s⟩
  · exact ⟨_, rfl, rfl⟩

theorem setup_safe {s : State} {r : Setup} (hd : Event.Directed (.setup r)) : ∃ s', s.onSetup r = some s' ∧ Safe s' := by
  by_cases ht : r.type &&& 0x60 = 0
  · by_cases h6 : r.request = 0x06
    · cases hl : lookup r.value r.index with
      | none => rw [setup_absent ht h6 hl]; exact ⟨_, rfl, fun _ _ h => by cases h⟩
      | some dn =>
        obtain ⟨d, n⟩ := dn
        have hn := (lookup_le hl).1
        have hr : (s.receive r).request = (s.receive r).getDescriptor := by
          rw [request_std ht, State.standard]
          simp only [State.receive, h6]
          rfl
        rw [State.onSetup, hr, getDescriptor_eq (s := s.receive r) hl hn, Option.map_some]
        refine ⟨_, rfl, fun _ _ _ => ?_⟩
        have hlen : (s.receive r).len = r.length.toNat := rfl
        have htype : (s.receive r).type = r.type := rfl
        simp only [State.answer, htype, gt64, hlen, Bool.false_eq_true, if_false]
        rcases hd ht h6 with h | h
        · simp only [h, ne_eq, not_false_eq_true, if_true, List.length_drop]; omega
        · have h0 : r.length.toNat = 0 := by rw [h]; rfl
          simp only [h0, Nat.min_zero]
          split <;> simp
    · obtain ⟨x, hx, hc⟩ := standard_code (s := s.receive r) h6
      rw [State.onSetup, request_std ht, hx]
      refine ⟨_, rfl, fun _ h _ => absurd ?_ h6⟩
      rw [(answer_frame _ _).2, hc] at h
      exact h
  · rw [State.onSetup, State.request, if_pos (show (s.receive r).type &&& 0x60 ≠ 0 from ht)]
    split
    · refine ⟨_, rfl, fun h _ _ => absurd ?_ ht⟩
      rw [(answer_frame _ _).1, classRequest_type] at h
      exact h
    · refine ⟨_, rfl, fun h _ _ => absurd ?_ ht⟩
      rw [(answer_frame _ _).1] at h
      exact h

theorem atEnd_frame (s : State) : s.atEnd.type = s.type ∧ s.atEnd.code = s.code ∧ s.atEnd.len = s.len ∧ s.atEnd.descr = s.descr := by
  rw [State.atEnd]; split <;> exact ⟨rfl, rfl, rfl, rfl⟩

theorem step_safe {s : State} {e : Event} (hd : e.Directed) (h : Safe s) : ∃ s', s.step e = some s' ∧ Safe s' := by
  cases e with
  | setup r => exact setup_safe hd
  | «in» =>
    rw [State.step]
    split
    · rename_i ha
      obtain ⟨f1, f2, f3, f4⟩ := atEnd_frame s
      rw [State.onIn]
      simp only [ge64]
      by_cases ht : s.type &&& 0x60 = 0
      · rw [if_neg (by rw [f1]; exact fun h => h ht)]
        split
        · rename_i h6
          rw [f2] at h6
          have hl := h ht (toNat_six h6) ha
          rw [load_eq (by rw [f3, f4]; omega)]
          refine ⟨_, rfl, fun _ _ _ => ?_⟩
          simp only [List.length_drop, f3, f4]; omega
        · rename_i h5
          refine ⟨_, rfl, fun _ h6 _ => ?_⟩
          rw [show s.atEnd.code = 0x06 from h6] at h5
          exact absurd h5 (by decide)
        · rename_i h5 h6'
          exact ⟨_, rfl, fun _ h6 _ => absurd (by rw [h6]; rfl) h5⟩
      · rw [if_pos (by rw [f1]; exact ht)]
        exact ⟨_, rfl, fun h _ _ => absurd (f1 ▸ h) ht⟩
    · exact ⟨_, rfl, h⟩
  | out tog data =>
    refine ⟨_, rfl, ?_⟩
    split
    · intro ht h6 ha
      have hk : ∀ t : State, (if t.len = 0 then { t with txLen := 0, txTog := true, txRes := .ack, rxTog := false, rxRes := .ack } else t).type = t.type := by
        intro t; split <;> rfl
      simp only [State.onOut] at ht h6 ha ⊢
      rw [hk] at ht
      have hn : ¬ ((tog = s.rxTog) ∧ s.type &&& 0x60 = 0x20 ∧ s.code = 0x09) := by
        rintro ⟨h1, h2, h3⟩
        rw [if_pos ⟨h1, h2, h3⟩] at ht
        exact absurd (h2.symm.trans ht) (by decide)
      rw [if_neg hn] at ht h6 ha ⊢
      simp only [] at ht h6 ha ⊢
      split at h6
      · rename_i h0
        simp only [if_pos h0]
        omega
      · rename_i h0
        simp only [if_neg h0] at ha ⊢
        exact h ht h6 ha
    · exact h
  | reset => exact ⟨_, rfl, fun _ _ h => by cases h⟩

theorem run_safe {es : List Event} : ∀ {s : State}, (∀ e ∈ es, e.Directed) → Safe s → ∃ s', s.run es = some s' := by
  induction es with
  | nil => exact fun _ _ => ⟨_, rfl⟩
  | cons e es ih =>
    intro s hd h
    obtain ⟨t, ht, h'⟩ := step_safe (hd e (.head _)) h
    obtain ⟨s', hs⟩ := ih (fun x hx => hd x (.tail _ hx)) h'
    exact ⟨s', by simp [State.run, ht, hs]⟩

end Verif.Control
