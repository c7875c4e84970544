import Verif.Lemmas.Control
import Verif.Usb

/-!
# Descriptors and control transfers: the ch32x035 firmware
-/

namespace Verif.Control

theorem Reached.buf {s : State} (h : Reached s) : s.buf.length = 64 := by
  obtain ⟨es, hf, hr⟩ := h
  exact run_length hf rfl hr

/-! ## Transfers are histories -/

theorem run_append (es fs : List Event) : ∀ (s : State), s.run (es ++ fs) = (s.run es).bind (·.run fs) := by
  induction es with
  | nil => intro s; rfl
  | cons e es ih =>
    intro s
    simp only [List.cons_append, State.run]
    cases s.step e with
    | none => rfl
    | some t => exact ih t

theorem Reached.step {s s' : State} (h : Reached s) {e : Event} (hf : e.Fits) (he : s.step e = some s') : Reached s' := by
  obtain ⟨es, h1, h2⟩ := h
  refine ⟨es ++ [e], ?_, ?_⟩
  · intro x hx
    rcases List.mem_append.1 hx with hx | hx
    · exact h1 x hx
    · cases List.mem_singleton.1 hx; exact hf
  · rw [run_append, h2]; simp [State.run, he]

theorem Reached.new : Reached {} := ⟨[], by simp, rfl⟩

/-- The state in which a transfer leaves the device. -/
def Outcome.Ends (o : Outcome) : Prop :=
  match o with
  | .done s _ => Reached s
  | .stalled s => Reached s
  | .broken => True

theorem Reached.readData (want : Nat) : ∀ {s : State} {tog : Bool}, Reached s → (readData s want tog).Ends := by
  induction want using Nat.strongRecOn with
  | ind want ih =>
    intro s tog h
    rw [Control.readData]
    cases hr : s.txRes with
    | stall => exact h
    | nak => trivial
    | ack =>
      simp only []
      split
      · trivial
      · cases hi : s.onIn with
        | none => trivial
        | some s' =>
          have h' : Reached s' := h.step (e := .«in») trivial (by rw [State.step, if_pos hr, hi])
          simp only []
          split
          · exact h'
          · rename_i hn
            have := ih (want - s.packet.length) (by omega) (tog := !tog) h'
            cases hx : Control.readData s' (want - s.packet.length) (!tog) with
            | done t bs => rw [hx] at this; exact this
            | stalled t => rw [hx] at this; exact this
            | broken => trivial

theorem Reached.statusIn {s : State} (h : Reached s) : (statusIn s).Ends := by
  rw [Control.statusIn]
  cases hr : s.txRes with
  | stall => exact h
  | nak => trivial
  | ack =>
    simp only []
    split
    · cases hi : s.onIn with
      | none => trivial
      | some s' => exact h.step (e := .«in») trivial (by rw [State.step, if_pos hr, hi])
    · trivial

theorem Reached.statusOut {s : State} (h : Reached s) (bs : List Byte) : (statusOut s bs).Ends := by
  rw [Control.statusOut]
  cases hr : s.rxRes with
  | stall => exact h
  | nak => trivial
  | ack =>
    simp only []
    split
    · exact h.step (e := .out true []) (Nat.zero_le _) (by rw [State.step, if_pos hr])
    · trivial

theorem Reached.read {s : State} (h : Reached s) (r : Setup) : (read s r).Ends := by
  rw [Control.read]
  cases hs : s.onSetup r with
  | none => trivial
  | some t =>
    have ht : Reached t := h.step (e := .setup r) trivial hs
    simp only []
    split
    · exact ht.statusIn
    · have := ht.readData r.length.toNat (tog := true)
      cases hd : Control.readData t r.length.toNat true with
      | done u bs => rw [hd] at this; exact Reached.statusOut this bs
      | stalled u => rw [hd] at this; exact this
      | broken => trivial

theorem Reached.write {s : State} (h : Reached s) (r : Setup) {data : List Byte} (hd : data.length ≤ 64) : (write s r data).Ends := by
  rw [Control.write]
  cases hs : s.onSetup r with
  | none => trivial
  | some t =>
    have ht : Reached t := h.step (e := .setup r) trivial hs
    simp only []
    split
    · exact ht.statusIn
    · cases hr : t.rxRes with
      | stall => exact ht
      | nak => trivial
      | ack =>
        simp only []
        split
        · exact Reached.statusIn (ht.step (e := .out true data) hd (by rw [State.step, if_pos hr]))
        · trivial

/-! ## Descriptors -/

theorem interfaces_eq : configuration configDescr = some (1, [
    ⟨0, 3, 1, 1, (configDescr.drop 18).take 9, [⟨0x81, 3, 8, 10⟩]⟩,
    ⟨1, 3, 1, 2, (configDescr.drop 43).take 9, [⟨0x82, 3, 8, 1⟩]⟩,
    ⟨2, 3, 0, 0, (configDescr.drop 68).take 9, [⟨0x83, 3, 4, 10⟩]⟩]) := by decide +kernel

theorem stated_lookup {type index : Byte} {interface : BitVec 16} {d : List Byte} (h : stated type index interface = some d) :
    ∃ d' k, lookup (type ++ index) interface = some (d', k) ∧ d = d'.take k := by
  unfold stated at h
  have hl : ∀ x, lookup (type ++ index) interface = x ↔ lookup (type ++ index) interface = x := fun _ => Iff.rfl
  simp only [lookup, high_append, low_append]
  split at h
  case h_1 ht hi => cases h; rw [ht]; exact ⟨_, _, rfl, by decide +kernel⟩
  case h_2 ht hi => cases h; rw [ht]; exact ⟨_, _, rfl, by decide +kernel⟩
  case h_3 ht hi => cases h; rw [ht, hi]; exact ⟨_, _, rfl, by decide +kernel⟩
  case h_4 ht hi => cases h; rw [ht, hi]; exact ⟨_, _, rfl, by decide +kernel⟩
  case h_5 ht hi => cases h; rw [ht, hi]; exact ⟨_, _, rfl, by decide +kernel⟩
  case h_6 ht hi => cases h; rw [ht, hi]; exact ⟨_, _, rfl, by decide +kernel⟩
  case h_7 ht hi =>
    rw [ht]
    rw [interfaces_eq] at h
    simp only [Option.bind_some, List.find?_cons, List.find?_nil] at h
    by_cases h0 : interface = 0
    · subst h0; cases h; exact ⟨_, _, rfl, by decide +kernel⟩
    by_cases h1 : interface = 1
    · subst h1; cases h; exact ⟨_, _, rfl, by decide +kernel⟩
    by_cases h2 : interface = 2
    · subst h2; cases h; exact ⟨_, _, rfl, by decide +kernel⟩
    have e0 : decide (BitVec.setWidth 16 (0 : Byte) = interface) = false := decide_eq_false (fun h => h0 h.symm)
    have e1 : decide (BitVec.setWidth 16 (1 : Byte) = interface) = false := decide_eq_false (fun h => h1 h.symm)
    have e2 : decide (BitVec.setWidth 16 (2 : Byte) = interface) = false := decide_eq_false (fun h => h2 h.symm)
    simp only [e0, e1, e2] at h
    cases h
  case h_8 ht hi =>
    rw [ht]
    match hk : interface.toNat, h with
    | 0, h => cases h; exact ⟨_, _, rfl, by decide +kernel⟩
    | 1, h => cases h; exact ⟨_, _, rfl, by decide +kernel⟩
    | 2, h => cases h; exact ⟨_, _, rfl, by decide +kernel⟩
    | n + 3, h => simp at h
  case h_9 => cases h

/-- C80: whatever has happened before, a host that asks for a descriptor gets it, up to the length it asks for; whatever that length is. -/
theorem C80_descriptor {s : State} (hs : Reached s) (rt : Byte) (hrt : rt = 0x80 ∨ rt = 0x81) (type index : Byte) (interface length : BitVec 16) (d : List Byte)
    (h : stated type index interface = some d) :
    ∃ s', read s ⟨rt, 0x06, type ++ index, interface, length⟩ = .done s' (d.take length.toNat) ∧ s'.settings = s.settings ∧ Reached s' := by
  obtain ⟨d', k, hl, rfl⟩ := stated_lookup h
  obtain ⟨hk, hm⟩ := lookup_le hl
  obtain ⟨s', he, _, hset⟩ := read_descriptor (r := ⟨rt, 0x06, type ++ index, interface, length⟩) hs.buf
    (by rcases hrt with rfl | rfl <;> (simp only []; decide)) (by rcases hrt with rfl | rfl <;> (simp only []; decide)) rfl hl hk hm
  have hr := hs.read ⟨rt, 0x06, type ++ index, interface, length⟩
  rw [he] at hr
  exact ⟨s', by rw [he, List.take_take, Nat.min_comm], hset, hr⟩

/-- C80: what there is not is refused: other kinds of descriptors, other strings, other interfaces. -/
theorem C80_absent {s : State} (hs : Reached s) (rt : Byte) (hrt : rt = 0x80 ∨ rt = 0x81) (type index : Byte) (interface length : BitVec 16)
    (h : type ∉ [0x01, 0x02, 0x03, 0x21, 0x22] ∨ (type = 0x03 ∧ 4 ≤ index.toNat) ∨ (type ∈ [0x21, 0x22] ∧ 3 ≤ interface.toNat)) :
    ∃ s', read s ⟨rt, 0x06, type ++ index, interface, length⟩ = .stalled s' ∧ s'.settings = s.settings ∧ Reached s' := by
  have hl : lookup (type ++ index) interface = none := by
    simp only [lookup, high_append, low_append]
    rcases h with h | ⟨rfl, h⟩ | ⟨h, h'⟩
    · simp only [List.mem_cons, List.not_mem_nil, or_false, not_or] at h
      obtain ⟨h1, h2, h3, h4, h5⟩ := h
      split
      · exact absurd (BitVec.eq_of_toNat_eq (by assumption)) h1
      · exact absurd (BitVec.eq_of_toNat_eq (by assumption)) h2
      · exact absurd (BitVec.eq_of_toNat_eq (by assumption)) h4
      · exact absurd (BitVec.eq_of_toNat_eq (by assumption)) h5
      · exact absurd (BitVec.eq_of_toNat_eq (by assumption)) h3
      · rfl
    · rw [show (0x03 : Byte).toNat = 3 from rfl]
      simp only []
      split <;> first | omega | rfl
    · simp only [List.mem_cons, List.not_mem_nil, or_false] at h
      rcases h with rfl | rfl
      · rw [show (0x21 : Byte).toNat = 0x21 from rfl]
        simp only []
        split <;> first | omega | rfl
      · rw [show (0x22 : Byte).toNat = 0x22 from rfl]
        simp only []
        split <;> first | omega | rfl
  obtain ⟨s', he, _, hset⟩ := read_absent (s := s) (r := ⟨rt, 0x06, type ++ index, interface, length⟩)
    (by rcases hrt with rfl | rfl <;> (simp only []; decide)) rfl hl
  have hr := hs.read ⟨rt, 0x06, type ++ index, interface, length⟩
  rw [he] at hr
  exact ⟨s', he, hset, hr⟩

/-- C80: the configuration descriptor is well-formed and fits the device: three HID interfaces, the first a boot keyboard, the second a boot mouse, each with its
report descriptor, and one interrupt end-point whose packets the reports (`Usb.State.new`) fit in. -/
theorem C80_configuration :
    ∃ is, configuration configDescr = some (1, is) ∧
      is.map (fun i => (i.number.toNat, i.kind.toNat, i.subclass.toNat, i.protocol.toNat)) = [(0, 3, 1, 1), (1, 3, 1, 2), (2, 3, 0, 0)] ∧
      is.map (fun i => reportLength i.hid) = [Hid.usbKeyboard, Hid.usbMouse, Hid.usbConsumer].map (some ·.length) ∧
      is.map (fun i => i.endpoints.map fun e => (e.address.toNat, e.kind.toNat)) = [[(0x81, 3)], [(0x82, 3)], [(0x83, 3)]] ∧
      (∀ x ∈ is.zip [Usb.State.new.keyboard.pack.length, Usb.State.new.mouse.pack.length, Usb.State.new.consumer.pack.length],
        ∀ e ∈ x.1.endpoints, x.2 ≤ e.size) :=
  ⟨_, interfaces_eq, by decide +kernel, by decide +kernel, by decide +kernel, by decide +kernel⟩

/-- C80: the device descriptor says USB 2.0, packets of 64 bytes at end-point 0 (the size of its buffer), one configuration, and which strings name the maker, the
product and the serial number; these can be read. -/
theorem C80_device :
    deviceDescr.length = 18 ∧ deviceDescr.take 4 = [18, 1, 0x00, 0x02] ∧ (deviceDescr.getD 7 0).toNat = ({} : State).buf.length ∧ deviceDescr.getD 17 0 = 1 ∧
      (deviceDescr.drop 14).take 3 = [1, 2, 3] ∧ langDescr = [4, 3, 0x09, 0x04] ∧
      [makerDescr, productDescr, serialDescr].all (fun d => (d.getD 0 0).toNat = d.length ∧ d.getD 1 0 = 3) = true ∧
      textOf (makerDescr.drop 2) = "wch.cn".toList ∧ textOf (productDescr.drop 2) = "CH32x035".toList ∧ textOf (serialDescr.drop 2) = "0123456789".toList := by
  decide +kernel

/-! ## Settings -/

/-- C80: an address is obeyed, but not before the transfer has ended: its last packet still comes from the old one. -/
theorem C80_address {s : State} (hs : Reached s) (a : Byte) (ha : a.toNat < 128) :
    (∃ t, s.onSetup (setAddress a) = some t ∧ t.devAddr = s.devAddr) ∧
    ∃ s', write s (setAddress a) [] = .done s' [] ∧ s'.devAddr &&& 0x7F = a ∧ Reached s' := by
  constructor
  · rw [State.onSetup, request_std (show (0x00 : Byte) &&& 0x60 = 0 by decide)]
    show ∃ t, some (State.answer { s.receive (setAddress a) with addr := low (a.setWidth 16) } false) = some t ∧ _
    refine ⟨_, rfl, ?_⟩
    rw [answer_status (show (0x00 : Byte) &&& 0x80 = 0 by decide) rfl]; rfl
  · obtain ⟨s', he, _, hset⟩ := write_address s a
    have hr := hs.write (setAddress a) (data := []) (by simp)
    rw [he] at hr
    refine ⟨s', he, ?_, hr⟩
    have : s'.devAddr = (s.devAddr &&& 0x80) ||| a := congrArg Settings.devAddr hset
    rw [this]
    have hb : a.getLsbD 7 = false := by
      rw [BitVec.getLsbD, Nat.testBit_lt_two_pow (by omega)]
    have hb' : a[7] = false := by rw [← BitVec.getLsbD_eq_getElem]; exact hb
    apply BitVec.eq_of_getLsbD_eq
    intro i hi
    simp only [BitVec.getLsbD_and, BitVec.getLsbD_or]
    match i, hi with
    | 0, _ | 1, _ | 2, _ | 3, _ | 4, _ | 5, _ | 6, _ => simp
    | 7, _ => simp [hb']

/-- A request that is answered with one byte. -/
theorem read_byte {s : State} (hb : s.buf.length = 64) : ∃ s', read s getConfiguration = .done s' [s.config] ∧ s'.settings = s.settings := by
  have hl : (s.receive getConfiguration).buf.length = 64 := by simp [State.receive, Setup.bytes, hb]
  have hr : (s.receive getConfiguration).request = some ((s.receive getConfiguration).put 0 s.config, false) := by
    rw [request_std (show (0x80 : Byte) &&& 0x60 = 0 by decide)]; rfl
  have hset : ((s.receive getConfiguration).put 0 s.config).settings = s.settings := rfl
  have hp : ((s.receive getConfiguration).put 0 s.config).buf.take 1 = [s.config] := rfl
  have hlen : ((s.receive getConfiguration).put 0 s.config).len = 1 := rfl
  have ht : ((s.receive getConfiguration).put 0 s.config).type = 0x80 := rfl
  have hc : ((s.receive getConfiguration).put 0 s.config).code = 0x08 := rfl
  rw [read, State.onSetup, hr, Option.map_some]
  simp only []
  generalize (s.receive getConfiguration).put 0 s.config = t at *
  have ha : t.answer false = { t with len := 0, txLen := 1, txTog := true, txRes := .ack, rxTog := false, rxRes := .ack } := by
    rw [State.answer, if_neg (by decide), if_pos (by rw [ht]; decide), hlen]; rfl
  rw [ha, if_neg (by decide)]
  have hi := onIn_std (s := { t with len := 0, txLen := 1, txTog := true, txRes := .ack, rxTog := false, rxRes := .ack })
    (by rw [ht]; decide) rfl (by rw [hc]; decide) (by rw [hc]; decide)
  rw [readData_one rfl rfl hi (by rw [State.packet, hp]; rfl)]
  simp only [statusOut, if_true]
  refine ⟨_, by rw [State.packet, hp], ?_⟩
  have hn : ¬ (t.type &&& 0x60 = 0x20) := by rw [ht]; decide
  simp only [State.onOut, hn, false_and, and_false, if_false]
  exact hset

/-- C80: a configuration is stored, and can be read back; from then on reports are sent. -/
theorem C80_configure {s : State} (hs : Reached s) (c : Byte) :
    ∃ s', write s (setConfiguration c) [] = .done s' [] ∧ s'.enumerated = true ∧ ∃ s'', read s' getConfiguration = .done s'' [c] ∧ Reached s'' := by
  obtain ⟨s', he, _, hset⟩ := write_configuration s c
  have hr := hs.write (setConfiguration c) (data := []) (by simp)
  rw [he] at hr
  have hr' : Reached s' := hr
  obtain ⟨s'', he', _⟩ := read_byte hr'.buf
  have hr2 := hr'.read getConfiguration
  rw [he'] at hr2
  have hc : s'.config = c := congrArg Settings.config hset
  exact ⟨s', he, congrArg Settings.enumerated hset, s'', by rw [he', hc], hr2⟩

/-- A transfer which reads less than a packet. -/
theorem read_short {s t : State} {r : Setup} {bs : List Byte} (hr : (s.receive r).request = some (t, false)) (h80 : t.type &&& 0x80 ≠ 0)
    (h60 : t.type &&& 0x60 = 0) (h5 : t.code.toNat ≠ 5) (h6 : t.code.toNat ≠ 6) (hlen : t.len = bs.length) (hb : t.buf.take bs.length = bs)
    (hs : bs.length < 64) (h0 : r.length ≠ 0) (hw : bs.length ≤ r.length.toNat) : ∃ s', read s r = .done s' bs ∧ s'.settings = t.settings := by
  rw [read, State.onSetup, hr, Option.map_some]
  simp only []
  have ha : t.answer false = { t with len := 0, txLen := bs.length, txTog := true, txRes := .ack, rxTog := false, rxRes := .ack } := by
    rw [State.answer, if_neg (by decide), if_pos h80, hlen]
    simp only [if_neg (show ¬ bs.length > 64 by omega), Nat.sub_self]
  rw [ha, if_neg h0]
  have hi := onIn_std (s := { t with len := 0, txLen := bs.length, txTog := true, txRes := .ack, rxTog := false, rxRes := .ack }) h60 rfl h5 h6
  have hp : State.packet { t with len := 0, txLen := bs.length, txTog := true, txRes := .ack, rxTog := false, rxRes := .ack } = bs := hb
  rw [readData]
  simp only [hp, hi, ne_eq, not_true_eq_false, false_or]
  rw [if_neg (by omega), dif_pos (.inl hs)]
  simp only [statusOut, if_true]
  have hn : ¬ (t.type &&& 0x60 = 0x20) := by rw [h60]; decide
  refine ⟨_, rfl, ?_⟩
  simp only [State.onOut, hn, false_and, and_false, if_false]
  rfl

theorem clip (t : State) (hn : 2 ≤ t.len) : (if t.len > 2 then { t with len := 2 } else t) = { t with len := 2 } := by
  split
  · rfl
  · have : t.len = 2 := by omega
    cases t
    simp only at this
    subst this
    rfl

/-- C80: asked for the status of the device, it answers two bytes, however many more are asked for: whether it may wake the host. -/
theorem C80_status_device {s : State} (n : BitVec 16) (hn : 2 ≤ n.toNat) :
    ∃ s', read s ⟨0x80, 0x00, 0, 0, n⟩ = .done s' [if s.sleep &&& 1 ≠ 0 then 2 else 0, 0] ∧ s'.settings = s.settings := by
  have hl : (s.receive ⟨0x80, 0x00, 0, 0, n⟩).len = n.toNat := rfl
  refine read_short (t := { ((((s.receive ⟨0x80, 0x00, 0, 0, n⟩).put 0 0).put 1 0).put 0 (if s.sleep &&& 1 ≠ 0 then 2 else 0)) with len := 2 }) ?_
    (show (0x80 : Byte) &&& 0x80 ≠ 0 by decide) (show (0x80 : Byte) &&& 0x60 = 0 by decide) (show (0 : Byte).toNat ≠ 5 by decide)
    (show (0 : Byte).toNat ≠ 6 by decide) rfl rfl (by simp) ?_ (by simpa using hn)
  · rw [request_std (show (0x80 : Byte) &&& 0x60 = 0 by decide)]
    show some (State.getStatus _) = _
    have h2 : (((((s.receive ⟨0x80, 0x00, 0, 0, n⟩).put 0 0).put 1 0).type &&& 0x1F).toNat) = 0 := (show ((0x80 : Byte) &&& 0x1F).toNat = 0 by decide)
    rw [State.getStatus]
    simp only [h2]
    exact congrArg (fun t => some (t, false)) (clip _ hn)
  · intro h; rw [show n = 0 from h] at hn; exact absurd hn (by decide)

/-- C80: asked for the status of one of the end points of the reports, it answers two bytes: whether the end point is halted. -/
theorem C80_status_endpoint {s : State} (i : Nat) (hi : i < 3) (n : BitVec 16) (hn : 2 ≤ n.toNat) :
    ∃ s', read s ⟨0x82, 0x00, 0, BitVec.ofNat 16 (0x81 + i), n⟩ = .done s' [if (s.eps.getD i (false, .nak)).2 = .stall then 1 else 0, 0] ∧
      s'.settings = s.settings := by
  have key : ∀ (w : BitVec 16), endpoint w = some i → ∃ s', read s ⟨0x82, 0x00, 0, w, n⟩ = .done s' [if (s.eps.getD i (false, .nak)).2 = .stall then 1 else 0, 0] ∧
      s'.settings = s.settings := by
    intro w he
    have hg : (s.receive ⟨0x82, 0x00, 0, w, n⟩).getStatus =
        ({ ((((s.receive ⟨0x82, 0x00, 0, w, n⟩).put 0 0).put 1 0).put 0 (if (s.eps.getD i (false, .nak)).2 = .stall then 1 else 0)) with len := 2 }, false) := by
      rw [State.getStatus]
      have h2 : (((((s.receive ⟨0x82, 0x00, 0, w, n⟩).put 0 0).put 1 0).type &&& 0x1F).toNat) = 2 := by
        show ((0x82 : Byte) &&& 0x1F).toNat = 2
        decide
      have h3 : endpoint ((((s.receive ⟨0x82, 0x00, 0, w, n⟩).put 0 0).put 1 0).index) = some i := he
      simp only [h2, h3]
      have h4 : (((s.receive ⟨0x82, 0x00, 0, w, n⟩).put 0 0).put 1 0).eps = s.eps := rfl
      rw [h4]
      split <;> exact congrArg (Prod.mk · false) (clip _ hn)
    refine read_short (t := { ((((s.receive ⟨0x82, 0x00, 0, w, n⟩).put 0 0).put 1 0).put 0 (if (s.eps.getD i (false, .nak)).2 = .stall then 1 else 0)) with len := 2 }) ?_
      (show (0x82 : Byte) &&& 0x80 ≠ 0 by decide) (show (0x82 : Byte) &&& 0x60 = 0 by decide) (show (0 : Byte).toNat ≠ 5 by decide)
      (show (0 : Byte).toNat ≠ 6 by decide) rfl rfl (by simp) ?_ (by simpa using hn)
    · rw [request_std (show (0x82 : Byte) &&& 0x60 = 0 by decide)]
      show some (State.getStatus _) = _
      rw [hg]
    · intro h; rw [show n = 0 from h] at hn; exact absurd hn (by decide)
  apply key
  match i, hi with
  | 0, _ => decide
  | 1, _ => decide
  | 2, _ => decide

/-- C80: standard requests which the USB specification doesn't have are stalled. -/
theorem C80_unknown (s : State) (type code : Byte) (value index length : BitVec 16) (ht : type &&& 0x60 = 0)
    (hc : code.toNat ∉ [0, 1, 3, 5, 6, 8, 9, 10, 11]) :
    (∃ s', read s ⟨type, code, value, index, length⟩ = .stalled s' ∧ s'.settings = s.settings) ∧
    ∃ s', write s ⟨type, code, value, index, 0⟩ [] = .stalled s' ∧ s'.settings = s.settings := by
  have hq : ∀ length, (s.receive ⟨type, code, value, index, length⟩).request = some (s.receive ⟨type, code, value, index, length⟩, true) := by
    intro length
    rw [request_std ht, State.standard]
    have e : (s.receive ⟨type, code, value, index, length⟩).code = code := rfl
    rw [e]
    simp only [List.mem_cons, List.not_mem_nil, or_false, not_or] at hc
    obtain ⟨h0, h1, h3, h5, h6, h8, h9, h10, h11⟩ := hc
    split <;> first | rfl | omega
  constructor
  · rw [read, State.onSetup, hq, Option.map_some]
    simp only [State.answer, if_true, statusIn, readData]
    split <;> exact ⟨_, rfl, rfl⟩
  · rw [write, State.onSetup, hq, Option.map_some]
    simp only [State.answer, if_true, statusIn]
    exact ⟨_, rfl, rfl⟩

/-- What hosts send to halt an end point, and to let it go on. -/
def setHalt (i : Nat) : Setup := ⟨0x02, 0x03, 0, BitVec.ofNat 16 (0x81 + i), 0⟩
def clearHalt (i : Nat) : Setup := ⟨0x02, 0x01, 0, BitVec.ofNat 16 (0x81 + i), 0⟩

theorem endpoint_of {i : Nat} (hi : i < 3) : endpoint (BitVec.ofNat 16 (0x81 + i)) = some i := by
  match i, hi with
  | 0, _ => decide
  | 1, _ => decide
  | 2, _ => decide

/-- C81: a host that halts an end point gets that one stalled, with its toggle bit as it was, and nothing else is changed. -/
theorem C81_set_halt (s : State) (i : Nat) (hi : i < 3) : ∃ s', write s (setHalt i) [] = .done s' [] ∧
    s'.settings = { s.settings with eps := s.eps.modify i fun e => (e.1, .stall) } := by
  refine ⟨{ s.receive (setHalt i) with
      eps := s.eps.modify i fun e => (e.1, .stall), txLen := 0, txTog := false, txRes := .ack, rxTog := true, rxRes := .ack }, ?_, rfl⟩
  refine write_plain (t := { s.receive (setHalt i) with eps := s.eps.modify i fun e => (e.1, .stall) }) (show (0x02 : Byte) &&& 0x80 = 0 by decide) rfl rfl ?_ ?_
  · rw [request_std (show (0x02 : Byte) &&& 0x60 = 0 by decide)]
    show some (State.setFeature _) = _
    have he : endpoint (s.receive (setHalt i)).index = some i := endpoint_of hi
    have h2 : ((s.receive (setHalt i)).type &&& 0x1F).toNat = 2 := (show ((0x02 : Byte) &&& 0x1F).toNat = 2 by decide)
    have h0 : low (s.receive (setHalt i)).value = 0 := (show low (0 : BitVec 16) = 0 by decide)
    rw [State.setFeature]
    simp only [h2, h0, he, if_true]
    rfl
  · exact onIn_std (show (0x02 : Byte) &&& 0x60 = 0 by decide) rfl (show (3 : Byte).toNat ≠ 5 by decide) (show (3 : Byte).toNat ≠ 6 by decide)

/-- C81: a host that lets an end point go on gets that one started again with a clear toggle bit, as the USB specification has it (9.4.5), and nothing else is
changed. -/
theorem C81_clear_halt (s : State) (i : Nat) (hi : i < 3) : ∃ s', write s (clearHalt i) [] = .done s' [] ∧
    s'.settings = { s.settings with eps := s.eps.set i (false, .nak) } := by
  refine ⟨{ s.receive (clearHalt i) with
      eps := s.eps.set i (false, .nak), txLen := 0, txTog := false, txRes := .ack, rxTog := true, rxRes := .ack }, ?_, rfl⟩
  refine write_plain (t := { s.receive (clearHalt i) with eps := s.eps.set i (false, .nak) }) (show (0x02 : Byte) &&& 0x80 = 0 by decide) rfl rfl ?_ ?_
  · rw [request_std (show (0x02 : Byte) &&& 0x60 = 0 by decide)]
    show some (State.clearFeature _) = _
    have he : endpoint (s.receive (clearHalt i)).index = some i := endpoint_of hi
    have h2 : ((s.receive (clearHalt i)).type &&& 0x1F).toNat = 2 := (show ((0x02 : Byte) &&& 0x1F).toNat = 2 by decide)
    have h0 : low (s.receive (clearHalt i)).value = 0 := (show low (0 : BitVec 16) = 0 by decide)
    rw [State.clearFeature]
    simp only [h2, h0, he, if_true]
    rfl
  · exact onIn_std (show (0x02 : Byte) &&& 0x60 = 0 by decide) rfl (show (1 : Byte).toNat ≠ 5 by decide) (show (1 : Byte).toNat ≠ 6 by decide)

/-- C80: the output report (the LEDs of the keyboard) is received. -/
theorem C80_leds {s : State} (hs : Reached s) (interface : BitVec 16) (b : Byte) (data : List Byte) (hd : data.length ≤ 63) :
    ∃ s', write s (setReport interface (BitVec.ofNat 16 (data.length + 1))) (b :: data) = .done s' [] ∧ s'.led = b ∧ Reached s' := by
  have hr := hs.write (setReport interface (BitVec.ofNat 16 (data.length + 1))) (data := b :: data) (by simp; omega)
  suffices ∃ s', write s (setReport interface (BitVec.ofNat 16 (data.length + 1))) (b :: data) = .done s' [] ∧ s'.led = b by
    obtain ⟨s', he, hl⟩ := this
    rw [he] at hr
    exact ⟨s', he, hl, hr⟩
  generalize hn : BitVec.ofNat 16 (data.length + 1) = n
  have hn0 : n.toNat ≠ 0 := by rw [← hn, BitVec.toNat_ofNat]; omega
  have hq : (s.receive (setReport interface n)).request = some (s.receive (setReport interface n), false) := by
    rw [request_class (show (0x21 : Byte) &&& 0x60 = 0x20 by decide)]; rfl
  have ht : (s.receive (setReport interface n)).type = 0x21 := rfl
  have hc : (s.receive (setReport interface n)).code = 0x09 := rfl
  have hlen : (s.receive (setReport interface n)).len = n.toNat := rfl
  rw [write, State.onSetup, hq, Option.map_some]
  simp only []
  generalize s.receive (setReport interface n) = t at *
  have ha : t.answer false = { t with txTog := false, txRes := .ack, rxTog := true, rxRes := .ack } := by
    rw [State.answer, if_neg (by decide), if_neg (by rw [ht]; decide), if_neg (by rw [hlen]; exact hn0)]
  rw [ha, if_neg (by simp)]
  simp only [if_true]
  have ho : State.onOut { t with txTog := false, txRes := .ack, rxTog := true, rxRes := .ack } true (b :: data) =
      { t with
        buf := (b :: data) ++ t.buf.drop (b :: data).length, led := b, len := 0, txLen := 0, txTog := true, txRes := .ack, rxTog := false, rxRes := .ack } := by
    have c1 : t.type &&& 0x60 = 0x20 := by rw [ht]; decide
    simp only [State.onOut, c1, hc, and_self, if_true]
    rfl
  rw [ho, statusIn]
  simp only [and_self, if_true]
  rw [onIn_class (by simp only []; rw [ht]; decide) rfl]
  exact ⟨_, rfl, rfl⟩

/-! ## Enumeration -/

/-- C80: whatever has happened before, a host can enumerate the device: it gets to know the three interfaces and their report descriptors (C78 says what the reports
mean by these), and the device has the address it was given, and is configured. -/
theorem C80_enumeration {s : State} (hs : Reached s) (a : Byte) :
    ∃ s' is, enumerate s a = some (s', deviceDescr, is, [Hid.usbKeyboard, Hid.usbMouse, Hid.usbConsumer]) ∧ configuration configDescr = some (1, is) ∧
      s'.devAddr = a ∧ s'.config = 1 ∧ s'.enumerated = true ∧ Reached s' := by
  have h0 : Reached s.onReset := hs.step (e := .reset) trivial rfl
  have get : ∀ {s : State}, Reached s → ∀ (rt type : Byte) (i n : BitVec 16) (d e : List Byte), rt = 0x80 ∨ rt = 0x81 → stated type 0 i = some d →
      d.take n.toNat = e → ∃ s', (read s ⟨rt, 0x06, type ++ 0#8, i, n⟩).bind (fun s d => some (s, d)) = some (s', e) ∧ s'.settings = s.settings ∧ Reached s' := by
    intro s hs rt type i n d e hrt h he
    obtain ⟨s', h1, h2, h3⟩ := C80_descriptor hs rt hrt type 0 i n d h
    exact ⟨s', by rw [show read s ⟨rt, 0x06, type ++ 0#8, i, n⟩ = _ from h1, ← he]; rfl, h2, h3⟩
  have put : ∀ {s s' : State} {r : Setup}, Reached s → write s r [] = .done s' [] →
      (write s r []).bind (fun s _ => some s) = some s' ∧ Reached s' := by
    intro s s' r hs he
    have hr := hs.write r (data := []) (by simp)
    rw [he] at hr
    exact ⟨by rw [he]; rfl, hr⟩
  obtain ⟨s1, e1, k1, r1⟩ := get h0 0x80 1 0 8 _ (deviceDescr.take 8) (.inl rfl) rfl rfl
  obtain ⟨s2, e2, _, k2⟩ := write_address s1 a
  obtain ⟨e2, r2⟩ := put r1 e2
  obtain ⟨s3, e3, k3, r3⟩ := get r2 0x80 1 0 18 _ deviceDescr (.inl rfl) rfl rfl
  obtain ⟨s4, e4, k4, r4⟩ := get r3 0x80 2 0 9 _ (configDescr.take 9) (.inl rfl) rfl rfl
  obtain ⟨s5, e5, k5, r5⟩ := get r4 0x80 2 0 84 _ configDescr (.inl rfl) rfl rfl
  obtain ⟨s6, e6, _, k6⟩ := write_configuration s5 1
  obtain ⟨e6, r6⟩ := put r5 e6
  obtain ⟨s7, e7, _, k7⟩ := write_idle s6 0 (by decide) 0
  obtain ⟨e7, r7⟩ := put r6 e7
  obtain ⟨s8, e8, k8, r8⟩ := get r7 0x81 0x22 0 62 _ Hid.usbKeyboard (.inr rfl) rfl rfl
  obtain ⟨s9, e9, _, k9⟩ := write_idle s8 1 (by decide) 0
  obtain ⟨e9, r9⟩ := put r8 e9
  obtain ⟨s10, e10, k10, r10⟩ := get r9 0x81 0x22 1 52 _ Hid.usbMouse (.inr rfl) rfl rfl
  obtain ⟨s11, e11, _, k11⟩ := write_idle s10 2 (by decide) 0
  obtain ⟨e11, r11⟩ := put r10 e11
  obtain ⟨s12, e12, k12, r12⟩ := get r11 0x81 0x22 2 23 _ Hid.usbConsumer (.inr rfl) rfl rfl
  have hrep : reportDescriptors s6 [
      ⟨0, 3, 1, 1, (configDescr.drop 18).take 9, [⟨0x81, 3, 8, 10⟩]⟩,
      ⟨1, 3, 1, 2, (configDescr.drop 43).take 9, [⟨0x82, 3, 8, 1⟩]⟩,
      ⟨2, 3, 0, 0, (configDescr.drop 68).take 9, [⟨0x83, 3, 4, 10⟩]⟩] = some (s12, [Hid.usbKeyboard, Hid.usbMouse, Hid.usbConsumer]) := by
    have n0 : reportLength ((configDescr.drop 18).take 9) = some 62 := by decide +kernel
    have n1 : reportLength ((configDescr.drop 43).take 9) = some 52 := by decide +kernel
    have n2 : reportLength ((configDescr.drop 68).take 9) = some 23 := by decide +kernel
    simp only [reportDescriptors, n0, n1, n2, Option.bind_eq_bind, Option.bind_some]
    rw [show (write s6 (setIdle (BitVec.setWidth 16 (0 : Byte)) 0) []).bind (fun s _ => some s) = some s7 from e7, Option.bind_some,
      show (read s7 (getInterfaceDescriptor 34 (BitVec.setWidth 16 (0 : Byte)) 62#16)).bind (fun s d => some (s, d)) = some (s8, _) from e8,
      Option.bind_some,
      show (write s8 (setIdle (BitVec.setWidth 16 (1 : Byte)) 0) []).bind (fun s _ => some s) = some s9 from e9, Option.bind_some,
      show (read s9 (getInterfaceDescriptor 34 (BitVec.setWidth 16 (1 : Byte)) 52#16)).bind (fun s d => some (s, d)) = some (s10, _) from e10,
      Option.bind_some,
      show (write s10 (setIdle (BitVec.setWidth 16 (2 : Byte)) 0) []).bind (fun s _ => some s) = some s11 from e11, Option.bind_some,
      show (read s11 (getInterfaceDescriptor 34 (BitVec.setWidth 16 (2 : Byte)) 23#16)).bind (fun s d => some (s, d)) = some (s12, _) from e12,
      Option.bind_some]
    rfl
  have back {α : Type} (f : Settings → α) (hf : ∀ k l, f { k with idle := l } = f k) : f s12.settings = f s6.settings := by
    rw [k12, k11, hf, show s10.settings = s9.settings from k10, k9, hf, show s8.settings = s7.settings from k8, k7, hf]
  have back' {α : Type} (f : Settings → α) (hf : ∀ k c, f { k with config := c, enumerated := true } = f k) : f s6.settings = f s2.settings := by
    rw [k6, hf, k5, k4, k3]
  refine ⟨s12, _, ?_, interfaces_eq, ?_, ?_, ?_, r12⟩
  · rw [enumerate]
    rw [show (read s.onReset (getDescriptor 1 0 0 8)).bind (fun s d => some (s, d)) = some (s1, _) from e1]
    simp only [Option.bind_eq_bind, Option.bind_some]
    rw [if_neg (by decide)]
    rw [e2]
    simp only [Option.bind_some]
    rw [show (read s2 (getDescriptor 1 0 0 18)).bind (fun s d => some (s, d)) = some (s3, _) from e3]
    simp only [Option.bind_some]
    rw [show (read s3 (getDescriptor 2 0 0 9)).bind (fun s d => some (s, d)) = some (s4, _) from e4]
    simp only [Option.bind_some]
    rw [show (read s4 (getDescriptor 2 0 0 (BitVec.ofNat 16 (word (configDescr.take 9) 2)))).bind (fun s d => some (s, d)) = some (s5, _) from e5]
    simp only [Option.bind_some]
    rw [interfaces_eq]
    simp only [Option.bind_some]
    rw [e6]
    simp only [Option.bind_some]
    rw [hrep]
    rfl
  · have : s12.devAddr = s2.devAddr := (back Settings.devAddr fun _ _ => rfl).trans (back' Settings.devAddr fun _ _ => rfl)
    rw [this]
    have h2 : s2.devAddr = (s1.devAddr &&& 0x80) ||| a := congrArg Settings.devAddr k2
    have h1 : s1.devAddr = 0 := congrArg Settings.devAddr k1
    rw [h2, h1]; simp
  · exact (back Settings.config fun _ _ => rfl).trans (congrArg Settings.config k6)
  · exact (back Settings.enumerated fun _ _ => rfl).trans (congrArg Settings.enumerated k6)

/-- A device that has been used: it has been enumerated, an unknown request has been refused, and a transfer has been broken off. -/
example : Reached (((State.run {} [.setup (getDescriptor 2 0 0 84), .«in», .setup (getDescriptor 6 0 0 10), .setup (setAddress 5), .«in»]).getD {})) :=
  ⟨[.setup (getDescriptor 2 0 0 84), .«in», .setup (getDescriptor 6 0 0 10), .setup (setAddress 5), .«in»], by simp [Event.Fits], by decide +kernel⟩

/-- The descriptors of this device, so that C80_descriptor says something. -/
example : stated 0x21 0 1 = some [9, 0x21, 0x10, 1, 0, 1, 0x22, 0x34, 0] ∧ stated 0x22 0 2 = some Hid.usbConsumer ∧ stated 0x22 0 3 = none := by
  decide +kernel

/-! ## Memory -/

/-- C80: as long as requests for descriptors say that data is to come from the device, the device never reads past the end of a descriptor, whatever the host does
(transfers broken off, packets that are not expected, resets). -/
theorem C80_memory_partial (es : List Event) (h : ∀ e ∈ es, e.Directed) : ∃ s, State.run {} es = some s :=
  run_safe h fun _ _ _ => Nat.zero_le _

/-- Hosts that break off a transfer and ask again. -/
example : ∀ e ∈ [Event.setup (getDescriptor 2 0 0 84), .«in», .out false [1, 2], .setup (getDescriptor 1 0 0 200), .«in», .«in», .reset], e.Directed := by
  simp [Event.Directed, getDescriptor]

/-- Else it does: the length is not taken off, so that after the whole descriptor has been sent as if it were the rest. -/
theorem C80_memory_refuted : State.run {} [.setup ⟨0x00, 0x06, 0x0100, 0, 18⟩, .«in»] = none := by decide +kernel

/-- Nor is the length of a class request limited: eight bytes of the idle rate are the rate and seven bytes of what was in the buffer before, and of more than 64
bytes the host gets the first 64 only, again and again. -/
theorem C80_length_refuted :
    (read {} (getIdle 0 8)).bind (fun _ bs => some bs) = some [0, 2, 0, 0, 0, 0, 8, 0] ∧ read {} (getIdle 0 65) = .broken := by
  decide +kernel

/-- A report cannot be read through end-point 0, although a HID device has to allow that (HID 1.11, 7.2.1). -/
theorem C80_getReport_refuted (s : State) (v i n : BitVec 16) : ∃ s', read s ⟨0xA1, 0x01, v, i, n⟩ = .stalled s' := by
  have hq : (s.receive ⟨0xA1, 0x01, v, i, n⟩).request = some (s.receive ⟨0xA1, 0x01, v, i, n⟩, true) := by
    rw [request_class (show (0xA1 : Byte) &&& 0x60 = 0x20 by decide)]; rfl
  rw [read, State.onSetup, hq, Option.map_some]
  simp only [State.answer, if_true, statusIn, readData]
  split <;> exact ⟨_, rfl⟩

end Verif.Control
