import Verif.Split
import Verif.Lemmas.Output

/-!
# C41, C42, C43: the split keyboard protocol
-/

namespace Verif.Split

/-- The messages a split half can send: key events of the first 128 keys. -/
def Sendable : InputEvent → Prop
  | .press i => i < 128
  | .release i => i < 128
  | _ => False

/-- The events of `input::Event` as they exist in the program: the index is a `u16`. -/
def IsEvent : InputEvent → Prop
  | .press i => i < 65536
  | .release i => i < 65536
  | _ => True

/-- The four bytes of a message. -/
def wire : InputEvent → List Byte
  | .press i => if i = 0 then [1, 1, 1, 0] else [1, 2, BitVec.ofNat 8 i, 0]
  | .release i => if i = 0 then [2, 1, 1, 0] else [3, 1, BitVec.ofNat 8 i, 0]
  | _ => []

/-- The bytes before the first zero decide. -/
theorem cobsDecode_zero (xs ys : List Byte) : cobsDecode (xs ++ 0 :: ys) = cobsDecode xs := by
  have h : (xs ++ 0 :: ys).takeWhile (· ≠ 0) = xs.takeWhile (· ≠ 0) := by
    induction xs with
    | nil => simp
    | cons x xs ih =>
      simp only [List.cons_append, List.takeWhile_cons, ih]
  unfold cobsDecode
  rw [h]

theorem sendable_cases {P : InputEvent → Prop} (hp : ∀ i : Fin 128, P (.press i)) (hr : ∀ i : Fin 128, P (.release i)) :
    ∀ e, Sendable e → P e := by
  intro e he
  cases e with
  | press i => exact hp ⟨i, he⟩
  | release i => exact hr ⟨i, he⟩
  | vpress ko => exact he.elim
  | vrelease ko => exact he.elim

/-- C41: a key event of the first 128 keys is sent as four bytes, and these bytes are read back as the
event. -/
theorem C41_roundtrip : ∀ e, Sendable e →
    serialize e = .ok (wire e) ∧ (wire e).length = 4 ∧ deserialize (wire e) = some e :=
  sendable_cases (by decide +kernel) (by decide +kernel)

theorem ofNat_toNat {n : Nat} (h : n < 256) : (BitVec.ofNat 8 n).toNat = n := by
  rw [BitVec.toNat_ofNat, Nat.mod_eq_of_lt h]

/-- C41, the wire format of an index: its seven-bit digits, the lowest first, the top bit marking that
more follow; every 16-bit number is read back, and what follows is left alone. -/
theorem C41_u16 (n : Nat) (hn : n < 65536) (rest : List Byte) :
    takeU16 (varint 3 n ++ rest) = some (n, rest) := by
  have h2 : n / 128 / 128 < 4 := by omega
  unfold takeU16
  by_cases h0 : n < 128
  · simp only [varint, if_pos h0, List.cons_append, List.nil_append, takeVarint, ofNat_toNat (Nat.lt_trans h0 (by decide : 128 < 256))]
    simp
  · have e0 : (BitVec.ofNat 8 (n % 128 + 128)).toNat = n % 128 + 128 := ofNat_toNat (by omega)
    simp only [varint, if_neg h0, List.cons_append, takeVarint, e0, if_neg (show ¬ n % 128 + 128 < 128 by omega)]
    by_cases h1 : n / 128 < 128
    · simp only [if_pos h1, List.cons_append, List.nil_append, takeVarint, ofNat_toNat (Nat.lt_trans h1 (by decide : 128 < 256))]
      simp
      omega
    · have e1 : (BitVec.ofNat 8 (n / 128 % 128 + 128)).toNat = n / 128 % 128 + 128 := ofNat_toNat (by omega)
      simp only [if_neg h1, if_pos (show n / 128 / 128 < 128 by omega), List.cons_append, List.nil_append, takeVarint, e1,
        if_neg (show ¬ n / 128 % 128 + 128 < 128 by omega), ofNat_toNat (show n / 128 / 128 < 256 by omega)]
      have : ¬ 3 < n / 128 / 128 := by omega
      simp [h2, this, show n / 128 / 128 < 128 by omega]
      omega

/-- The fields of a mouse output are `i8`. -/
def IsI8 (x : Int) : Prop := -128 ≤ x ∧ x < 128

/-- The outputs as they exist in the program. -/
def IsOutput (ko : KeyOutput) : Prop :=
  match ko.usage with
  | .mouse mo => IsI8 mo.x ∧ IsI8 mo.y ∧ IsI8 mo.vscroll ∧ IsI8 mo.hscroll
  | _ => True

theorem i8Byte_toInt {x : Int} (h : IsI8 x) : (i8Byte x).toInt = x := by
  obtain ⟨h1, h2⟩ := h
  unfold i8Byte
  rw [BitVec.toInt_ofInt]
  exact Int.bmod_eq_of_le (by omega) (by omega)

theorem takeVariant_small (d : Fin 4) (rest : List Byte) :
    takeVariant (BitVec.ofNat 8 d.val :: rest) = some (d.val, rest) := by
  match d with
  | 0 => rfl
  | 1 => rfl
  | 2 => rfl
  | 3 => rfl

theorem decodeOutput_encode (ko : KeyOutput) (hk : IsOutput ko) (rest : List Byte) :
    decodeOutput (encodeOutput ko ++ rest) = some (ko, rest) := by
  obtain ⟨u, m⟩ := ko
  cases u with
  | keyboard kc => rfl
  | consumer uc => rfl
  | custom cc => rfl
  | mouse mo =>
    obtain ⟨b, x, y, v, h⟩ := mo
    obtain ⟨h1, h2, h3, h4⟩ := hk
    show some ((⟨.mouse ⟨b, (i8Byte x).toInt, (i8Byte y).toInt, (i8Byte v).toInt, (i8Byte h).toInt⟩, m⟩ : KeyOutput), rest) = _
    rw [i8Byte_toInt h1, i8Byte_toInt h2, i8Byte_toInt h3, i8Byte_toInt h4]

/-- C41, the message inside the frame: every event, also one that does not fit the frame of four bytes, is
read back from its bytes, whatever follows them. -/
theorem C41_codec (e : InputEvent) (he : IsEvent e)
    (hk : ∀ ko, e = .vpress ko ∨ e = .vrelease ko → IsOutput ko) (rest : List Byte) :
    decodeEvent (encodeEvent e ++ rest) = some e := by
  cases e with
  | press i =>
    show ((takeU16 (varint 3 i ++ rest)).map fun p => InputEvent.press p.1) = _
    rw [C41_u16 i he rest]; rfl
  | release i =>
    show ((takeU16 (varint 3 i ++ rest)).map fun p => InputEvent.release p.1) = _
    rw [C41_u16 i he rest]; rfl
  | vpress ko =>
    show ((decodeOutput (encodeOutput ko ++ rest)).map fun p => InputEvent.vpress p.1) = _
    rw [decodeOutput_encode ko (hk ko (Or.inl rfl)) rest]; rfl
  | vrelease ko =>
    show ((decodeOutput (encodeOutput ko ++ rest)).map fun p => InputEvent.vrelease p.1) = _
    rw [decodeOutput_encode ko (hk ko (Or.inr rfl)) rest]; rfl

/-- The bytes of an index of three digits, and of a mouse output moving left. -/
example : encodeEvent (.press 65535) = [0, 0xFF, 0xFF, 3] ∧ encodeEvent (.release 300) = [1, 0xAC, 2] ∧
    encodeEvent (.vpress ⟨.mouse ⟨1, -5, 0, 0, 0⟩, 2⟩) = [2, 3, 1, 0xFB, 0, 0, 0, 2] := by decide

theorem pushByte_length {out out' : List Byte} {b : Byte} (h : pushByte out b = some out') : out'.length = out.length + 1 ∧ out.length < 4 := by
  unfold pushByte at h
  split at h
  · rename_i hl
    cases h
    exact ⟨by simp, hl⟩
  · cases h

theorem push_length {s s' : Cobs} {b : Byte} (h : s.push b = some s') : s'.out.length = s.out.length + 1 := by
  unfold Cobs.push at h
  split at h
  · obtain ⟨o, h1, h2⟩ := Option.bind_eq_some_iff.1 h
    cases h2
    simpa using (pushByte_length h1).1
  · obtain ⟨o, h1, h2⟩ := Option.bind_eq_some_iff.1 h
    cases h2
    exact (pushByte_length h1).1

theorem pushAll_length {s s' : Cobs} {bs : List Byte} (h : s.pushAll bs = some s') : s'.out.length = s.out.length + bs.length := by
  induction bs generalizing s with
  | nil => cases h; rfl
  | cons b bs ih =>
    simp only [Cobs.pushAll, Option.bind_eq_some_iff] at h
    obtain ⟨s1, h1, h2⟩ := h
    rw [ih h2, push_length h1, List.length_cons]
    omega

theorem toSliceCobs_length {p bs : List Byte} (h : toSliceCobs p = some bs) : bs.length = p.length + 2 ∧ p.length ≤ 2 := by
  unfold toSliceCobs at h
  obtain ⟨o, h1, h2⟩ := Option.bind_eq_some_iff.1 h
  obtain ⟨s, h3, h4⟩ := Option.bind_eq_some_iff.1 h2
  have e1 := (pushByte_length h1).1
  have e2 := pushAll_length h3
  have e3 := pushByte_length h4
  simp only [List.length_nil, List.length_set] at e1 e2 e3
  omega

/-- C41: other events cannot be sent: `serialize` panics. -/
theorem C41_others (e : InputEvent) (he : IsEvent e) (hs : ¬ Sendable e) : serialize e = .panic .unwrap := by
  have hlen : 2 < (encodeEvent e).length := by
    have hv : ∀ i : Nat, ¬ i < 128 → 2 < (0 :: varint 3 i : List Byte).length := by
      intro i hi
      simp only [varint, if_neg hi]
      split <;> simp
    cases e with
    | press i => exact hv i hs
    | release i => exact hv i hs
    | vpress ko => simp only [encodeEvent, encodeOutput]; cases ko.usage <;> simp [encodeUsage]
    | vrelease ko => simp only [encodeEvent, encodeOutput]; cases ko.usage <;> simp [encodeUsage]
  unfold serialize
  cases h : toSliceCobs (encodeEvent e) with
  | none => rfl
  | some bs =>
    have := (toSliceCobs_length h).2
    omega

/-- A message is four bytes, with the zero at its end only. -/
theorem wire_shape : ∀ e, Sendable e → ∃ a b c : Byte, wire e = [a, b, c, 0] ∧
    deserialize [a, b, c, 0] = some e ∧ cobsDecode [b, c] >>= decodeEvent = none ∧ cobsDecode [c] >>= decodeEvent = none := by
  intro e he
  have key : ∀ e, Sendable e → wire e = [(wire e).getD 0 0, (wire e).getD 1 0, (wire e).getD 2 0, 0] ∧
      deserialize [(wire e).getD 0 0, (wire e).getD 1 0, (wire e).getD 2 0, 0] = some e ∧
      cobsDecode [(wire e).getD 1 0, (wire e).getD 2 0] >>= decodeEvent = none ∧
      cobsDecode [(wire e).getD 2 0] >>= decodeEvent = none :=
    sendable_cases (by decide +kernel) (by decide +kernel)
  exact ⟨_, _, _, key e he⟩

theorem receiveByte_eq (w x y z b : Byte) : receiveByte [w, x, y, z] b = ([x, y, z, b], deserialize [x, y, z, b]) := by
  rfl

theorem deserialize_four (w x y z : Byte) : deserialize [w, x, y, z] = (cobsDecode [w, x, y, z]).bind decodeEvent := rfl

/-- The messages found while the bytes of a message arrive after a buffer that ends with a zero and in which
no message is found. -/
theorem receive_next (a b c : Byte) (h2 : cobsDecode [b, c] >>= decodeEvent = none) (h1 : cobsDecode [c] >>= decodeEvent = none)
    (x y z : Byte) (bs : List Byte) :
    receive [a, b, c, 0] (x :: y :: z :: 0 :: bs) = none :: none :: none :: deserialize [x, y, z, 0] :: receive [x, y, z, 0] bs := by
  simp only [receive, receiveByte_eq]
  have e1 : deserialize [b, c, 0, x] = none := by
    rw [deserialize_four, show [b, c, 0, x] = [b, c] ++ 0 :: [x] from rfl, cobsDecode_zero]; exact h2
  have e2 : deserialize [c, 0, x, y] = none := by
    rw [deserialize_four, show [c, 0, x, y] = [c] ++ 0 :: [x, y] from rfl, cobsDecode_zero]; exact h1
  have e3 : deserialize [0, x, y, z] = none := by
    rw [deserialize_four, show [0, x, y, z] = [] ++ 0 :: [x, y, z] from rfl, cobsDecode_zero]; rfl
  rw [e1, e2, e3]

/-- The messages found in a stream that follows a complete message. -/
theorem receive_stream (a b c : Byte) (h2 : cobsDecode [b, c] >>= decodeEvent = none) (h1 : cobsDecode [c] >>= decodeEvent = none)
    (es : List InputEvent) (hs : ∀ e ∈ es, Sendable e) :
    receive [a, b, c, 0] (es.flatMap wire) = es.flatMap fun e => [none, none, none, some e] := by
  induction es generalizing a b c with
  | nil => rfl
  | cons e es ih =>
    obtain ⟨x, y, z, hw, hd, hd2, hd1⟩ := wire_shape e (hs e (by simp))
    simp only [List.flatMap_cons, hw, List.cons_append, List.nil_append]
    rw [receive_next a b c h2 h1, hd, ih x y z hd2 hd1 (fun e he => hs e (by simp [he]))]

/-- C42: whatever the receive buffer holds (power-up garbage, the rest of a broken message), a stream of
messages is received exactly, each message at its last byte, except that the first three bytes may complete
a message with the old contents of the buffer. -/
theorem C42_stream (buf : List Byte) (hb : buf.length = 4) (e : InputEvent) (es : List InputEvent) (hs : ∀ x ∈ e :: es, Sendable x) :
    ∃ a b c, receive buf ((e :: es).flatMap wire) = [a, b, c, some e] ++ es.flatMap fun e => [none, none, none, some e] := by
  match buf, hb with
  | [p, q, r, s], _ =>
    obtain ⟨x, y, z, hw, hd, hd2, hd1⟩ := wire_shape e (hs e (by simp))
    simp only [List.flatMap_cons, hw, List.cons_append, List.nil_append, receive, receiveByte_eq, hd]
    rw [receive_stream x y z hd2 hd1 es (fun e he => hs e (by simp [he]))]
    exact ⟨_, _, _, rfl⟩

/-- C42: from the zeroed buffer, or after a complete message, exactly the messages of the stream are
received. -/
theorem C42_exact (buf : List Byte) (hb : buf = [0, 0, 0, 0] ∨ ∃ e, Sendable e ∧ buf = wire e) (es : List InputEvent)
    (hs : ∀ x ∈ es, Sendable x) :
    receive buf (es.flatMap wire) = es.flatMap fun e => [none, none, none, some e] := by
  rcases hb with rfl | ⟨e, he, rfl⟩
  · exact receive_stream 0 0 0 rfl rfl es hs
  · obtain ⟨x, y, z, hw, hd, hd2, hd1⟩ := wire_shape e he
    rw [hw]
    exact receive_stream x y z hd2 hd1 es hs

/-- Garbage in the buffer can indeed be read as a message: the first byte of a message completes it. -/
theorem C42_garbage : receive [0, 1, 2, 5] (wire (.press 4)) = [some (.press 5), none, none, some (.press 4)] := by decide +kernel

/-! ## C43 -/

theorem cobsLoop_length {n : Nat} {src bs : List Byte} (hz : ∀ b ∈ src, b ≠ 0) (h : cobsLoop n src = some bs) : bs.length ≤ src.length - 1 := by
  induction n generalizing src bs with
  | zero =>
    cases src with
    | nil => cases h; simp
    | cons c cs => cases h
  | succ n ih =>
    cases src with
    | nil => cases h; simp
    | cons c cs =>
      simp only [cobsLoop] at h
      split at h
      · cases h
      · rename_i hc
        obtain ⟨t, h1, h2⟩ := Option.bind_eq_some_iff.1 h
        have hl := ih (fun b hb => hz b (by simp [List.mem_of_mem_drop hb])) h1
        cases h2
        simp only [List.length_append, List.length_take, List.length_drop, List.length_cons] at hl ⊢
        have hif : (if c ≠ 0xFF ∧ cs.drop (c.toNat - 1) ≠ [] then [(0 : Byte)] else []).length ≤ if cs.length - (c.toNat - 1) = 0 then 0 else 1 := by
          split
          · rename_i hh
            have : ¬ cs.length - (c.toNat - 1) = 0 := by
              intro h0
              exact hh.2 (List.drop_eq_nil_of_le (by omega))
            rw [if_neg this]; simp
          · simp
        generalize (if c ≠ 0xFF ∧ cs.drop (c.toNat - 1) ≠ [] then [(0 : Byte)] else []).length = k at hif ⊢
        by_cases h0 : cs.length - (c.toNat - 1) = 0
        · rw [if_pos h0] at hif; omega
        · rw [if_neg h0] at hif; omega

theorem cobsDecode_length {bs p : List Byte} (h : cobsDecode bs = some p) : p.length ≤ bs.length - 1 := by
  have hz : ∀ b ∈ bs.takeWhile (· ≠ 0), b ≠ 0 := by
    intro b hb
    have := List.all_takeWhile (l := bs) (p := fun b => decide (b ≠ 0))
    have := List.all_eq_true.1 this b hb
    simpa using this
  have h1 := cobsLoop_length hz h
  have h2 : (bs.takeWhile (· ≠ 0)).length ≤ bs.length := (List.takeWhile_sublist _).length_le
  omega

theorem takeVarint_length {max last v : Nat} {bs rest : List Byte} (h : takeVarint max last bs = some (v, rest)) : rest.length < bs.length := by
  induction max generalizing bs v with
  | zero => cases h
  | succ m ih =>
    cases bs with
    | nil => cases h
    | cons b bs =>
      simp only [takeVarint] at h
      split at h
      · split at h
        · cases h
        · cases h; simp
      · obtain ⟨⟨v', r⟩, h1, h2⟩ := Option.bind_eq_some_iff.1 h
        cases h2
        have := ih h1
        simp only [List.length_cons] at this ⊢; omega

theorem decodeOutput_length {bs rest : List Byte} {ko : KeyOutput} (h : decodeOutput bs = some (ko, rest)) : 3 ≤ bs.length := by
  unfold decodeOutput at h
  obtain ⟨⟨u, bs1⟩, h1, h2⟩ := Option.bind_eq_some_iff.1 h
  simp only at h2
  have hl : 1 ≤ bs1.length := by
    split at h2
    · simp
    · cases h2
  unfold decodeUsage at h1
  obtain ⟨⟨d, bs2⟩, h3, h4⟩ := Option.bind_eq_some_iff.1 h1
  have := takeVarint_length h3
  simp only at h4
  split at h4
  all_goals first | (cases h4; simp only [List.length_cons] at this; omega) | cases h4

/-- The physical key events. -/
def Physical : InputEvent → Prop
  | .press _ => True
  | .release _ => True
  | _ => False

theorem deserialize_physical {bs : List Byte} {e : InputEvent} (h : deserialize bs = some e) : Physical e := by
  unfold deserialize at h
  obtain ⟨p, h1, h2⟩ := Option.bind_eq_some_iff.1 h
  have hlen := cobsDecode_length h1
  simp only [bufferSize, List.length_take] at hlen
  unfold decodeEvent at h2
  obtain ⟨⟨d, bs1⟩, h3, h4⟩ := Option.bind_eq_some_iff.1 h2
  have hd := takeVarint_length h3
  simp only at h4
  split at h4
  · obtain ⟨x, hx, rfl⟩ := Option.map_eq_some_iff.1 h4; trivial
  · obtain ⟨x, hx, rfl⟩ := Option.map_eq_some_iff.1 h4; trivial
  · obtain ⟨x, hx, rfl⟩ := Option.map_eq_some_iff.1 h4
    have := decodeOutput_length (ko := x.1) (rest := x.2) hx
    omega
  · obtain ⟨x, hx, rfl⟩ := Option.map_eq_some_iff.1 h4
    have := decodeOutput_length (ko := x.1) (rest := x.2) hx
    omega
  · cases h4

/-- C43: no bytes, whatever they are and whatever the buffer holds, are read as a virtual key event. -/
theorem C43_physical (buf bytes : List Byte) (e : InputEvent) (h : some e ∈ receive buf bytes) : Physical e := by
  induction bytes generalizing buf with
  | nil => simp [receive] at h
  | cons b bs ih =>
    simp only [receive, List.mem_cons] at h
    rcases h with h | h
    · exact deserialize_physical h.symm
    · exact ih _ h

/-- The C event of a physical key event. -/
def cEvent : InputEvent → CApi.CEvent
  | .press i => ⟨.press, i⟩
  | .release i => ⟨.release, i⟩
  | _ => ⟨.virtualPress, 0⟩

/-- C43: so the firmware can give any bytes to the C interface: it does not panic, and passes on exactly
the received messages, in order. -/
theorem C43_no_panic (buf bytes : List Byte) : ∃ buf', receiveBytes buf bytes = .ok (buf', ((receive buf bytes).filterMap id).map cEvent) := by
  induction bytes generalizing buf with
  | nil => exact ⟨buf, rfl⟩
  | cons b bs ih =>
    obtain ⟨buf', hb⟩ := ih (receiveByte buf b).1
    cases h : (receiveByte buf b).2 with
    | none =>
      refine ⟨buf', ?_⟩
      have hm : messageBufferReceiveByte buf b = .ok ((receiveByte buf b).1, none) := by
        unfold messageBufferReceiveByte
        rw [show receiveByte buf b = ((receiveByte buf b).1, (receiveByte buf b).2) from rfl, h]
      simp only [receiveBytes, hm, Res.ok_bind, hb, receive, h]
      rfl
    | some e =>
      have hp : Physical e := deserialize_physical h
      have ho : CApi.CEvent.ofInput e = .ok (cEvent e) := by
        cases e with
        | press i => rfl
        | release i => rfl
        | vpress ko => exact hp.elim
        | vrelease ko => exact hp.elim
      refine ⟨buf', ?_⟩
      have hm : messageBufferReceiveByte buf b = .ok ((receiveByte buf b).1, some (cEvent e)) := by
        unfold messageBufferReceiveByte
        rw [show receiveByte buf b = ((receiveByte buf b).1, (receiveByte buf b).2) from rfl, h]
        simp only [ho, Res.ok_bind]
      simp only [receiveBytes, hm, Res.ok_bind, hb, receive, h]
      rfl

/-- The whole link: what one half serializes with the C interface, the other half passes to the keymap. -/
theorem C42_link (es : List InputEvent) (hs : ∀ e ∈ es, Sendable e) :
    ∃ buf, receiveBytes [0, 0, 0, 0] (es.flatMap wire) = .ok (buf, es.map cEvent) ∧
      ∀ e ∈ es, serializeEvent (cEvent e) = .ok (wire e) := by
  obtain ⟨buf, h⟩ := C43_no_panic [0, 0, 0, 0] (es.flatMap wire)
  refine ⟨buf, ?_, ?_⟩
  · rw [h, C42_exact _ (.inl rfl) es hs]
    congr 3
    clear h hs
    induction es with
    | nil => rfl
    | cons e es ih => simp [ih]
  · intro e he
    have h1 := (C41_roundtrip e (hs e he)).1
    have h2 := hs e he
    cases e with
    | press i => exact h1
    | release i => exact h1
    | vpress ko => exact h2.elim
    | vrelease ko => exact h2.elim

/-! The bytes of the tests of src/split.rs. -/

example : serialize (.press 4) = .ok [1, 2, 4, 0] := by decide +kernel
example : serialize (.release 4) = .ok [3, 1, 4, 0] := by decide +kernel
example : receive [0, 0, 0, 0] (wire (.press 4) ++ wire (.release 5)) =
    [none, none, none, some (.press 4), none, none, none, some (.release 5)] := by decide +kernel
example : Sendable (.release 127) := by simp [Sendable]
example : IsEvent (.press 128) ∧ ¬ Sendable (.press 128) := by simp [IsEvent, Sendable]

end Verif.Split
