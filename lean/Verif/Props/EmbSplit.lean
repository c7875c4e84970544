import Verif.Spec.EmbSplit
import Verif.Props.RticSplit
import Verif.Props.Embassy

/-!
# C92: the halves of a split keyboard with embassy
-/

namespace Verif.EmbSplit

open Verif.Rtic
open Verif.RticSplit (Msg advance Merge eventsOf_append Closed Apart merge_held moves_sendable follows_advance stable_of_last)
open Verif.Board (Queued Entry Cell)
open Verif.Keyboard (Follows start follows_new qinv simq_rep report_same Taken heldOk_foldl heldOk_start Within)
open Verif.Split (wire Sendable)

/-! ## The right half -/

section

variable {indices : List (List (Option Nat))}

theorem keyEvent_sendable (h128 : ∀ r c i, KeyAt indices r c i → i < 128) {e : Backend.Event} {ie : InputEvent} (h : keyEvent indices e = some ie) : Sendable ie := by
  cases e with
  | press r c =>
    obtain ⟨i, hi, rfl⟩ := Option.map_eq_some_iff.1 h
    exact h128 r c i (by simpa [KeyAt, Option.join_eq_some_iff] using hi)
  | release r c =>
    obtain ⟨i, hi, rfl⟩ := Option.map_eq_some_iff.1 h
    exact h128 r c i (by simpa [KeyAt, Option.join_eq_some_iff] using hi)

theorem transmit_ok (h128 : ∀ r c i, KeyAt indices r c i → i < 128) : ∀ {es : List Backend.Event} {bytes : List Byte}, transmit indices es = .ok bytes →
    bytes = (es.filterMap (keyEvent indices)).flatMap wire
  | [], bytes, h => by cases h; rfl
  | e :: es, bytes, h => by
    obtain ⟨o, h1, h⟩ := Res.bind_eq_ok.1 h
    have hk := keyEvent_of h1
    rw [List.filterMap_cons, hk]
    cases o with
    | none => exact transmit_ok h128 h
    | some ie =>
      obtain ⟨bs, h2, h⟩ := Res.bind_eq_ok.1 h
      obtain ⟨rest, h3, h⟩ := Res.bind_eq_ok.1 h
      cases h
      rw [(Split.C41_roundtrip ie (keyEvent_sendable h128 hk)).1] at h2
      cases h2
      rw [transmit_ok h128 h3]; rfl

/-- C92. The right half sends exactly the key events of its switches, in their order. -/
theorem C92_right {rows cols : Nat} (h128 : ∀ r c i, KeyAt indices r c i → i < 128) {raws : List Levels} {s : Right} (h : (Right.new rows cols).run indices raws = .ok s) :
    s.scanned = raws ∧ s.tx = (moves rows cols indices raws).flatMap wire := by
  suffices H : ∀ (raws : List Levels) (s s' : Right), s.deb = debounced rows cols s.scanned → s.tx = (moves rows cols indices s.scanned).flatMap wire →
      s.run indices raws = .ok s' → s'.scanned = s.scanned ++ raws ∧ s'.tx = (moves rows cols indices s'.scanned).flatMap wire by
    obtain ⟨h1, h2⟩ := H raws (Right.new rows cols) s rfl rfl h
    simp only [Right.new, List.nil_append] at h1
    exact ⟨h1, by rw [← h1]; exact h2⟩
  intro raws
  induction raws with
  | nil => intro s s' _ ht h; cases h; exact ⟨by simp, ht⟩
  | cons raw raws ih =>
    intro s s' hd ht h
    obtain ⟨s1, g1, g2⟩ := Res.bind_eq_ok.1 h
    obtain ⟨⟨deb, es⟩, h1, g1⟩ := Res.bind_eq_ok.1 g1
    obtain ⟨bytes, h2, g1⟩ := Res.bind_eq_ok.1 g1
    cases g1
    have he := keyboardEvents_ok h1
    rw [hd] at he
    obtain ⟨k1, k2⟩ := ih _ s' (by simp only; rw [debounced_snoc, he]) (by
      simp only
      rw [moves_snoc, he, List.flatMap_append, ht, transmit_ok h128 h2]) g2
    exact ⟨by rw [k1]; simp, k2⟩

theorem transmit_runs (h128 : ∀ r c i, KeyAt indices r c i → i < 128) : ∀ {es : List Backend.Event}, (∀ e ∈ es, InMatrix indices e) → ∃ bytes, transmit indices es = .ok bytes
  | [], _ => ⟨[], rfl⟩
  | e :: es, h => by
    obtain ⟨rest, hr⟩ := transmit_runs h128 (es := es) fun x hx => h x (List.mem_cons_of_mem _ hx)
    have h1 := keymapIndexOf_ok (h e (List.mem_cons_self ..))
    cases hk : keyEvent indices e with
    | none => exact ⟨rest, by rw [hk] at h1; exact Res.bind_eq_ok.2 ⟨_, h1, hr⟩⟩
    | some ie =>
      rw [hk] at h1
      exact ⟨_, Res.bind_eq_ok.2 ⟨_, h1, Res.bind_eq_ok.2 ⟨_, (Split.C41_roundtrip ie (keyEvent_sendable h128 hk)).1, Res.bind_eq_ok.2 ⟨rest, hr, rfl⟩⟩⟩⟩

/-- C92. The right half does not stop, as long as no more than eight switches change in a scan. -/
theorem C92_right_runs {rows cols count : Nat} (hl : Laid rows cols count indices) (h128 : count ≤ 128) {raws : List Levels} (hs : ∀ m ∈ raws, Size rows cols m)
    (hfew : ∀ before raw after, raws = before ++ raw :: after → ((debounced rows cols before).events raw).2.length ≤ 8) :
    ∃ s, (Right.new rows cols).run indices raws = .ok s := by
  suffices H : ∀ (raws : List Levels) (s : Right), s.deb = debounced rows cols s.scanned → (∀ m ∈ s.scanned ++ raws, Size rows cols m) →
      (∀ before raw after, s.scanned ++ raws = before ++ raw :: after → ((debounced rows cols before).events raw).2.length ≤ 8) → ∃ s', s.run indices raws = .ok s' from
    H raws (Right.new rows cols) rfl hs hfew
  intro raws
  induction raws with
  | nil => exact fun s _ _ _ => ⟨s, rfl⟩
  | cons raw raws ih =>
    intro s hd hs hf
    have h8 := hf s.scanned raw raws rfl
    have hin := events_inMatrix hl (raws := s.scanned) (raw := raw) (fun m hm => hs m (by simp [hm])) (hs raw (by simp))
    obtain ⟨bytes, ht⟩ := transmit_runs (fun r c i hi => Nat.lt_of_lt_of_le (hl.within r c i hi) h128) hin
    rw [← hd] at h8 ht
    have hke : keyboardEvents s.deb raw = .ok (s.deb.events raw) := if_pos h8
    obtain ⟨s', hr⟩ := ih ⟨(s.deb.events raw).1, s.scanned ++ [raw], s.tx ++ bytes⟩ (by
      show (s.deb.events raw).1 = debounced rows cols (s.scanned ++ [raw])
      rw [debounced_snoc, hd]) (fun m hm => hs m (by simpa using hm)) (fun b r a e => hf b r a (by simpa using e))
    exact ⟨s', Res.bind_eq_ok.2 ⟨_, Res.bind_eq_ok.2 ⟨_, hke, Res.bind_eq_ok.2 ⟨bytes, ht, rfl⟩⟩, hr⟩⟩

end

/-! ## Events -/

section

variable {R Ev Ctx PKS KS : Type} {C : Cfg R Ev Ctx PKS KS} {n : Nat} {indices : List (List (Option Nat))}

/-- What the keymap was given, and what it will be. -/
structure Told (rows cols : Nat) (indices : List (List (Option Nat))) (s : Left R Ev Ctx PKS KS) (mine theirs : List InputEvent) : Prop where
  deb : s.deb = debounced rows cols s.scanned
  own : moves rows cols indices s.scanned = mine ++ (s.todo.getD []).filterMap (keyEvent indices)
  got : s.got = theirs ++ s.event.toList
  merge : Merge mine theirs (s.heard ++ RticSplit.eventsOf s.queue)

theorem timer_ok {s s' : Left R Ev Ctx PKS KS} {raw : Levels} (h : s.timer raw = .ok s') :
    s' = { s with deb := (s.deb.events raw).1, todo := some (s.deb.events raw).2, scanned := s.scanned ++ [raw] } := by
  obtain ⟨⟨deb, es⟩, h1, h⟩ := Res.bind_eq_ok.1 h
  cases h
  rw [keyboardEvents_ok h1]

theorem advance_parts {s core : Core R Ev Ctx PKS KS} (h : advance C n s = .ok core) : core.deb = s.deb ∧ core.success = s.success := by
  unfold advance at h
  split at h
  · obtain ⟨⟨b', ch⟩, _, h⟩ := Res.bind_eq_ok.1 h
    cases h; exact ⟨rfl, rfl⟩
  · cases h; exact ⟨rfl, rfl⟩

/-- What is left of the loop after the reports. -/
theorem writes_parts {l l' : Loop R Ev Ctx PKS KS} {k m c : Bool} (h : ((l.writeKeyboard k).writeMouse m).writeConsumer c = .ok l') :
    l'.deb = l.deb ∧ l'.backend = l.backend ∧ l'.made = l.made ∧ l'.success = k ∧
      l'.keyboards = if k then l.keyboards ++ [l.backend.out.asBootReport] else l.keyboards := by
  obtain ⟨a1, a2, _⟩ := writeConsumer_parts h
  obtain ⟨b1, b2, _⟩ := writeMouse_parts (l.writeKeyboard k) m
  rw [b1] at a1
  rw [b2] at a2
  cases k with
  | true => rw [a1, a2]; exact ⟨rfl, rfl, rfl, rfl, rfl⟩
  | false => rw [a1, a2]; exact ⟨rfl, rfl, rfl, rfl, rfl⟩

theorem Told.step {rows cols : Nat} {s s' : Left R Ev Ctx PKS KS} {mine theirs : List InputEvent} {i : Input}
    (h : Told rows cols indices s mine theirs) (hr : s.step C n indices i = .ok s') : ∃ mine' theirs', Told rows cols indices s' mine' theirs' := by
  cases i with
  | timer raw =>
    refine ⟨mine, theirs, ?_⟩
    simp only [Left.step] at hr
    split at hr
    · next hc =>
      rw [timer_ok hr]
      have hm := h.own
      rw [hc] at hm
      simp only [Option.getD_none, List.filterMap_nil, List.append_nil] at hm
      exact ⟨by simp only; rw [debounced_snoc, h.deb], by simp only [Option.getD_some]; rw [moves_snoc, hm, h.deb], h.got, h.merge⟩
    · cases hr; exact h
  | go =>
    simp only [Left.step] at hr
    unfold Left.go at hr
    split at hr
    · cases hr; exact ⟨mine, theirs, h⟩
    · next ht =>
      split at hr
      · cases hr
        refine ⟨mine, theirs, h.deb, ?_, h.got, ?_⟩
        · have := h.own
          rw [ht] at this
          exact this
        · simp only [eventsOf_append]
          have := h.merge
          simpa [RticSplit.eventsOf] using this
      · cases hr; exact ⟨mine, theirs, h⟩
    · next e es ht =>
      obtain ⟨ie, h1, hr⟩ := Res.bind_eq_ok.1 hr
      have hm := h.own
      rw [ht] at hm
      simp only [Option.getD_some, List.filterMap_cons] at hm
      rw [keyEvent_of h1] at hm
      cases ie with
      | none =>
        cases hr
        exact ⟨mine, theirs, h.deb, hm, h.got, h.merge⟩
      | some ie =>
        simp only at hr
        split at hr
        · cases hr
          refine ⟨mine ++ [ie], theirs, h.deb, ?_, h.got, ?_⟩
          · simp only [Option.getD_some]; rw [hm, List.append_assoc]; rfl
          · simp only [eventsOf_append]
            rw [← List.append_assoc]
            exact h.merge.left
        · cases hr; exact ⟨mine, theirs, h⟩
  | byte b =>
    refine ⟨mine, theirs, ?_⟩
    cases hr
    unfold Left.rx
    split
    · exact h
    · next he =>
      split
      · exact ⟨h.deb, h.own, h.got, h.merge⟩
      · refine ⟨h.deb, h.own, ?_, h.merge⟩
        have := h.got
        rw [he] at this
        simp only; rw [this]; simp
  | fault => cases hr; exact ⟨mine, theirs, h.deb, h.own, h.got, h.merge⟩
  | deliver =>
    cases hr
    unfold Left.deliver
    split
    · exact ⟨mine, theirs, h⟩
    · next e he =>
      split
      · refine ⟨mine, theirs ++ [e], h.deb, h.own, ?_, ?_⟩
        · have := h.got
          rw [he] at this
          simpa using this
        · simp only [eventsOf_append]
          rw [← List.append_assoc]
          exact h.merge.right
      · exact ⟨mine, theirs, h⟩
  | handle a b c =>
    refine ⟨mine, theirs, ?_⟩
    simp only [Left.step] at hr
    unfold Left.handle at hr
    split at hr
    · cases hr; exact h
    · next e q hq =>
      obtain ⟨b', h1, hr⟩ := Res.bind_eq_ok.1 hr
      cases hr
      refine ⟨h.deb, h.own, h.got, ?_⟩
      have := h.merge
      rw [hq] at this
      simpa [RticSplit.eventsOf] using this
    · next q hq =>
      obtain ⟨core, h1, hr⟩ := Res.bind_eq_ok.1 hr
      obtain ⟨l, h2, hr⟩ := Res.bind_eq_ok.1 hr
      cases hr
      have hm := h.merge
      rw [hq] at hm
      exact ⟨(writes_parts h2).1.trans ((advance_parts h1).1.trans h.deb), h.own, h.got, by simpa [RticSplit.eventsOf] using hm⟩

theorem Told.run {rows cols : Nat} {is : List Input} : ∀ {s s' : Left R Ev Ctx PKS KS} {mine theirs : List InputEvent},
    Told rows cols indices s mine theirs → s.run C n indices is = .ok s' → ∃ mine' theirs', Told rows cols indices s' mine' theirs' := by
  induction is with
  | nil => intro s s' mine theirs h hr; cases hr; exact ⟨mine, theirs, h⟩
  | cons i is ih =>
    intro s s' mine theirs h hr
    obtain ⟨s1, g1, g2⟩ := Res.bind_eq_ok.1 hr
    obtain ⟨m1, t1, h1⟩ := h.step g1
    exact ih h1 g2

/-- C92. Whatever happens, the keymap is given the key events of the switches of the left half, in their order, and those that were read from the wire, in theirs, and no
others. -/
theorem C92_events {rows cols : Nat} {km : KM R Ev Ctx PKS KS} {is : List Input} {s : Left R Ev Ctx PKS KS} (hr : (Left.new rows cols km).run C n indices is = .ok s) :
    ∃ mine theirs, moves rows cols indices s.scanned = mine ++ (s.todo.getD []).filterMap (keyEvent indices) ∧ s.got = theirs ++ s.event.toList ∧
      Merge mine theirs (s.heard ++ RticSplit.eventsOf s.queue) := by
  obtain ⟨mine, theirs, h⟩ := Told.run (s := Left.new rows cols km) ⟨rfl, rfl, rfl, .nil⟩ hr
  exact ⟨mine, theirs, h.own, h.got, h.merge⟩

/-- C92. No more than eight messages wait for the keymap; and as long as there are fewer, neither a key event of the other half nor the end of a scan has to wait. -/
theorem C92_channel {rows cols : Nat} {km : KM R Ev Ctx PKS KS} {is : List Input} {s : Left R Ev Ctx PKS KS} (hr : (Left.new rows cols km).run C n indices is = .ok s) :
    s.queue.length ≤ 8 ∧ (s.queue.length < 8 →
      (∀ e, s.event = some e → s.step C n indices .deliver = .ok { s with queue := s.queue ++ [.event e], event := none }) ∧
      (s.todo = some [] → s.step C n indices .go = .ok { s with queue := s.queue ++ [.tick], todo := none })) := by
  constructor
  · suffices H : ∀ (is : List Input) (s s' : Left R Ev Ctx PKS KS), s.queue.length ≤ 8 → s.run C n indices is = .ok s' → s'.queue.length ≤ 8 from
      H is (Left.new rows cols km) s (Nat.zero_le _) hr
    intro is
    induction is with
    | nil => intro s s' h hr; cases hr; exact h
    | cons i is ih =>
      intro s s' h hr
      obtain ⟨s1, g1, g2⟩ := Res.bind_eq_ok.1 hr
      refine ih s1 s' ?_ g2
      cases i with
      | timer raw =>
        simp only [Left.step] at g1
        split at g1
        · obtain ⟨⟨d, es⟩, _, g1⟩ := Res.bind_eq_ok.1 g1
          cases g1; exact h
        · cases g1; exact h
      | go =>
        simp only [Left.step, Left.go] at g1
        split at g1
        · cases g1; exact h
        · split at g1
          · next hc => cases g1; simp only [capacity] at hc; simp; omega
          · cases g1; exact h
        · obtain ⟨x, _, g1⟩ := Res.bind_eq_ok.1 g1
          split at g1
          · split at g1
            · next hc => cases g1; simp only [capacity] at hc; simp; omega
            · cases g1; exact h
          · cases g1; exact h
      | byte b =>
        cases g1
        simp only [Left.rx]
        split
        · exact h
        · split <;> exact h
      | fault => cases g1; exact h
      | deliver =>
        cases g1
        simp only [Left.deliver]
        split
        · exact h
        · split
          · next hc => simp only [capacity] at hc; simp; omega
          · exact h
      | handle k m c =>
        simp only [Left.step, Left.handle] at g1
        split at g1
        · cases g1; exact h
        · next q hq =>
          obtain ⟨b, _, g1⟩ := Res.bind_eq_ok.1 g1
          cases g1
          rw [hq] at h; simp at h ⊢; omega
        · next q hq =>
          obtain ⟨core, _, g1⟩ := Res.bind_eq_ok.1 g1
          obtain ⟨l, _, g1⟩ := Res.bind_eq_ok.1 g1
          cases g1
          rw [hq] at h; simp at h ⊢; omega
  · intro hlt
    refine ⟨fun e he => ?_, fun ht => ?_⟩
    · simp only [Left.step, Left.deliver, he]
      rw [if_pos (show s.queue.length < capacity from hlt)]
    · simp only [Left.step, Left.go, ht]
      rw [if_pos (show s.queue.length < capacity from hlt)]

/-! ## What is read from the wire -/

theorem messages_append : ∀ {xs : List Byte} (ys : List Byte), xs.length % 4 = 0 → messages (xs ++ ys) = messages xs ++ messages ys
  | [], ys, _ => rfl
  | [_], _, h => absurd h (by simp)
  | [_, _], _, h => absurd h (by simp)
  | [_, _, _], _, h => absurd h (by simp)
  | a :: b :: c :: d :: xs, ys, h => by
    have : xs.length % 4 = 0 := by simp only [List.length_cons] at h; omega
    simp only [List.cons_append, messages, messages_append ys this, List.append_assoc]

theorem messages_wire : ∀ {es : List InputEvent}, (∀ e ∈ es, Sendable e) → messages (es.flatMap wire) = es
  | [], _ => rfl
  | e :: es, h => by
    obtain ⟨_, h2, h3⟩ := Split.C41_roundtrip e (h e (List.mem_cons_self ..))
    rw [List.flatMap_cons, messages_append _ (by rw [h2]), messages_wire fun x hx => h x (List.mem_cons_of_mem _ hx)]
    generalize wire e = w at *
    match w, h2 with
    | [a, b, c, d], _ => simp only [messages, h3]; rfl

/-- What was read, as long as no byte was lost. -/
structure Listens (g0 : List InputEvent) (s : Left R Ev Ctx PKS KS) (bytes whole : List Byte) : Prop where
  split : bytes = whole ++ s.buf
  fours : whole.length % 4 = 0
  short : s.buf.length < 4
  got : s.got = g0 ++ messages whole

theorem Listens.step {g0 : List InputEvent} {s s' : Left R Ev Ctx PKS KS} {bytes whole : List Byte} {i : Input} (h : Listens g0 s bytes whole) (ha : (∃ b, i = .byte b) → s.event = none) (hf : i ≠ .fault)
    (hr : s.step C n indices i = .ok s') : ∃ whole', Listens g0 s' (bytes ++ bytesOf [i]) whole' := by
  cases i with
  | timer raw =>
    refine ⟨whole, ?_⟩
    simp only [bytesOf, List.filterMap_cons, List.filterMap_nil, List.append_nil]
    simp only [Left.step] at hr
    split at hr
    · rw [timer_ok hr]; exact ⟨h.split, h.fours, h.short, h.got⟩
    · cases hr; exact h
  | go =>
    refine ⟨whole, ?_⟩
    simp only [bytesOf, List.filterMap_cons, List.filterMap_nil, List.append_nil]
    simp only [Left.step] at hr
    unfold Left.go at hr
    split at hr
    · cases hr; exact h
    · split at hr
      · cases hr; exact ⟨h.split, h.fours, h.short, h.got⟩
      · cases hr; exact h
    · obtain ⟨ie, h1, hr⟩ := Res.bind_eq_ok.1 hr
      cases ie with
      | none => cases hr; exact ⟨h.split, h.fours, h.short, h.got⟩
      | some ie =>
        simp only at hr
        split at hr
        · cases hr; exact ⟨h.split, h.fours, h.short, h.got⟩
        · cases hr; exact h
  | byte b =>
    have hb : bytesOf [Input.byte b] = [b] := rfl
    rw [hb]
    cases hr
    have hlen := h.short
    unfold Left.rx
    rw [ha ⟨b, rfl⟩]
    simp only
    split
    · next hlt =>
      refine ⟨whole, ?_, h.fours, ?_, h.got⟩
      · simp only; rw [h.split, List.append_assoc]
      · simp only [List.length_append, List.length_singleton]; exact hlt
    · next hge =>
      have h3 : s.buf.length = 3 := by simp only [Split.bufferSize] at hge; omega
      refine ⟨whole ++ (s.buf ++ [b]), ?_, ?_, ?_, ?_⟩
      · simp only; rw [h.split]; simp
      · have := h.fours
        simp only [List.length_append, List.length_singleton, h3]; omega
      · simp
      · simp only
        rw [messages_append _ h.fours, h.got]
        match hbuf : s.buf, h3 with
        | [x, y, z], _ => simp [messages]
  | fault => exact absurd rfl hf
  | deliver =>
    refine ⟨whole, ?_⟩
    simp only [bytesOf, List.filterMap_cons, List.filterMap_nil, List.append_nil]
    cases hr
    unfold Left.deliver
    split
    · exact h
    · split
      · exact ⟨h.split, h.fours, h.short, h.got⟩
      · exact h
  | handle a b c =>
    refine ⟨whole, ?_⟩
    simp only [bytesOf, List.filterMap_cons, List.filterMap_nil, List.append_nil]
    simp only [Left.step] at hr
    unfold Left.handle at hr
    split at hr
    · cases hr; exact h
    · obtain ⟨b', h1, hr⟩ := Res.bind_eq_ok.1 hr
      cases hr
      exact ⟨h.split, h.fours, h.short, h.got⟩
    · obtain ⟨core, h1, hr⟩ := Res.bind_eq_ok.1 hr
      obtain ⟨l, h2, hr⟩ := Res.bind_eq_ok.1 hr
      cases hr
      exact ⟨h.split, h.fours, h.short, h.got⟩

theorem bytesOf_cons (i : Input) (is : List Input) : bytesOf (i :: is) = bytesOf [i] ++ bytesOf is := by
  rw [bytesOf, bytesOf, bytesOf, ← List.filterMap_append]; rfl

theorem Listens.run {g0 : List InputEvent} {is : List Input} : ∀ {s s' : Left R Ev Ctx PKS KS} {bytes whole : List Byte}, Listens g0 s bytes whole → Attentive C n indices s is →
    s.run C n indices is = .ok s' → ∃ whole', Listens g0 s' (bytes ++ bytesOf is) whole' := by
  induction is with
  | nil => intro s s' bytes whole h _ hr; cases hr; exact ⟨whole, by simpa [bytesOf] using h⟩
  | cons i is ih =>
    intro s s' bytes whole h ha hr
    obtain ⟨s1, g1, g2⟩ := Res.bind_eq_ok.1 hr
    obtain ⟨w1, h1⟩ := h.step ha.1 ha.2.1 g1
    obtain ⟨w2, h2⟩ := ih h1 (ha.2.2 s1 g1) g2
    exact ⟨w2, by rw [bytesOf_cons, ← List.append_assoc]; exact h2⟩

/-- C92. As long as no byte is lost, what has been read of the bytes of some events are the first of these events; and all of them, if all bytes have arrived. -/
theorem C92_read {rows cols : Nat} {km : KM R Ev Ctx PKS KS} {is : List Input} {s : Left R Ev Ctx PKS KS} (hr : (Left.new rows cols km).run C n indices is = .ok s)
    (ha : Attentive C n indices (Left.new rows cols km) is) {es : List InputEvent} (hs : ∀ e ∈ es, Sendable e) (hb : bytesOf is <+: es.flatMap wire) :
    s.got <+: es ∧ (bytesOf is = es.flatMap wire → s.got = es) := by
  obtain ⟨whole, h⟩ := Listens.run (g0 := []) (s := Left.new rows cols km) (bytes := []) (whole := []) ⟨rfl, rfl, Nat.zero_lt_succ _, rfl⟩ ha hr
  rw [List.nil_append] at h
  have hsplit := h.split
  have hw := h.fours
  have hsh := h.short
  constructor
  · obtain ⟨rest, hb⟩ := hb
    rw [hsplit, List.append_assoc] at hb
    have := messages_wire hs
    rw [← hb, messages_append _ hw] at this
    rw [h.got, List.nil_append]
    exact ⟨_, this⟩
  · intro he
    have hlen : ∀ {es : List InputEvent}, (∀ e ∈ es, Sendable e) → (es.flatMap wire).length % 4 = 0 := by
      intro es
      induction es with
      | nil => intro _; rfl
      | cons e es ih =>
        intro hs
        have := ih fun x hx => hs x (List.mem_cons_of_mem _ hx)
        have := (Split.C41_roundtrip e (hs e (List.mem_cons_self ..))).2.1
        rw [List.flatMap_cons, List.length_append]; omega
    have h4 := hlen hs
    rw [← he, hsplit, List.length_append] at h4
    have hz : s.buf = [] := List.length_eq_zero_iff.1 (by omega)
    rw [hz, List.append_nil] at hsplit
    rw [h.got, List.nil_append, ← hsplit, he, messages_wire hs]

/-- C92. The two halves: as long as no byte is lost, the keymap has been given, or will be, the key events of the switches of the left half in their order and the first of
those of the right half in theirs, and no others; and all of them, when all that was sent has arrived and nothing is left to do. -/
theorem C92_halves {indices' : List (List (Option Nat))} {rows cols rows' cols' : Nat} (h128 : ∀ r c i, KeyAt indices' r c i → i < 128)
    {km : KM R Ev Ctx PKS KS} {is : List Input} {s : Left R Ev Ctx PKS KS} (hr : (Left.new rows cols km).run C n indices is = .ok s)
    (ha : Attentive C n indices (Left.new rows cols km) is) {raws : List Levels} {s' : Right} (hr' : (Right.new rows' cols').run indices' raws = .ok s')
    (hb : bytesOf is <+: s'.tx) :
    (∃ mine theirs, mine <+: moves rows cols indices s.scanned ∧ theirs <+: moves rows' cols' indices' raws ∧ Merge mine theirs (s.heard ++ RticSplit.eventsOf s.queue)) ∧
    (bytesOf is = s'.tx → s.todo = none → s.event = none → s.queue = [] → Merge (moves rows cols indices s.scanned) (moves rows' cols' indices' raws) s.heard) := by
  obtain ⟨mine, theirs, a1, a2, a3⟩ := C92_events hr
  obtain ⟨_, b2⟩ := C92_right h128 hr'
  rw [b2] at hb
  obtain ⟨c1, c2⟩ := C92_read hr ha (moves_sendable h128 raws) hb
  constructor
  · exact ⟨mine, theirs, ⟨_, a1.symm⟩, .trans ⟨_, a2.symm⟩ c1, a3⟩
  · intro he ht hev hq
    rw [b2] at he
    have c2 := c2 he
    rw [hev] at a2
    rw [ht] at a1
    rw [hq] at a3
    simp only [Option.getD_none, List.filterMap_nil, List.append_nil, Option.toList_none] at a1 a2
    rw [a1, ← c2, a2]
    simpa [RticSplit.eventsOf] using a3

end

/-! ## Lost bytes -/

theorem takeWhile_zero (xs ys : List Byte) : (xs ++ 0 :: ys).takeWhile (· ≠ 0) = (xs ++ [0]).takeWhile (· ≠ 0) := by
  induction xs with
  | nil => simp
  | cons x xs ih => simp only [List.cons_append, List.takeWhile_cons, ih]

set_option maxRecDepth 100000 in
theorem wire_drop : ∀ e, Sendable e → ∀ d ∈ [1, 2, 3], (wire e).length = 4 ∧ (wire e)[3]? = some 0 ∧ Split.deserialize ((wire e).drop d) = none :=
  Split.sendable_cases (by decide +kernel) (by decide +kernel)

theorem lost_wire {e : InputEvent} (h : Sendable e) {d : Nat} (hd : d ∈ [1, 2, 3]) (ys : List Byte) (hy : ys.length = d) :
    Split.deserialize ((wire e).drop d ++ ys) = none := by
  obtain ⟨h1, h2, h3⟩ := wire_drop e h d hd
  generalize wire e = w at *
  match w, h1, h2 with
  | [a, b, c, z], _, h2 =>
    simp only [List.getElem?_cons_succ, List.getElem?_cons_zero, Option.some.injEq] at h2
    subst h2
    have ht : ∀ xs : List Byte, xs.length + 1 + d = 4 → [a, b, c, 0].drop d = xs ++ [0] → Split.deserialize ([a, b, c, 0].drop d ++ ys) = none := by
      intro xs hx he
      rw [he] at h3 ⊢
      have e1 : (xs ++ [0] ++ ys).take Split.bufferSize = xs ++ 0 :: ys := by
        rw [List.take_of_length_le (by simp [Split.bufferSize, hy]; omega)]; simp
      have e2 : (xs ++ [0]).take Split.bufferSize = xs ++ [0] := List.take_of_length_le (by simp [Split.bufferSize]; omega)
      simp only [Split.deserialize, Split.cobsDecode, e1, e2, takeWhile_zero xs ys] at h3 ⊢
      exact h3
    simp only [List.mem_cons, List.not_mem_nil, or_false] at hd
    rcases hd with rfl | rfl | rfl
    · exact ht [b, c] rfl rfl
    · exact ht [c] rfl rfl
    · exact ht [] rfl rfl

theorem messages_lost {d : Nat} (hd : d ∈ [1, 2, 3]) : ∀ {es : List InputEvent} {e : InputEvent}, Sendable e → (∀ x ∈ es, Sendable x) →
    messages ((wire e).drop d ++ es.flatMap wire) = []
  | [], e, h, _ => by
    obtain ⟨h1, h2, h3⟩ := wire_drop e h d hd
    generalize wire e = w at *
    match w, h1 with
    | [a, b, c, z], _ =>
      simp only [List.mem_cons, List.not_mem_nil, or_false] at hd
      rcases hd with rfl | rfl | rfl <;> rfl
  | f :: es, e, h, hs => by
    have hf := hs f (List.mem_cons_self ..)
    have ih := messages_lost hd hf fun x hx => hs x (List.mem_cons_of_mem _ hx)
    have l1 := (wire_drop e h d hd).1
    have l2 := (wire_drop f hf d hd).1
    have hd' : d ≤ 3 := by
      simp only [List.mem_cons, List.not_mem_nil, or_false] at hd
      omega
    have hlost := lost_wire h hd ((wire f).take d) (by rw [List.length_take, l2]; omega)
    have hsplit : (wire e).drop d ++ (f :: es).flatMap wire = ((wire e).drop d ++ (wire f).take d) ++ ((wire f).drop d ++ es.flatMap wire) := by
      rw [List.flatMap_cons]
      conv => lhs; rw [← List.take_append_drop d (wire f)]
      simp only [List.append_assoc]
    have hl4 : ((wire e).drop d ++ (wire f).take d).length = 4 := by
      rw [List.length_append, List.length_drop, List.length_take, l1, l2]; omega
    rw [hsplit, messages_append _ (by rw [hl4]), ih]
    generalize (wire e).drop d ++ (wire f).take d = w at *
    match w, hl4 with
    | [a, b, c, z], _ => simp only [messages, hlost]; rfl

/-- C92. When the first bytes of a message were lost, one, two or three, nothing of the right half is read any more, for ever, as long as no other byte is lost: there is
nothing in the reader that finds the beginning of a message. -/
theorem C92_deaf {R Ev Ctx PKS KS : Type} {C : Cfg R Ev Ctx PKS KS} {n : Nat} {indices : List (List (Option Nat))} {s s' : Left R Ev Ctx PKS KS} {e : InputEvent}
    (he : Sendable e) {d : Nat} (hd : d ∈ [1, 2, 3]) (hbuf : s.buf = (wire e).drop d) {is : List Input} (ha : Attentive C n indices s is)
    {es : List InputEvent} (hs : ∀ x ∈ es, Sendable x) (hb : bytesOf is <+: es.flatMap wire) (hr : s.run C n indices is = .ok s') : s'.got = s.got := by
  have hlen : s.buf.length < 4 := by
    have := (wire_drop e he d hd).1
    rw [hbuf, List.length_drop, this]
    simp only [List.mem_cons, List.not_mem_nil, or_false] at hd
    omega
  obtain ⟨whole, h⟩ := Listens.run (g0 := s.got) (bytes := s.buf) (whole := []) ⟨rfl, rfl, hlen, by simp [messages]⟩ ha hr
  have hm := messages_lost hd he hs
  obtain ⟨rest, hb⟩ := hb
  have hsp := h.split
  rw [hbuf] at hsp
  rw [← hb, ← List.append_assoc, hsp, List.append_assoc, messages_append _ h.fours] at hm
  rw [h.got, (List.append_eq_nil_iff.1 hm).1, List.append_nil]

/-! ## The reports -/

abbrev CLeft := Left Comp.Ref Comp.Ev Comp.Ctx Comp.PKS Comp.KS

/-- The left half at power on. -/
abbrev fresh (rows cols : Nat) (c : Comp.Config) : CLeft := Left.new rows cols (KM.new (Comp.Ctx.fromConfig c))

section

variable {R Ev Ctx PKS KS : Type} {C : Cfg R Ev Ctx PKS KS} {n : Nat} {indices : List (List (Option Nat))}

/-- What a step does to the keymap and to the reports. -/
inductive Effect (C : Cfg R Ev Ctx PKS KS) (n : Nat) (s s' : Left R Ev Ctx PKS KS) : Input → Prop where
  | none {i : Input} (h1 : s'.backend = s.backend) (h2 : s'.success = s.success) (h3 : s'.made = s.made) (h4 : s'.keyboards = s.keyboards) (h5 : s'.heard = s.heard) :
      Effect C n s s' i
  | event {a b c : Bool} {e : InputEvent} {q : List Msg} (h0 : s.queue = .event e :: q) (h1 : s.backend.event C n e = .ok s'.backend)
      (h2 : s'.success = s.success) (h3 : s'.made = s.made) (h4 : s'.keyboards = s.keyboards) (h5 : s'.heard = s.heard ++ [e]) : Effect C n s s' (.handle a b c)
  | report {a b c : Bool} {core : Core R Ev Ctx PKS KS} {q : List Msg} (h0 : s.queue = .tick :: q) (h1 : advance C n s.toCore = .ok core)
      (h2 : s'.success = a) (h3 : s'.made = core.made) (h4 : s'.keyboards = if a then s.keyboards ++ [core.backend.out.asBootReport] else s.keyboards)
      (h5 : s'.heard = s.heard) (h6 : s'.backend = core.backend) : Effect C n s s' (.handle a b c)

theorem effect {s s' : Left R Ev Ctx PKS KS} {i : Input} (hr : s.step C n indices i = .ok s') : Effect C n s s' i := by
  cases i with
  | timer raw =>
    simp only [Left.step] at hr
    split at hr
    · rw [timer_ok hr]; exact .none rfl rfl rfl rfl rfl
    · cases hr; exact .none rfl rfl rfl rfl rfl
  | go =>
    simp only [Left.step] at hr
    unfold Left.go at hr
    split at hr
    · cases hr; exact .none rfl rfl rfl rfl rfl
    · split at hr <;> cases hr <;> exact .none rfl rfl rfl rfl rfl
    · obtain ⟨ie, h1, hr⟩ := Res.bind_eq_ok.1 hr
      cases ie with
      | none => cases hr; exact .none rfl rfl rfl rfl rfl
      | some ie =>
        simp only at hr
        split at hr <;> cases hr <;> exact .none rfl rfl rfl rfl rfl
  | byte b =>
    cases hr
    unfold Left.rx
    split
    · exact .none rfl rfl rfl rfl rfl
    · split <;> exact .none rfl rfl rfl rfl rfl
  | fault => cases hr; exact .none rfl rfl rfl rfl rfl
  | deliver =>
    cases hr
    unfold Left.deliver
    split
    · exact .none rfl rfl rfl rfl rfl
    · split <;> exact .none rfl rfl rfl rfl rfl
  | handle a b c =>
    simp only [Left.step] at hr
    unfold Left.handle at hr
    split at hr
    · cases hr; exact .none rfl rfl rfl rfl rfl
    · next e q hq =>
      obtain ⟨b', h1, hr⟩ := Res.bind_eq_ok.1 hr
      cases hr
      exact .event hq h1 rfl rfl rfl rfl
    · next q hq =>
      obtain ⟨core, h1, hr⟩ := Res.bind_eq_ok.1 hr
      obtain ⟨l, h2, hr⟩ := Res.bind_eq_ok.1 hr
      cases hr
      obtain ⟨_, w2, w3, w4, w5⟩ := writes_parts h2
      exact .report hq h1 w4 w3 w5 rfl w2

theorem heard_prefix {is : List Input} : ∀ {s s' : Left R Ev Ctx PKS KS}, s.run C n indices is = .ok s' → s.heard <+: s'.heard := by
  induction is with
  | nil => intro s s' h; cases h; exact List.prefix_refl _
  | cons i is ih =>
    intro s s' h
    obtain ⟨s1, g1, g2⟩ := Res.bind_eq_ok.1 h
    refine .trans ?_ (ih g2)
    cases effect g1 with
    | none _ _ _ _ h' => rw [h']; exact List.prefix_refl _
    | event _ _ _ _ _ h' => rw [h']; exact List.prefix_append _ _
    | report _ _ _ _ _ h' => rw [h']; exact List.prefix_refl _

theorem run_split {s s2 : Left R Ev Ctx PKS KS} {xs ys : List Input}
    (h : s.run C n indices (xs ++ ys) = .ok s2) : ∃ s1, s.run C n indices xs = .ok s1 ∧ s1.run C n indices ys = .ok s2 := by
  induction xs generalizing s with
  | nil => exact ⟨s, rfl, h⟩
  | cons x xs ih =>
    obtain ⟨d', g1, g2⟩ := Res.bind_eq_ok.1 h
    obtain ⟨s1, k1, k2⟩ := ih g2
    exact ⟨s1, Res.bind_eq_ok.2 ⟨d', g1, k1⟩, k2⟩

theorem run_append {s s1 s2 : Left R Ev Ctx PKS KS} {xs ys : List Input}
    (h1 : s.run C n indices xs = .ok s1) (h2 : s1.run C n indices ys = .ok s2) : s.run C n indices (xs ++ ys) = .ok s2 := by
  induction xs generalizing s with
  | nil => cases h1; exact h2
  | cons x xs ih =>
    obtain ⟨d', g1, g2⟩ := Res.bind_eq_ok.1 h1
    exact Res.bind_eq_ok.2 ⟨d', g1, ih g2⟩

/-- C92. The keyboard reports that are written are those of the outputs of the keymap, one for each tick, in order; only the last may be missing, while writing it fails. -/
theorem C92_keyboard {rows cols : Nat} {km : KM R Ev Ctx PKS KS} {is : List Input} {s : Left R Ev Ctx PKS KS} (hr : (Left.new rows cols km).run C n indices is = .ok s) :
    s.keyboards = (if s.success then s.made else s.made.dropLast).map KeymapOutput.asBootReport ∧ (s.success = false → s.made.getLast? = some s.backend.out) := by
  suffices H : ∀ (is : List Input) (s s' : Left R Ev Ctx PKS KS),
      (s.keyboards = (if s.success then s.made else s.made.dropLast).map KeymapOutput.asBootReport ∧ (s.success = false → s.made.getLast? = some s.backend.out)) →
      s.run C n indices is = .ok s' →
      (s'.keyboards = (if s'.success then s'.made else s'.made.dropLast).map KeymapOutput.asBootReport ∧ (s'.success = false → s'.made.getLast? = some s'.backend.out)) by
    exact H is _ s ⟨rfl, fun h => by simp [Left.new, Loop.new, Core.new] at h⟩ hr
  intro is
  induction is with
  | nil => intro s s' h hr; cases hr; exact h
  | cons i is ih =>
    intro s s' h hr
    obtain ⟨s1, g1, g2⟩ := Res.bind_eq_ok.1 hr
    refine ih s1 s' ?_ g2
    obtain ⟨h1, h2⟩ := h
    cases effect g1 with
    | none e1 e2 e3 e4 _ => rw [e1, e2, e3, e4]; exact ⟨h1, h2⟩
    | event _ e1 e2 e3 e4 _ =>
      obtain ⟨km', _, e1⟩ := Res.bind_eq_ok.1 e1
      rw [e2, e3, e4, ← Res.ok.inj e1]; exact ⟨h1, h2⟩
    | @report a _ _ core _ _ e1 e2 e3 e4 _ e6 =>
      have key : core.made.getLast? = some core.backend.out ∧ s.keyboards = core.made.dropLast.map KeymapOutput.asBootReport := by
        unfold advance at e1
        split at e1
        · next hs =>
          obtain ⟨⟨b', ch⟩, _, e1⟩ := Res.bind_eq_ok.1 e1
          cases e1
          rw [hs, if_pos rfl] at h1
          exact ⟨by simp, by simpa using h1⟩
        · next hs =>
          cases e1
          have hs : s.success = false := by simpa using hs
          rw [hs] at h1
          exact ⟨h2 hs, by simpa using h1⟩
      rw [e2, e3, e4, e6]
      refine ⟨?_, fun _ => key.1⟩
      cases a with
      | false => exact key.2
      | true =>
        simp only [if_true]
        have hm := split_last key.1
        conv => rhs; rw [hm]
        rw [key.2, List.map_append]; rfl

theorem attentive_append {s s1 : Left R Ev Ctx PKS KS} {xs ys : List Input}
    (h1 : s.run C n indices xs = .ok s1) (h : Attentive C n indices s (xs ++ ys)) : Attentive C n indices s1 ys := by
  induction xs generalizing s with
  | nil => cases h1; exact h
  | cons e es ih =>
    obtain ⟨d', g1, g2⟩ := Res.bind_eq_ok.1 h1
    exact ih g2 (h.2.2 d' g1)

theorem roomy_append {s s1 : Left R Ev Ctx PKS KS} {xs ys : List Input}
    (h1 : s.run C n indices xs = .ok s1) (h : Roomy C n indices s (xs ++ ys)) : Roomy C n indices s xs ∧ Roomy C n indices s1 ys := by
  induction xs generalizing s with
  | nil => cases h1; exact ⟨trivial, h⟩
  | cons e es ih =>
    obtain ⟨d', g1, g2⟩ := Res.bind_eq_ok.1 h1
    refine ⟨⟨h.1, fun d'' hd => ?_⟩, (ih g2 (h.2 d' g1)).2⟩
    rw [g1] at hd; cases hd
    exact (ih g2 (h.2 d' g1)).1

end

section

variable {K : Comp.Keys} {refs : List Comp.Ref} {S : Search} {layout : List Entry} {n : Nat} {indices : List (List (Option Nat))}

/-- What comes from the right half and from the switches are key events. -/
def Physical (s : CLeft) : Prop := (∀ e, .event e ∈ s.queue → Comp.isPhysical e = true) ∧ ∀ e, s.event = some e → Comp.isPhysical e = true

theorem deserialize_isPhysical {bs : List Byte} {e : InputEvent} (h : Split.deserialize bs = some e) : Comp.isPhysical e = true := by
  have := Split.deserialize_physical h
  cases e with
  | press _ => rfl
  | release _ => rfl
  | vpress _ => exact this.elim
  | vrelease _ => exact this.elim

theorem Physical.step {s s' : CLeft} {i : Input} (h : Physical s) (hr : s.step ⟨Comp.system K, refs, S⟩ (n + 2) indices i = .ok s') : Physical s' := by
  have hsnoc : ∀ {m : Msg}, (∀ e, m = .event e → Comp.isPhysical e = true) → ∀ e, .event e ∈ s.queue ++ [m] → Comp.isPhysical e = true := by
    intro m hm e he
    rcases List.mem_append.1 he with he | he
    · exact h.1 e he
    · exact hm e (List.mem_singleton.1 he).symm
  cases i with
  | timer raw =>
    simp only [Left.step] at hr
    split at hr
    · rw [timer_ok hr]; exact h
    · cases hr; exact h
  | go =>
    simp only [Left.step] at hr
    unfold Left.go at hr
    split at hr
    · cases hr; exact h
    · split at hr
      · cases hr; exact ⟨hsnoc (by intro e he; cases he), h.2⟩
      · cases hr; exact h
    · obtain ⟨ie, h1, hr⟩ := Res.bind_eq_ok.1 hr
      cases ie with
      | none => cases hr; exact h
      | some ie =>
        simp only at hr
        split at hr
        · cases hr; exact ⟨hsnoc (by intro e he; cases he; exact keyEvent_physical (keyEvent_of h1)), h.2⟩
        · cases hr; exact h
  | byte b =>
    cases hr
    unfold Left.rx
    split
    · exact h
    · split
      · exact h
      · exact ⟨h.1, fun e he => deserialize_isPhysical he⟩
  | fault => cases hr; exact h
  | deliver =>
    cases hr
    unfold Left.deliver
    split
    · exact h
    · next e he =>
      split
      · exact ⟨hsnoc (by intro x hx; cases hx; exact h.2 e he), fun x hx => by cases hx⟩
      · exact h
  | handle a b c =>
    simp only [Left.step] at hr
    unfold Left.handle at hr
    split at hr
    · cases hr; exact h
    · next e q hq =>
      obtain ⟨b', h1, hr⟩ := Res.bind_eq_ok.1 hr
      cases hr
      exact ⟨fun e' he => h.1 e' (by rw [hq]; simp only at he; simp [he]), h.2⟩
    · next q hq =>
      obtain ⟨core, h1, hr⟩ := Res.bind_eq_ok.1 hr
      obtain ⟨l, h2, hr⟩ := Res.bind_eq_ok.1 hr
      cases hr
      exact ⟨fun e' he => h.1 e' (by rw [hq]; simp only at he; simp [he]), h.2⟩

/-- A step, and the board. -/
theorem follows_step {c : Comp.Config} (hp : Comp.Plain K refs c layout) {s s' : CLeft} {t : Nat} {q : Queued} {i : Input} (hph : Physical s)
    (h : Follows K layout c.layerCount (start c) s.backend.km t q s.heard) (ht : t + 1 < u32Size)
    (hro : (∃ a b c, i = .handle a b c) → (∃ e q, s.queue = .event e :: q) → s.backend.km.inq.length < 31)
    (hr : s.step ⟨Comp.system K, refs, S⟩ (n + 2) indices i = .ok s') :
    ∃ t' q', t' ≤ t + 1 ∧ Follows K layout c.layerCount (start c) s'.backend.km t' q' s'.heard := by
  cases effect hr with
  | none h1 _ _ _ h5 => exact ⟨t, q, by omega, by rw [h1, h5]; exact h⟩
  | @event _ _ _ e q0 h0 h1 _ _ _ h5 =>
    obtain ⟨km, g1, g2⟩ := Res.bind_eq_ok.1 h1
    have hlt := hro ⟨_, _, _, rfl⟩ ⟨_, _, h0⟩
    have hq31 : q.queue.length + [e].length ≤ 31 := by
      have := h.sim.inq
      rw [this] at hlt
      simp only [List.length_singleton]; omega
    obtain ⟨q', f1, _, _⟩ := h.register (S := S) (n := n) (es := [e]) hp
      (fun x hx => by rw [List.mem_singleton.1 hx]; exact hph.1 e (by rw [h0]; simp)) hq31 (km' := km) (Res.bind_eq_ok.2 ⟨km, g1, rfl⟩)
    refine ⟨t, q', by omega, ?_⟩
    rw [h5, ← Res.ok.inj g2]
    exact f1
  | report h0 h1 _ _ _ h6 h7 =>
    obtain ⟨t', q', a1, a2, _⟩ := follows_advance hp h ht h1
    exact ⟨t', q', a1, by rw [h6, h7]; exact a2⟩

theorem follows_run {c : Comp.Config} (hp : Comp.Plain K refs c layout) {is : List Input} : ∀ {s s' : CLeft} {t : Nat} {q : Queued}, Physical s →
    Follows K layout c.layerCount (start c) s.backend.km t q s.heard → t + is.length < u32Size → Roomy ⟨Comp.system K, refs, S⟩ (n + 2) indices s is →
    s.run ⟨Comp.system K, refs, S⟩ (n + 2) indices is = .ok s' →
    ∃ t' q', t' ≤ t + is.length ∧ Physical s' ∧ Follows K layout c.layerCount (start c) s'.backend.km t' q' s'.heard := by
  induction is with
  | nil => intro s s' t q hph h _ _ hr; cases hr; exact ⟨t, q, Nat.le_refl _, hph, h⟩
  | cons i is ih =>
    intro s s' t q hph h ht hro hr
    simp only [List.length_cons] at ht ⊢
    obtain ⟨s1, g1, g2⟩ := Res.bind_eq_ok.1 hr
    obtain ⟨t1, q1, f1, f2⟩ := follows_step hp hph h (by omega) hro.1 g1
    obtain ⟨t', q', k1, k2, k3⟩ := ih (hph.step g1) f2 (by omega) (hro.2 s1 g1) g2
    exact ⟨t', q', by omega, k2, k3⟩

/-- After `k` ticks of the keymap in which no key event came and the keyboard reports were written. -/
structure Stage (K : Comp.Keys) (layout : List Entry) (c : Comp.Config) (k : Nat) (s : CLeft) (t : Nat) (q : Queued) : Prop where
  physical : Physical s
  follows : Follows K layout c.layerCount (start c) s.backend.km t q s.heard
  success : 1 ≤ k → s.success = true
  delay : 1 ≤ k → q.delay = 0
  queue : 1 ≤ k → q.queue.length ≤ 32 - k
  rep : 33 ≤ k → s.backend.km.rep.outputs = q.board.outputs ∧ min q.board.outputs.length (k - 32) ≤ s.backend.km.rep.num
  out : 1 ≤ k → s.backend.out = s.backend.km.rep.reportable
  sent : 1 ≤ k → s.keyboards.getLast? = some s.backend.out.asBootReport

theorem Stage.run {c : Comp.Config} (hp : Comp.Plain K refs c layout) {is : List Input} : ∀ {k : Nat} {s s' : CLeft} {t : Nat} {q : Queued},
    Stage K layout c k s t q → t + is.length < u32Size → (∀ a b c, .handle a b c ∈ is → a = true) →
    s.run ⟨Comp.system K, refs, S⟩ (n + 2) indices is = .ok s' → s'.heard = s.heard →
    ∃ k' t' q', k + s'.made.length = k' + s.made.length ∧ Stage K layout c k' s' t' q' := by
  induction is with
  | nil => intro k s s' t q h _ _ hr _; cases hr; exact ⟨k, t, q, by omega, h⟩
  | cons i is ih =>
    intro k s s' t q h ht hl hr hh
    simp only [List.length_cons] at ht
    obtain ⟨s1, g1, g2⟩ := Res.bind_eq_ok.1 hr
    have hh1 : s1.heard = s.heard := by
      have p1 : s.heard <+: s1.heard := heard_prefix (is := [i]) (Res.bind_eq_ok.2 ⟨s1, g1, rfl⟩)
      have p2 := heard_prefix g2
      rw [hh] at p2
      exact (p2.eq_of_length (Nat.le_antisymm p2.length_le p1.length_le))
    have hnext : ∃ k1 t1 q1, t1 ≤ t + 1 ∧ k + s1.made.length = k1 + s.made.length ∧ Stage K layout c k1 s1 t1 q1 := by
      have hphys := h.physical.step g1
      cases effect g1 with
      | none h1 h2 h3 h4 h5 =>
        refine ⟨k, t, q, by omega, by rw [h3], hphys, by rw [h1, h5]; exact h.follows, fun hk => by rw [h2]; exact h.success hk, h.delay, h.queue, ?_, ?_, ?_⟩
        · rw [h1]; exact h.rep
        · rw [h1]; exact h.out
        · rw [h1, h4]; exact h.sent
      | event _ _ _ _ _ h5 =>
        rw [hh1] at h5
        have := congrArg List.length h5
        simp at this
      | @report a _ _ core q0 h0 h1 h2 h3 h4 h5 h6 =>
        have hw := hl _ _ _ (List.mem_cons_self ..)
        subst hw
        obtain ⟨t1, q1, a1, a2, a3⟩ := follows_advance hp h.follows (by omega) h1
        have hsent : s1.keyboards.getLast? = some s1.backend.out.asBootReport := by rw [h4, h6]; simp
        rcases a3 with ⟨b1, b2, b3, b4, b5⟩ | ⟨b1, b2, b3⟩
        · have hq := Taken.tick (b := q.board) (evs := q.queue) ⟨[], rfl, rfl⟩ h.follows.delay b2
          obtain ⟨p1, p2, p3, p4⟩ := report_same s.backend.km.rep h.follows.rep q1.board.outputs
          refine ⟨k + 1, t1, q1, a1, by rw [h3, b5]; simp; omega, hphys, by rw [h5, h6]; exact a2, fun _ => h2, fun _ => hq.2.1, fun _ => ?_, fun hk => ?_, fun _ => ?_, fun _ => hsent⟩
          · by_cases hk : 1 ≤ k
            · have := h.queue hk
              have := hq.2.2.2.1 (h.delay hk)
              omega
            · have := hq.2.2.1
              have := h.follows.room
              omega
          · have hz : q.queue = [] := List.length_eq_zero_iff.1 (by have := h.queue (by omega); omega)
            obtain ⟨_, hb⟩ := hq.2.2.2.2 hz
            rw [h6, b3]
            refine ⟨p1, ?_⟩
            by_cases h33 : 33 ≤ k
            · obtain ⟨r1, r2⟩ := h.rep h33
              have := p4 (by rw [r1, hb])
              rw [← hb] at r2
              omega
            · omega
          · rw [h6, b4, b3, p3]
        · by_cases hk : 1 ≤ k
          · rw [h.success hk] at b1; cases b1
          · subst b2
            refine ⟨k, t1, q1, a1, by rw [h3, b3], hphys, by rw [h5, h6]; exact a2, fun _ => h2, ?_, ?_, ?_, ?_, ?_⟩
            all_goals intro hk'; omega
    obtain ⟨k1, t1, q1, e1, e2, e3⟩ := hnext
    obtain ⟨k2, t2, q2, f1, f2⟩ := ih e3 (by omega) (fun a b c hm => hl a b c (List.mem_cons_of_mem _ hm)) g2 (by rw [hh, hh1])
    exact ⟨k2, t2, q2, by omega, f2⟩

/-- In `is` anything happens. Then, in `still`, no key event comes to the keymap and the keyboard reports are written, for 48 ticks of the keymap or more. There is room
for the key events in the keymap. -/
structure Rests (K : Comp.Keys) (refs : List Comp.Ref) (S : Search) (n : Nat) (c : Comp.Config) (rows cols : Nat)
    (indices : List (List (Option Nat))) (is still : List Input) (s0 s : CLeft) : Prop where
  before : (fresh rows cols c).run ⟨Comp.system K, refs, S⟩ (n + 2) indices is = .ok s0
  runs : s0.run ⟨Comp.system K, refs, S⟩ (n + 2) indices still = .ok s
  quiet : s.heard = s0.heard
  answers : ∀ keyboard mouse consumer, .handle keyboard mouse consumer ∈ still → keyboard = true
  long : s0.made.length + 48 ≤ s.made.length
  time : is.length + still.length < u32Size
  roomy : Roomy ⟨Comp.system K, refs, S⟩ (n + 2) indices (fresh rows cols c) is

/-- C92. Whatever has happened: at rest the last report is that of the outputs of the board of the keymap after the key events it was given. -/
theorem C92_report {c : Comp.Config} (hp : Comp.Plain K refs c layout) {rows cols : Nat} {is still : List Input} {s0 s : CLeft}
    (h : Rests K refs S n c rows cols indices is still s0 s) :
    s.keyboards.getLast? = some (KeymapOutput.asBootReport (s.heard.foldl (Board.State.input layout) (start c)).outputs) := by
  have hph : Physical (fresh rows cols c) := ⟨(fun e he => by cases he), (fun e he => by cases he)⟩
  have htime := h.time
  obtain ⟨t, q, f1, f2, f3⟩ := follows_run (S := S) (n := n) (indices := indices) hp hph (follows_new hp) (by omega) h.roomy h.before
  have h0 : Stage K layout c 0 s0 t q := ⟨f2, f3, fun h => by omega, fun h => by omega, fun h => by omega, fun h => by omega, fun h => by omega, fun h => by omega⟩
  obtain ⟨k, t', q', e1, st⟩ := h0.run hp (S := S) (n := n) (indices := indices) (by omega) h.answers h.runs h.quiet
  have hk : 48 ≤ k := by have := h.long; omega
  have hq : q'.queue = [] := List.length_eq_zero_iff.1 (by have := st.queue (by omega); omega)
  obtain ⟨tk, h1, h2⟩ := st.follows.taken
  rw [hq, List.append_nil] at h2
  subst h2
  have hlen : q'.board.held.length ≤ 16 := st.follows.sim.sim.len
  have hol : q'.board.outputs.length ≤ 16 := Nat.le_trans (List.length_filterMap_le _ _) hlen
  obtain ⟨g1, g2⟩ := st.rep (by omega)
  have hout : s.backend.out = q'.board.outputs := by
    rw [st.out (by omega), Reporter.reportable, g1, List.take_of_length_le (by omega)]
  rw [st.sent (by omega), hout, h1]

/-- The two halves: no byte was lost, all that the right half has sent has arrived, nothing is left to do, and each half has read its switches 26 times with the same
levels. -/
structure Linked (K : Comp.Keys) (refs : List Comp.Ref) (S : Search) (n : Nat) (c : Comp.Config) (rows cols rows' cols' : Nat)
    (indices indices' : List (List (Option Nat))) (is : List Input) (raws : List Levels) (s : CLeft) (raw raw' : Levels) : Prop where
  attentive : Attentive ⟨Comp.system K, refs, S⟩ (n + 2) indices (fresh rows cols c) is
  right : ∃ s', (Right.new rows' cols').run indices' raws = .ok s' ∧ bytesOf is = s'.tx
  todo : s.todo = none
  event : s.event = none
  queue : s.queue = []
  sizes : ∀ m ∈ s.scanned, Size rows cols m
  sizes' : ∀ m ∈ raws, Size rows' cols' m
  last : s.scanned.reverse.take 26 = List.replicate 26 raw
  last' : raws.reverse.take 26 = List.replicate 26 raw'

/-- C92. At rest the last report is that of a board which holds the keys whose switches are closed, on the left half or on the right half. -/
theorem C92_settles {c : Comp.Config} (hp : Comp.Plain K refs c layout) {rows cols rows' cols' : Nat}
    {indices' : List (List (Option Nat))} (hl : Laid rows cols layout.length indices) (hl' : Laid rows' cols' layout.length indices') (ha : Apart indices indices')
    (h128 : layout.length ≤ 128) {is still : List Input} {raws : List Levels} {s0 s : CLeft} {raw raw' : Levels}
    (h : Rests K refs S n c rows cols indices is still s0 s) (hk : Linked K refs S n c rows cols rows' cols' indices indices' (is ++ still) raws s raw raw') :
    ∃ b : Board.State, b = s.heard.foldl (Board.State.input layout) (start c) ∧ s.keyboards.getLast? = some (KeymapOutput.asBootReport b.outputs) ∧
      ∀ i, b.holds i = true ↔ Closed indices raw i ∨ Closed indices' raw' i := by
  refine ⟨_, rfl, C92_report hp h, fun i => ?_⟩
  obtain ⟨s', r1, r2⟩ := hk.right
  have hm := (C92_halves (fun r c i hi => Nat.lt_of_lt_of_le (hl'.within r c i hi) h128) (run_append h.before h.runs) hk.attentive r1 (r2 ▸ List.prefix_refl _)).2
    r2 hk.todo hk.event hk.queue
  have := merge_held hl hl' ha c hk.sizes hk.sizes' hm i
  rw [stable_of_last hk.last, stable_of_last hk.last'] at this
  exact this

/-- C92. No key is stuck: at rest, with all the switches of both halves open, the last report is the one of no key. -/
theorem C92_no_stuck_keys {c : Comp.Config} (hp : Comp.Plain K refs c layout) {rows cols rows' cols' : Nat}
    {indices' : List (List (Option Nat))} (hl : Laid rows cols layout.length indices) (hl' : Laid rows' cols' layout.length indices') (ha : Apart indices indices')
    (h128 : layout.length ≤ 128) {is still : List Input} {raws : List Levels} {s0 s : CLeft}
    (h : Rests K refs S n c rows cols indices is still s0 s)
    (hk : Linked K refs S n c rows cols rows' cols' indices indices' (is ++ still) raws s (allOpen rows cols) (allOpen rows' cols')) :
    s.keyboards.getLast? = some (List.replicate 8 0) := by
  obtain ⟨b, _, h2, h3⟩ := C92_settles hp hl hl' ha h128 h hk
  have hnil : b.outputs = [] := by
    rw [Board.State.outputs, Keyboard.held_nil]; rfl
    intro i
    cases hs : b.holds i with
    | false => rfl
    | true =>
      rcases (h3 i).1 hs with ⟨r, c, _, hx⟩ | ⟨r, c, _, hx⟩ <;> exact absurd hx (allOpen_entry _ _ _ _)
  rw [h2, hnil]; rfl

/-! ## The left half does not stop -/

/-- What holds between the steps. -/
structure Sound (K : Comp.Keys) (layout : List Entry) (c : Comp.Config) (rows cols : Nat) (indices : List (List (Option Nat))) (s : CLeft) (t : Nat) (q : Queued) : Prop where
  follows : Follows K layout c.layerCount (start c) s.backend.km t q s.heard
  deb : s.deb = debounced rows cols s.scanned
  sizes : ∀ m ∈ s.scanned, Size rows cols m
  todo : ∀ e ∈ s.todo.getD [], InMatrix indices e
  heard : ∀ e ∈ s.heard ++ RticSplit.eventsOf s.queue, Within layout.length e
  event : ∀ e, s.event = some e → Within layout.length e
  short : s.buf.length < 4
  out : s.backend.out.length ≤ 16

theorem writes_runs {l : Loop Comp.Ref Comp.Ev Comp.Ctx Comp.PKS Comp.KS} (ho : l.backend.out.length ≤ 16) (k m c : Bool) :
    ∃ l', ((l.writeKeyboard k).writeMouse m).writeConsumer c = .ok l' := by
  have hb : ((l.writeKeyboard k).writeMouse m).backend.out = l.backend.out := by
    have := congrArg Core.backend (writeMouse_parts (l.writeKeyboard k) m).1
    rw [this]
    cases k <;> rfl
  obtain ⟨cs, h⟩ := consumerCodes_ok (hb ▸ ho : ((l.writeKeyboard k).writeMouse m).backend.out.length ≤ 16)
  unfold Loop.writeConsumer
  rw [h]
  simp only [Res.ok_bind]
  split
  · split <;> exact ⟨_, rfl⟩
  · exact ⟨_, rfl⟩

theorem Sound.step {c : Comp.Config} (hp : Comp.Plain K refs c layout) {rows cols : Nat} (hl : Laid rows cols layout.length indices)
    {s : CLeft} {t : Nat} {q : Queued} {i : Input} (h : Sound K layout c rows cols indices s t q) (ht : t + 1 < u32Size) (hb : Bears layout (start c) rows cols s i) :
    ∃ s' t' q', s.step ⟨Comp.system K, refs, S⟩ (n + 2) indices i = .ok s' ∧ t' ≤ t + 1 ∧ Sound K layout c rows cols indices s' t' q' := by
  cases i with
  | timer raw =>
    simp only [Left.step]
    split
    · obtain ⟨hsz, hfew⟩ := hb.few raw rfl
      have hke : keyboardEvents s.deb raw = .ok (s.deb.events raw) := if_pos hfew
      refine ⟨{ s with deb := (s.deb.events raw).1, todo := some (s.deb.events raw).2, scanned := s.scanned ++ [raw] }, t, q,
        Res.bind_eq_ok.2 ⟨_, hke, rfl⟩, by omega, h.follows, ?_, ?_, ?_, h.heard, h.event, h.short, h.out⟩
      · show (s.deb.events raw).1 = debounced rows cols (s.scanned ++ [raw])
        rw [debounced_snoc, h.deb]
      · intro m hm
        rcases List.mem_append.1 hm with hm | hm
        · exact h.sizes m hm
        · rw [List.mem_singleton.1 hm]; exact hsz
      · have := events_inMatrix hl h.sizes hsz
        rw [← h.deb] at this
        exact this
    · exact ⟨s, t, q, rfl, by omega, h⟩
  | go =>
    simp only [Left.step]
    unfold Left.go
    split
    · exact ⟨s, t, q, rfl, by omega, h⟩
    · next htd =>
      split
      · refine ⟨_, t, q, rfl, by omega, h.follows, h.deb, h.sizes, (fun e he => by cases he), ?_, h.event, h.short, h.out⟩
        rw [eventsOf_append, ← List.append_assoc]
        simpa [RticSplit.eventsOf] using h.heard
      · exact ⟨s, t, q, rfl, by omega, h⟩
    · next e es htd =>
      have htodo := h.todo
      rw [htd] at htodo
      have h1 := keymapIndexOf_ok (htodo e (by simp))
      rw [h1]
      simp only [Res.ok_bind]
      cases hke : keyEvent indices e with
      | none => exact ⟨_, t, q, rfl, by omega, h.follows, h.deb, h.sizes, fun x hx => htodo x (List.mem_cons_of_mem _ hx), h.heard, h.event, h.short, h.out⟩
      | some ie =>
        have hw := RticSplit.keyEvent_within hl hke
        simp only
        split
        · refine ⟨_, t, q, rfl, by omega, h.follows, h.deb, h.sizes, fun x hx => htodo x (List.mem_cons_of_mem _ hx), ?_, h.event, h.short, h.out⟩
          simp only [eventsOf_append]
          intro x hx
          rw [← List.append_assoc] at hx
          rcases List.mem_append.1 hx with hx | hx
          · exact h.heard x hx
          · rw [List.mem_singleton.1 hx]; exact hw
        · exact ⟨s, t, q, rfl, by omega, h⟩
  | byte x =>
    refine ⟨_, t, q, rfl, by omega, ?_⟩
    have hkey := hb.keys x
    unfold Left.rx
    split
    · exact h
    · split
      · next hlt =>
        exact ⟨h.follows, h.deb, h.sizes, h.todo, h.heard, h.event, by simpa [Split.bufferSize] using hlt, h.out⟩
      · next hge =>
        have hsh := h.short
        have h3 : s.buf.length = 3 := by simp only [Split.bufferSize] at hge; omega
        exact ⟨h.follows, h.deb, h.sizes, h.todo, h.heard, fun e he => hkey e rfl h3 he, by simp, h.out⟩
  | fault => exact ⟨_, t, q, rfl, by omega, h.follows, h.deb, h.sizes, h.todo, h.heard, h.event, Nat.zero_lt_succ _, h.out⟩
  | deliver =>
    refine ⟨_, t, q, rfl, by omega, ?_⟩
    unfold Left.deliver
    split
    · exact h
    · next e he =>
      split
      · refine ⟨h.follows, h.deb, h.sizes, h.todo, ?_, (fun x hx => by cases hx), h.short, h.out⟩
        simp only [eventsOf_append]
        intro y hy
        rw [← List.append_assoc] at hy
        rcases List.mem_append.1 hy with hy | hy
        · exact h.heard y hy
        · rw [List.mem_singleton.1 hy]; exact h.event e he
      · exact h
  | handle a k d =>
    have hro := hb.room ⟨a, k, d, rfl⟩
    have h16 := hb.sixteen
    simp only [Left.step]
    unfold Left.handle
    split
    · exact ⟨s, t, q, rfl, by omega, h⟩
    · next e qs hq =>
      have hlt := hro ⟨e, qs, hq⟩
      rw [hq] at h16
      have hh := h.heard
      rw [hq] at hh
      have hew : Within layout.length e := hh e (by simp [RticSplit.eventsOf])
      have hq31 : q.queue.length + [e].length ≤ 31 := by
        have := h.follows.sim.inq
        rw [this] at hlt
        simp only [List.length_singleton]; omega
      have hhw : ∀ e ∈ s.heard, Within layout.length e := fun x hx => hh x (by simp [hx])
      have h16' : Keyboard.AtMostSixteen layout (start c) (s.heard ++ [e]) := by
        refine Keyboard.AtMostSixteen.first (ys := RticSplit.eventsOf qs) ?_
        simpa [RticSplit.eventsOf] using h16
      obtain ⟨km, g1⟩ := Follows.register_ok (S := S) (n := n) (es := [e]) hp (Nat.le_refl _) (fun x hx => by rw [List.mem_singleton.1 hx]; exact hew) h16' h.follows hhw hq31
      obtain ⟨km1, g2, g3⟩ := Res.bind_eq_ok.1 g1
      obtain ⟨q', f1, _, _⟩ := h.follows.register (S := S) (n := n) (es := [e]) hp
        (fun x hx => by rw [List.mem_singleton.1 hx]; obtain ⟨k, _, rfl | rfl⟩ := hew <;> rfl) hq31 g1
      cases g3
      refine ⟨_, t, q', Res.bind_eq_ok.2 ⟨_, Res.bind_eq_ok.2 ⟨_, g2, rfl⟩, rfl⟩, by omega, f1, h.deb, h.sizes, h.todo, ?_, h.event, h.short, h.out⟩
      intro x hx
      exact hh x (by simpa [RticSplit.eventsOf] using hx)
    · next qs hq =>
      have hh := h.heard
      rw [hq] at hh h16
      have hhw : ∀ e ∈ s.heard, Within layout.length e := fun x hx => hh x (by simp [hx])
      obtain ⟨core, g1, g2, g3⟩ := RticSplit.advance_runs (S := S) (n := n) hp (s := s.toCore) h.follows hhw h16.first ht h.out
      obtain ⟨t', q', f1, f2, _⟩ := follows_advance hp h.follows ht g1
      have hh' : ∀ e ∈ s.heard ++ RticSplit.eventsOf qs, Within layout.length e := fun x hx => hh x (by simpa [RticSplit.eventsOf] using hx)
      obtain ⟨l', w⟩ := writes_runs (l := { s.toLoop with toCore := core }) g2 a k d
      obtain ⟨w1, w2, _⟩ := writes_parts w
      refine ⟨{ s with toLoop := l', queue := qs }, t', q', Res.bind_eq_ok.2 ⟨core, g1, Res.bind_eq_ok.2 ⟨l', w, rfl⟩⟩, f1, ?_, ?_, h.sizes, h.todo, hh', h.event, h.short, ?_⟩
      · show Follows _ _ _ _ l'.backend.km _ _ _
        rw [w2]; exact f2
      · show l'.deb = _
        rw [w1]; exact g3.trans h.deb
      · show l'.backend.out.length ≤ 16
        rw [w2]; exact g2

/-- C92. The left half does not stop, whatever happens that it can bear: lost bytes and a full channel do not stop it. -/
theorem C92_runs {c : Comp.Config} (hp : Comp.Plain K refs c layout) {rows cols : Nat} (hl : Laid rows cols layout.length indices)
    {is : List Input} (ht : is.length < u32Size) (hb : Bearable ⟨Comp.system K, refs, S⟩ (n + 2) indices layout (start c) rows cols (fresh rows cols c) is) :
    ∃ s, (fresh rows cols c).run ⟨Comp.system K, refs, S⟩ (n + 2) indices is = .ok s := by
  suffices H : ∀ (is : List Input) (s : CLeft) (t : Nat) (q : Queued), Sound K layout c rows cols indices s t q → t + is.length < u32Size →
      Bearable ⟨Comp.system K, refs, S⟩ (n + 2) indices layout (start c) rows cols s is → ∃ s', s.run ⟨Comp.system K, refs, S⟩ (n + 2) indices is = .ok s' from
    H is _ 0 _ ⟨follows_new hp, rfl, (fun _ h => by cases h), (fun _ h => by cases h), (fun _ h => by cases h), (fun _ h => by cases h), Nat.zero_lt_succ _, Nat.zero_le _⟩ (by omega) hb
  intro is
  induction is with
  | nil => exact fun s _ _ _ _ _ => ⟨s, rfl⟩
  | cons i is ih =>
    intro s t q h ht hb
    simp only [List.length_cons] at ht
    obtain ⟨s1, t1, q1, g1, g2, g3⟩ := h.step (S := S) (n := n) hp hl (by omega) hb.1
    obtain ⟨s', r⟩ := ih s1 t1 q1 g3 (by omega) (hb.2 s1 g1)
    exact ⟨s', Res.bind_eq_ok.2 ⟨s1, g1, r⟩⟩

end

namespace Demo

open Verif.RticSplit.Demo (C left right)

/-- A millisecond in which there is at most one event. -/
def milli (raw : Levels) : List Input := [.timer raw, .go, .handle true true true, .go, .handle true true true]

def millis (k : Nat) (raw : Levels) : List Input := (List.replicate k (milli raw)).flatten

/-- a is pressed; b is pressed on the right half. -/
def first : List Input := millis 30 [[true]] ++ [.byte 1, .byte 2, .byte 1, .byte 0, .deliver, .handle true true true]

/-- Then nothing moves. -/
def still : List Input := millis 48 [[true]]

/-- The right half. -/
def other : List Levels := List.replicate 30 [[true]]

/-- Whether a left half can stand a step, with no byte lost. -/
def bears {R Ev Ctx PKS KS : Type} (layout : List Entry) (b : Board.State) (rows cols : Nat) (s : Left R Ev Ctx PKS KS) (i : Input) : Bool :=
  (decide (s.backend.km.inq.length < 31) && (List.range ((s.heard ++ RticSplit.eventsOf s.queue).length + 1)).all fun k =>
    decide ((((s.heard ++ RticSplit.eventsOf s.queue).take k).foldl (Board.State.input layout) b).held.length ≤ 16)) &&
  match i with
  | .timer raw => decide (raw.length = rows) && raw.all (fun row => decide (row.length = cols)) && decide ((s.deb.events raw).2.length ≤ 8)
  | .go => true
  | .byte x => s.event.isNone && match Split.deserialize (s.buf ++ [x]) with
    | none => true
    | some (.press k) => decide (k < layout.length)
    | some (.release k) => decide (k < layout.length)
    | some _ => false
  | .fault => false
  | .deliver => true
  | .handle _ _ _ => true

theorem bears_sound {R Ev Ctx PKS KS : Type} {layout : List Entry} {b : Board.State} {rows cols : Nat} {s : Left R Ev Ctx PKS KS} {i : Input}
    (h : bears layout b rows cols s i = true) : Bears layout b rows cols s i ∧ ((∃ b, i = .byte b) → s.event = none) ∧ i ≠ .fault ∧ s.backend.km.inq.length < 31 := by
  simp only [bears, Bool.and_eq_true, decide_eq_true_eq] at h
  obtain ⟨⟨h1, h2⟩, h3⟩ := h
  refine ⟨⟨?_, ?_, ?_, fun _ _ => h1⟩, ?_, ?_, h1⟩
  · rintro x e rfl _ he
    simp only [he, Bool.and_eq_true] at h3
    cases e with
    | press k => exact ⟨k, by simpa using h3.2, .inl rfl⟩
    | release k => exact ⟨k, by simpa using h3.2, .inr rfl⟩
    | _ => exact absurd h3.2 (by simp)
  · rintro raw rfl
    simp only [Bool.and_eq_true, decide_eq_true_eq, List.all_eq_true] at h3
    exact ⟨⟨h3.1.1, h3.1.2⟩, h3.2⟩
  · intro first hf
    obtain ⟨rest, hr⟩ := hf
    have := List.all_eq_true.1 h2 first.length (List.mem_range.2 (by rw [← hr]; simp; omega))
    rw [← hr] at this
    simpa using this
  · rintro ⟨x, rfl⟩
    simp only [Bool.and_eq_true, Option.isNone_iff_eq_none] at h3
    exact h3.1
  · rintro rfl; cases h3

/-- A run, if the left half can stand it. -/
def bearRun {R Ev Ctx PKS KS : Type} (C : Cfg R Ev Ctx PKS KS) (n : Nat) (indices : List (List (Option Nat))) (layout : List Entry) (b : Board.State) (rows cols : Nat)
    (s : Left R Ev Ctx PKS KS) : List Input → Option (Left R Ev Ctx PKS KS)
  | [] => some s
  | i :: is => if bears layout b rows cols s i then
      match s.step C n indices i with
      | .ok s => bearRun C n indices layout b rows cols s is
      | _ => none
    else none

theorem bearRun_sound {R Ev Ctx PKS KS : Type} {C : Cfg R Ev Ctx PKS KS} {n : Nat} {indices : List (List (Option Nat))} {layout : List Entry} {b : Board.State} {rows cols : Nat} :
    ∀ (is : List Input) {s s' : Left R Ev Ctx PKS KS}, bearRun C n indices layout b rows cols s is = some s' →
    s.run C n indices is = .ok s' ∧ Bearable C n indices layout b rows cols s is ∧ Attentive C n indices s is ∧ Roomy C n indices s is
  | [], s, s', h => by cases h; exact ⟨rfl, trivial, trivial, trivial⟩
  | i :: is, s, s', h => by
    simp only [bearRun] at h
    split at h
    · next hb =>
      obtain ⟨b1, b2, b3, b4⟩ := bears_sound hb
      split at h
      · next s1 h1 =>
        obtain ⟨k1, k2, k3, k4⟩ := bearRun_sound is h
        have e : ∀ {s2}, s.step C n indices i = .ok s2 → s2 = s1 := fun h2 => (Res.ok.inj (h1.symm.trans h2)).symm
        exact ⟨Res.bind_eq_ok.2 ⟨s1, h1, k1⟩, ⟨b1, fun s2 h2 => e h2 ▸ k2⟩, ⟨b2, b3, fun s2 h2 => e h2 ▸ k3⟩, ⟨fun _ _ => b4, fun s2 h2 => e h2 ▸ k4⟩⟩
      · cases h
    · cases h

/-- What matters of a left half. -/
structure Facts where
  made : Nat
  heard : List InputEvent
  todo : Bool
  event : Option InputEvent
  queue : List Msg
  scanned : List Levels
  last : Option (List Byte)
  deriving DecidableEq

def facts (s : CLeft) : Facts := ⟨s.made.length, s.heard, s.todo.isNone, s.event, s.queue, s.scanned, s.keyboards.getLast?⟩

set_option maxRecDepth 100000 in
theorem first_eq : (bearRun C 2 left Keyboard.Demo.layout (start Keyboard.Demo.config) 1 1 (fresh 1 1 Keyboard.Demo.config) first).map facts =
    some ⟨30, [.press 0, .press 1], true, none, [], List.replicate 30 [[true]], some [0, 0, 4, 0, 0, 0, 0, 0]⟩ := by decide +kernel

set_option maxRecDepth 100000 in
theorem all_eq : (bearRun C 2 left Keyboard.Demo.layout (start Keyboard.Demo.config) 1 1 (fresh 1 1 Keyboard.Demo.config) (first ++ still)).map facts =
    some ⟨78, [.press 0, .press 1], true, none, [], List.replicate 78 [[true]], some [0, 0, 4, 5, 0, 0, 0, 0]⟩ := by decide +kernel

set_option maxRecDepth 100000 in
theorem other_eq : (fun s => s.tx) <$> (Right.new 1 1).run right other = .ok (wire (.press 1)) := by decide +kernel

theorem mem_millis {k : Nat} {raw : Levels} {a b c : Bool} (h : Input.handle a b c ∈ millis k raw) : a = true := by
  obtain ⟨l, h1, h2⟩ := List.mem_flatten.1 h
  rw [List.eq_of_mem_replicate h1] at h2
  simp only [milli, List.mem_cons, reduceCtorEq, Input.handle.injEq, List.not_mem_nil, or_false, false_or] at h2
  rcases h2 with h2 | h2 <;> exact h2.1

set_option maxRecDepth 100000 in
/-- The hypotheses of C92 hold of this history; both keys are in the report. -/
example : ∃ s0 s, Rests Keyboard.Demo.K Keyboard.Demo.refs Search.std 0 Keyboard.Demo.config 1 1 left first still s0 s ∧
    Linked Keyboard.Demo.K Keyboard.Demo.refs Search.std 0 Keyboard.Demo.config 1 1 1 1 left right (first ++ still) other s [[true]] [[true]] ∧
    Bearable C 2 left Keyboard.Demo.layout (start Keyboard.Demo.config) 1 1 (fresh 1 1 Keyboard.Demo.config) (first ++ still) ∧
    s.keyboards.getLast? = some [0, 0, 4, 5, 0, 0, 0, 0] := by
  obtain ⟨s0, a1, a2⟩ := Option.map_eq_some_iff.1 first_eq
  obtain ⟨s, b1, b2⟩ := Option.map_eq_some_iff.1 all_eq
  obtain ⟨s', c1, c2⟩ := Res.map_eq_ok.1 other_eq
  obtain ⟨a3, _, _, a4⟩ := bearRun_sound _ a1
  obtain ⟨b3, b4, b5, _⟩ := bearRun_sound _ b1
  simp only [facts, Facts.mk.injEq, Option.isNone_iff_eq_none] at a2 b2
  obtain ⟨s1, d1, d2⟩ := run_split b3
  rw [a3] at d1; cases d1
  obtain ⟨e1, e2, e3, e4, e5, e6, e7⟩ := b2
  refine ⟨s0, s, ⟨a3, d2, ?_, fun a b c hm => mem_millis hm, ?_, by decide, a4⟩, ⟨b5, ⟨s', c1, ?_⟩, e3, e4, e5, ?_, ?_, ?_, ?_⟩, b4, e7⟩
  · rw [e2, a2.2.1]
  · rw [a2.1, e1]; decide
  · rw [c2]; decide +kernel
  · intro m hm
    rw [e6] at hm
    rw [List.eq_of_mem_replicate hm]; exact ⟨rfl, by decide⟩
  · intro m hm
    rw [List.eq_of_mem_replicate hm]; exact ⟨rfl, by decide⟩
  · rw [e6]; decide
  · decide

/-- The first byte of a message is lost, as when the left half is reset while the right half sends: the hypotheses of C92_deaf hold. The next press and the next release
of b are not read. -/
def late : List Input := [.byte 2, .byte 1, .byte 0]

def after : List Input := (wire (.release 1)).map Input.byte ++ [.deliver] ++ (wire (.press 1)).map Input.byte ++ [.deliver]

example : ∃ s s', (fresh 1 1 Keyboard.Demo.config).run C 2 left late = .ok s ∧ s.buf = (wire (.press 1)).drop 1 ∧ s.run C 2 left after = .ok s' ∧
    Attentive C 2 left s after ∧ bytesOf after <+: [InputEvent.release 1, .press 1].flatMap wire ∧ s'.got = [] := by
  have h1 : (bearRun C 2 left Keyboard.Demo.layout (start Keyboard.Demo.config) 1 1 (fresh 1 1 Keyboard.Demo.config) late).map (fun s => s.buf) = some [2, 1, 0] := by decide +kernel
  have h2 : (bearRun C 2 left Keyboard.Demo.layout (start Keyboard.Demo.config) 1 1 (fresh 1 1 Keyboard.Demo.config) (late ++ after)).map (fun s => s.got) = some [] := by decide +kernel
  obtain ⟨s, a1, a2⟩ := Option.map_eq_some_iff.1 h1
  obtain ⟨s', b1, b2⟩ := Option.map_eq_some_iff.1 h2
  obtain ⟨a3, _⟩ := bearRun_sound _ a1
  obtain ⟨b3, _, b4, _⟩ := bearRun_sound _ b1
  obtain ⟨s1, d1, d2⟩ := run_split b3
  rw [a3] at d1; cases d1
  exact ⟨s, s', a3, by rw [a2]; decide, d2, attentive_append a3 b4, by decide, b2⟩

/-- The computer does not fetch a report for a while, so `keyboard_backend` waits, and the channel is filled with ticks. -/
def waits : List Input := (List.replicate 8 [Input.timer [[false]], .go]).flatten

/-- Meanwhile b is pressed and released on the right half. -/
def tap : List Input := ((wire (.press 1)).map Input.byte) ++ [.deliver] ++ ((wire (.release 1)).map Input.byte) ++ [.deliver]

/-- Then the computer fetches reports again. -/
def again : List Input := List.replicate 8 (.handle true true true) ++ [.deliver, .handle true true true] ++ millis 60 [[false]]

end Demo

set_option maxRecDepth 100000 in
/-- C92, if an event has to wait for room in the channel: the bytes that arrive meanwhile are lost. b is pressed and released while the computer does not fetch
reports; the right half has sent both events, all switches are open again, nothing is left to do, and b stays pressed for the computer. -/
theorem C92_lost_refuted :
    (fun (s : Right) => s.tx) <$> (Right.new 1 1).run RticSplit.Demo.right (List.replicate 30 [[true]] ++ List.replicate 30 [[false]]) =
      .ok (wire (.press 1) ++ wire (.release 1)) ∧
    bytesOf (Demo.waits ++ Demo.tap ++ Demo.again) = wire (.press 1) ++ wire (.release 1) ∧
    (∀ levels, .timer levels ∈ Demo.waits ++ Demo.tap ++ Demo.again → levels = [[false]]) ∧
    Demo.facts <$> (fresh 1 1 Keyboard.Demo.config).run RticSplit.Demo.C 2 RticSplit.Demo.left (Demo.waits ++ Demo.tap ++ Demo.again) =
      .ok ⟨68, [.press 1], true, none, [], List.replicate 68 [[false]], some [0, 0, 5, 0, 0, 0, 0, 0]⟩ := by
  refine ⟨by decide +kernel, by decide +kernel, ?_, by decide +kernel⟩
  intro levels h
  simp only [Demo.waits, Demo.tap, Demo.again, Demo.millis, List.mem_append, List.mem_flatten, List.mem_replicate, List.mem_map, List.mem_cons, reduceCtorEq, and_false,
    List.not_mem_nil, or_false, false_or, exists_false] at h
  rcases h with ⟨l, ⟨_, rfl⟩, h⟩ | ⟨l, ⟨_, rfl⟩, h⟩
  · simpa using h
  · simpa [Demo.milli] using h

/-- C92, without the hypothesis that the messages are those of the right half: four bytes of noise, which are those of a key that is not in the keymap, stop the left
half. -/
theorem C92_noise_refuted : (fresh 1 1 Keyboard.Demo.config).run RticSplit.Demo.C 2 RticSplit.Demo.left
    [.byte 1, .byte 2, .byte 100, .byte 0, .deliver, .handle true true true] = .panic .index :=
  RticSplit.Res.map_eq_panic (f := fun (s : CLeft) => s.heard) (by decide +kernel)

end Verif.EmbSplit
