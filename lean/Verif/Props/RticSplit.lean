import Verif.Spec.RticSplit
import Verif.Props.Split
import Verif.Props.RticRuns

/-!
# C91: the halves of a split keyboard with RTIC
-/

namespace Verif.RticSplit

open Verif.Rtic
open Verif.Board (Queued Entry Cell)
open Verif.Keyboard (Follows start follows_new qinv simq_rep report_same Taken Has Proper HeldOk heldOk_foldl heldOk_start Within input_holds)
open Verif.Split (wire Sendable receive receiveByte)

/-! ## Events -/

section

variable {R Ev Ctx PKS KS : Type} {C : Cfg R Ev Ctx PKS KS} {n : Nat} {indices : List (List (Option Nat))}

theorem Res.map_eq_panic {α β : Type} {f : α → β} {r : Res α} {p : Panic} (h : f <$> r = .panic p) : r = .panic p := by
  cases r with
  | ok a => cases h
  | panic q => cases h; rfl
  | fuel => cases h

theorem spawn_ok {q q' : List Msg} {m : Msg} (h : spawn q m = .ok q') : q' = q ++ [m] := by
  unfold spawn at h
  split at h
  · cases h; rfl
  · cases h

theorem eventsOf_append (xs ys : List Msg) : eventsOf (xs ++ ys) = eventsOf xs ++ eventsOf ys := List.filterMap_append ..

theorem receive_append (buf xs ys : List Byte) :
    receive buf (xs ++ ys) = receive buf xs ++ receive (xs.foldl (fun b x => (receiveByte b x).1) buf) ys := by
  induction xs generalizing buf with
  | nil => rfl
  | cons x xs ih => simp only [List.cons_append, receive, List.foldl_cons, ih]

/-- What the keymap was given, and what it will be. -/
structure Told (rows cols : Nat) (indices : List (List (Option Nat))) (s : Half R Ev Ctx PKS KS) (bytes : List Byte) (mine : List InputEvent) : Prop where
  deb : s.deb = debounced rows cols s.scanned
  own : moves rows cols indices s.scanned = mine ++ (s.todo.getD []).filterMap (keyEvent indices)
  tx : s.tx = mine.flatMap wire
  buf : s.buf = bytes.foldl (fun b x => (receiveByte b x).1) [0, 0, 0, 0]
  merge : Merge mine ((receive [0, 0, 0, 0] bytes).filterMap id) (s.heard ++ eventsOf s.queue)

theorem send_ok {s s' : Half R Ev Ctx PKS KS} {e : InputEvent} (h : s.send e = .ok s') :
    ∃ bytes, Split.serialize e = .ok bytes ∧ s' = { s with tx := s.tx ++ bytes, queue := s.queue ++ [.event e] } := by
  obtain ⟨bytes, h1, h⟩ := Res.bind_eq_ok.1 h
  obtain ⟨q, h2, h⟩ := Res.bind_eq_ok.1 h
  cases h
  rw [spawn_ok h2]
  exact ⟨bytes, h1, rfl⟩

theorem timer_ok {s s' : Half R Ev Ctx PKS KS} {raw : Levels} (h : s.timer raw = .ok s') :
    s' = { s with deb := (s.deb.events raw).1, todo := some (s.deb.events raw).2, scanned := s.scanned ++ [raw] } := by
  obtain ⟨⟨deb, es⟩, h1, h⟩ := Res.bind_eq_ok.1 h
  cases h
  rw [keyboardEvents_ok h1]

theorem Told.step {rows cols : Nat} (h128 : ∀ r c i, KeyAt indices r c i → i < 128) {s s' : Half R Ev Ctx PKS KS} {bytes : List Byte} {mine : List InputEvent} {i : Input}
    (h : Told rows cols indices s bytes mine) (hr : s.step C n indices i = .ok s') : ∃ mine', Told rows cols indices s' (bytes ++ bytesOf [i]) mine' := by
  cases i with
  | timer raw =>
    refine ⟨mine, ?_⟩
    simp only [bytesOf, List.filterMap_cons, List.filterMap_nil, List.append_nil]
    simp only [Half.step] at hr
    split at hr
    · next hc =>
      rw [timer_ok hr]
      have hm := h.own
      rw [hc.1] at hm
      simp only [Option.getD_none, List.filterMap_nil, List.append_nil] at hm
      exact ⟨by simp only; rw [debounced_snoc, h.deb], by simp only [Option.getD_some]; rw [moves_snoc, hm, h.deb], h.tx, h.buf, h.merge⟩
    · cases hr; exact h
  | go =>
    simp only [bytesOf, List.filterMap_cons, List.filterMap_nil, List.append_nil]
    simp only [Half.step] at hr
    split at hr
    · next hq =>
      unfold Half.go at hr
      split at hr
      · cases hr; exact ⟨mine, h⟩
      · next ht =>
        obtain ⟨q, h1, hr⟩ := Res.bind_eq_ok.1 hr
        cases hr
        obtain rfl := spawn_ok h1
        refine ⟨mine, h.deb, ?_, h.tx, h.buf, ?_⟩
        · have := h.own
          rw [ht] at this
          exact this
        · simp only [eventsOf_append]
          have := h.merge
          simpa [eventsOf] using this
      · next e es ht =>
        obtain ⟨ie, h1, hr⟩ := Res.bind_eq_ok.1 hr
        have hm := h.own
        rw [ht] at hm
        simp only [Option.getD_some, List.filterMap_cons] at hm
        rw [keyEvent_of h1] at hm
        cases ie with
        | none =>
          cases hr
          exact ⟨mine, h.deb, hm, h.tx, h.buf, h.merge⟩
        | some ie =>
          obtain ⟨s1, h2, hr⟩ := Res.bind_eq_ok.1 hr
          cases hr
          obtain ⟨bs, k1, rfl⟩ := send_ok h2
          have hs : Sendable ie := by
            have hk := keyEvent_of h1
            cases e with
            | press r c =>
              obtain ⟨i, hi, rfl⟩ := Option.map_eq_some_iff.1 hk
              exact h128 r c i (by simpa [KeyAt, Option.join_eq_some_iff] using hi)
            | release r c =>
              obtain ⟨i, hi, rfl⟩ := Option.map_eq_some_iff.1 hk
              exact h128 r c i (by simpa [KeyAt, Option.join_eq_some_iff] using hi)
          rw [(Split.C41_roundtrip ie hs).1] at k1
          cases k1
          refine ⟨mine ++ [ie], h.deb, ?_, ?_, h.buf, ?_⟩
          · simp only [Option.getD_some]; rw [hm, List.append_assoc]; rfl
          · simp only; rw [h.tx, List.flatMap_append]; simp
          · simp only [eventsOf_append]
            rw [← List.append_assoc]
            exact h.merge.left
    · cases hr; exact ⟨mine, h⟩
  | byte b =>
    refine ⟨mine, ?_⟩
    have hb : bytesOf [Input.byte b] = [b] := rfl
    rw [hb]
    simp only [Half.step] at hr
    unfold Half.rx at hr
    have hrc : (receive [0, 0, 0, 0] (bytes ++ [b])).filterMap id = (receive [0, 0, 0, 0] bytes).filterMap id ++ ((receiveByte s.buf b).2).toList := by
      rw [receive_append, List.filterMap_append, ← h.buf]
      simp only [receive]
      cases (receiveByte s.buf b).2 <;> rfl
    have hbf : (receiveByte s.buf b).1 = (bytes ++ [b]).foldl (fun b x => (receiveByte b x).1) [0, 0, 0, 0] := by
      rw [List.foldl_append, ← h.buf]; rfl
    generalize receiveByte s.buf b = p at *
    obtain ⟨buf, o⟩ := p
    simp only at *
    cases o with
    | none =>
      cases hr
      refine ⟨h.deb, h.own, h.tx, hbf, ?_⟩
      rw [hrc]
      simpa using h.merge
    | some e =>
      obtain ⟨q, h1, hr⟩ := Res.bind_eq_ok.1 hr
      cases hr
      obtain rfl := spawn_ok h1
      refine ⟨h.deb, h.own, h.tx, hbf, ?_⟩
      rw [hrc]
      simp only [eventsOf_append]
      rw [← List.append_assoc]
      exact h.merge.right
  | layout a b c d =>
    refine ⟨mine, ?_⟩
    simp only [bytesOf, List.filterMap_cons, List.filterMap_nil, List.append_nil]
    simp only [Half.step] at hr
    unfold Half.layout at hr
    split at hr
    · cases hr; exact h
    · next e q hq =>
      obtain ⟨b', h1, hr⟩ := Res.bind_eq_ok.1 hr
      cases hr
      refine ⟨h.deb, h.own, h.tx, h.buf, ?_⟩
      have := h.merge
      rw [hq] at this
      simpa [eventsOf] using this
    · next q hq =>
      obtain ⟨core, h1, hr⟩ := Res.bind_eq_ok.1 hr
      have hd : core.deb = s.deb := by
        unfold advance at h1
        split at h1
        · obtain ⟨⟨b', ch⟩, _, h1⟩ := Res.bind_eq_ok.1 h1
          cases h1; rfl
        · cases h1; rfl
      have hm := h.merge
      rw [hq] at hm
      have hm' : Merge mine ((receive [0, 0, 0, 0] bytes).filterMap id) (s.heard ++ eventsOf q) := by simpa [eventsOf] using hm
      simp only at hr
      split at hr
      · obtain ⟨b', h2, hr⟩ := Res.bind_eq_ok.1 hr
        cases hr
        obtain ⟨codes, cs, prev, consumers, w1, w2, w3, w4, rfl⟩ := write_ok h2
        exact ⟨hd.trans h.deb, h.own, h.tx, h.buf, hm'⟩
      · cases hr
        exact ⟨hd.trans h.deb, h.own, h.tx, h.buf, hm'⟩

theorem Told.new (rows cols : Nat) (km : KM R Ev Ctx PKS KS) : Told rows cols indices (Half.new rows cols km) [] [] :=
  ⟨rfl, rfl, rfl, rfl, .nil⟩

theorem bytesOf_cons (i : Input) (is : List Input) : bytesOf (i :: is) = bytesOf [i] ++ bytesOf is := by
  rw [bytesOf, bytesOf, bytesOf, ← List.filterMap_append]; rfl

theorem Told.run {rows cols : Nat} (h128 : ∀ r c i, KeyAt indices r c i → i < 128) {is : List Input} : ∀ {s s' : Half R Ev Ctx PKS KS} {bytes : List Byte} {mine : List InputEvent},
    Told rows cols indices s bytes mine → s.run C n indices is = .ok s' → ∃ mine', Told rows cols indices s' (bytes ++ bytesOf is) mine' := by
  induction is with
  | nil => intro s s' bytes mine h hr; cases hr; exact ⟨mine, by simpa [bytesOf] using h⟩
  | cons i is ih =>
    intro s s' bytes mine h hr
    obtain ⟨s1, g1, g2⟩ := Res.bind_eq_ok.1 hr
    obtain ⟨m1, h1⟩ := h.step h128 g1
    obtain ⟨m2, h2⟩ := ih h1 g2
    exact ⟨m2, by rw [bytesOf_cons, ← List.append_assoc]; exact h2⟩

/-- C91. Whatever happens, the keymap is given the key events of the switches of its own half, in their order, and the key events that arrive from the other half, in
theirs; and of its own it has sent exactly those it has given, or will give, to its own keymap. -/
theorem C91_events {rows cols : Nat} (h128 : ∀ r c i, KeyAt indices r c i → i < 128) {km : KM R Ev Ctx PKS KS} {is : List Input} {s : Half R Ev Ctx PKS KS}
    (hr : (Half.new rows cols km).run C n indices is = .ok s) :
    ∃ mine, moves rows cols indices s.scanned = mine ++ (s.todo.getD []).filterMap (keyEvent indices) ∧ s.tx = mine.flatMap wire ∧
      Merge mine ((receive [0, 0, 0, 0] (bytesOf is)).filterMap id) (s.heard ++ eventsOf s.queue) := by
  obtain ⟨mine, h⟩ := (Told.new rows cols km).run h128 hr
  rw [List.nil_append] at h
  exact ⟨mine, h.own, h.tx, h.merge⟩

/-- What arrives of the bytes of some events are the first of these events. -/
theorem received_prefix {es : List InputEvent} (hs : ∀ e ∈ es, Sendable e) {bytes : List Byte} (h : bytes <+: es.flatMap wire) :
    (receive [0, 0, 0, 0] bytes).filterMap id <+: es := by
  obtain ⟨rest, hr⟩ := h
  have h1 := Split.C42_exact [0, 0, 0, 0] (.inl rfl) es hs
  rw [← hr, receive_append] at h1
  have h2 : (es.flatMap fun e => [none, none, none, some e]).filterMap id = es := by
    clear h1 hr hs
    induction es with
    | nil => rfl
    | cons e es ih => simp only [List.flatMap_cons, List.filterMap_append, ih]; rfl
  refine ⟨(receive (bytes.foldl (fun b x => (receiveByte b x).1) [0, 0, 0, 0]) rest).filterMap id, ?_⟩
  rw [← List.filterMap_append, h1, h2]

theorem received_all {es : List InputEvent} (hs : ∀ e ∈ es, Sendable e) : (receive [0, 0, 0, 0] (es.flatMap wire)).filterMap id = es := by
  rw [Split.C42_exact [0, 0, 0, 0] (.inl rfl) es hs]
  clear hs
  induction es with
  | nil => rfl
  | cons e es ih => simp only [List.flatMap_cons, List.filterMap_append, ih]; rfl

theorem moves_sendable {rows cols : Nat} (h128 : ∀ r c i, KeyAt indices r c i → i < 128) (raws : List Levels) : ∀ e ∈ moves rows cols indices raws, Sendable e := by
  intro e he
  obtain ⟨x, _, hx⟩ := List.mem_filterMap.1 he
  cases x with
  | press r c =>
    obtain ⟨i, hi, rfl⟩ := Option.map_eq_some_iff.1 hx
    exact h128 r c i (by simpa [KeyAt, Option.join_eq_some_iff] using hi)
  | release r c =>
    obtain ⟨i, hi, rfl⟩ := Option.map_eq_some_iff.1 hx
    exact h128 r c i (by simpa [KeyAt, Option.join_eq_some_iff] using hi)

/-- C91. Two halves: what a half has received are the first of the bytes that the other has sent. Then its keymap has been given, or will be, the key events of its
own switches in their order and the first of the key events of the switches of the other half in theirs, and no others. -/
theorem C91_halves {R' Ev' Ctx' PKS' KS' : Type} {C' : Cfg R' Ev' Ctx' PKS' KS'} {n' : Nat} {indices' : List (List (Option Nat))} {rows cols rows' cols' : Nat}
    (h128 : ∀ r c i, KeyAt indices r c i → i < 128) (h128' : ∀ r c i, KeyAt indices' r c i → i < 128)
    {km : KM R Ev Ctx PKS KS} {is : List Input} {s : Half R Ev Ctx PKS KS} (hr : (Half.new rows cols km).run C n indices is = .ok s)
    {km' : KM R' Ev' Ctx' PKS' KS'} {is' : List Input} {s' : Half R' Ev' Ctx' PKS' KS'} (hr' : (Half.new rows' cols' km').run C' n' indices' is' = .ok s')
    (hb : bytesOf is <+: s'.tx) :
    ∃ mine theirs, mine <+: moves rows cols indices s.scanned ∧ theirs <+: moves rows' cols' indices' s'.scanned ∧ Merge mine theirs (s.heard ++ eventsOf s.queue) := by
  obtain ⟨mine, a1, _, a3⟩ := C91_events h128 hr
  obtain ⟨mine', b1, b2, _⟩ := C91_events h128' hr'
  rw [b2] at hb
  have hs : ∀ e ∈ mine', Sendable e := fun e he => moves_sendable (rows := rows') (cols := cols') h128' s'.scanned e (by rw [b1]; simp [he])
  exact ⟨mine, _, ⟨_, a1.symm⟩, (received_prefix hs hb).trans ⟨_, b1.symm⟩, a3⟩

/-- C91. When all that was sent has arrived and nothing is left to do: the keymap has been given all the key events of both halves. -/
theorem C91_all {R' Ev' Ctx' PKS' KS' : Type} {C' : Cfg R' Ev' Ctx' PKS' KS'} {n' : Nat} {indices' : List (List (Option Nat))} {rows cols rows' cols' : Nat}
    (h128 : ∀ r c i, KeyAt indices r c i → i < 128) (h128' : ∀ r c i, KeyAt indices' r c i → i < 128)
    {km : KM R Ev Ctx PKS KS} {is : List Input} {s : Half R Ev Ctx PKS KS} (hr : (Half.new rows cols km).run C n indices is = .ok s)
    {km' : KM R' Ev' Ctx' PKS' KS'} {is' : List Input} {s' : Half R' Ev' Ctx' PKS' KS'} (hr' : (Half.new rows' cols' km').run C' n' indices' is' = .ok s')
    (hb : bytesOf is = s'.tx) (ht : s.todo = none) (hq : s.queue = []) (ht' : s'.todo = none) :
    Merge (moves rows cols indices s.scanned) (moves rows' cols' indices' s'.scanned) s.heard := by
  obtain ⟨mine, a1, _, a3⟩ := C91_events h128 hr
  obtain ⟨mine', b1, b2, _⟩ := C91_events h128' hr'
  rw [ht] at a1
  rw [ht'] at b1
  simp only [Option.getD_none, List.filterMap_nil, List.append_nil] at a1 b1
  have hs : ∀ e ∈ mine', Sendable e := fun e he => moves_sendable (rows := rows') (cols := cols') h128' s'.scanned e (by rw [b1]; exact he)
  rw [hq, hb, b2, received_all hs] at a3
  rw [a1, b1]
  simpa [eventsOf] using a3

end

/-! ## Held keys -/

theorem Merge.symm {α : Type} {xs ys zs : List α} (h : Merge xs ys zs) : Merge ys xs zs := by
  induction h with
  | nil => exact .nil
  | left _ ih => exact ih.right
  | right _ ih => exact ih.left

/-- The event is of key `i`. -/
def About (i : Nat) (e : InputEvent) : Prop := e = .press i ∨ e = .release i

theorem input_about {layout : List Entry} {e : InputEvent} (hw : Within layout.length e) (i : Nat) :
    (∃ v : Bool, ∀ b : Board.State, (b.input layout e).holds i = v) ∧ About i e ∨ (∀ b : Board.State, (b.input layout e).holds i = b.holds i) ∧ ¬ About i e := by
  obtain ⟨j, hj, he⟩ := hw
  by_cases hji : i = j
  · subst hji
    refine .inl ⟨?_, he⟩
    rcases he with rfl | rfl
    · exact ⟨true, fun b => by have := input_holds b hj true i; rw [if_pos rfl] at this; exact this⟩
    · exact ⟨false, fun b => by have := input_holds b hj false i; rw [if_pos rfl] at this; exact this⟩
  · refine .inr ⟨?_, ?_⟩
    · rcases he with rfl | rfl
      · exact fun b => by have := input_holds b hj true i; rw [if_neg hji] at this; exact this
      · exact fun b => by have := input_holds b hj false i; rw [if_neg hji] at this; exact this
    · rcases he with rfl | rfl <;> rintro (h | h) <;> cases h <;> exact hji rfl

theorem Merge.holds {layout : List Entry} {xs ys zs : List InputEvent} (h : Merge xs ys zs) (b : Board.State) {i : Nat} : (∀ e ∈ xs, Within layout.length e) →
    (∀ e ∈ ys, Within layout.length e) → (∀ e ∈ ys, ¬ About i e) →
    (zs.foldl (Board.State.input layout) b).holds i = (xs.foldl (Board.State.input layout) b).holds i := by
  induction h with
  | nil => intros; rfl
  | @left xs ys zs x _ ih =>
    intro h1 h2 h3
    have ih := ih (fun e he => h1 e (by simp [he])) h2 h3
    simp only [List.foldl_append, List.foldl_cons, List.foldl_nil]
    rcases input_about (layout := layout) (h1 x (by simp)) i with ⟨⟨v, hv⟩, _⟩ | ⟨hv, _⟩
    · rw [hv, hv]
    · rw [hv, hv, ih]
  | @right xs ys zs y _ ih =>
    intro h1 h2 h3
    have ih := ih h1 (fun e he => h2 e (by simp [he])) (fun e he => h3 e (by simp [he]))
    simp only [List.foldl_append, List.foldl_cons, List.foldl_nil]
    rcases input_about (layout := layout) (h2 y (by simp)) i with ⟨_, ha⟩ | ⟨hv, _⟩
    · exact absurd ha (h3 y (by simp))
    · rw [hv, ih]

theorem moves_about {rows cols : Nat} {indices : List (List (Option Nat))} {raws : List Levels} {e : InputEvent} {i : Nat} (he : e ∈ moves rows cols indices raws)
    (ha : About i e) : ∃ r c, KeyAt indices r c i := by
  obtain ⟨x, _, hx⟩ := List.mem_filterMap.1 he
  cases x with
  | press r c =>
    obtain ⟨j, hj, rfl⟩ := Option.map_eq_some_iff.1 hx
    rcases ha with h | h <;> cases h
    exact ⟨r, c, by simpa [KeyAt, Option.join_eq_some_iff] using hj⟩
  | release r c =>
    obtain ⟨j, hj, rfl⟩ := Option.map_eq_some_iff.1 hx
    rcases ha with h | h <;> cases h
    exact ⟨r, c, by simpa [KeyAt, Option.join_eq_some_iff] using hj⟩

/-- The keys of two halves are different keys. -/
def Apart (indices indices' : List (List (Option Nat))) : Prop := ∀ r c r' c' i, KeyAt indices r c i → ¬ KeyAt indices' r' c' i

theorem merge_held {layout : List Entry} {rows cols rows' cols' : Nat} {indices indices' : List (List (Option Nat))} (hl : Laid rows cols layout.length indices)
    (hl' : Laid rows' cols' layout.length indices') (ha : Apart indices indices') (c : Comp.Config) {raws raws' : List Levels} (hs : ∀ m ∈ raws, Size rows cols m)
    (hs' : ∀ m ∈ raws', Size rows' cols' m) {zs : List InputEvent} (h : Merge (moves rows cols indices raws) (moves rows' cols' indices' raws') zs) (i : Nat) :
    (zs.foldl (Board.State.input layout) (start c)).holds i = true ↔
      Closed indices (stable (allOpen rows cols) raws.reverse) i ∨ Closed indices' (stable (allOpen rows' cols') raws'.reverse) i := by
  have w1 := moves_within hl raws
  have w2 := moves_within hl' raws'
  have m1 := held_moves hl c _ raws rfl hs i
  have m2 := held_moves hl' c _ raws' rfl hs' i
  by_cases hk : ∃ r c, KeyAt indices r c i
  · obtain ⟨r, cc, hk⟩ := hk
    rw [h.holds (start c) w1 w2 (fun e he hab => by obtain ⟨r', c', hk'⟩ := moves_about he hab; exact ha _ _ _ _ _ hk hk'), m1]
    exact ⟨.inl, fun hx => hx.elim id fun ⟨r', c', hk', _⟩ => absurd hk' (ha _ _ _ _ _ hk)⟩
  · rw [h.symm.holds (start c) w2 w1 (fun e he hab => hk (moves_about he hab)), m2]
    exact ⟨.inr, fun hx => hx.elim (fun ⟨r', c', hk', _⟩ => absurd ⟨r', c', hk'⟩ hk) id⟩

/-! ## The reports -/

abbrev CHalf := Half Comp.Ref Comp.Ev Comp.Ctx Comp.PKS Comp.KS

/-- A half at power on. -/
abbrev fresh (rows cols : Nat) (c : Comp.Config) : CHalf := Half.new rows cols (KM.new (Comp.Ctx.fromConfig c))

section

variable {R Ev Ctx PKS KS : Type} {C : Cfg R Ev Ctx PKS KS} {n : Nat} {indices : List (List (Option Nat))}

/-- What a step does to the keymap and to the reports. -/
inductive Effect (C : Cfg R Ev Ctx PKS KS) (n : Nat) (s s' : Half R Ev Ctx PKS KS) : Input → Prop where
  | none {i : Input} (h1 : s'.backend = s.backend) (h2 : s'.success = s.success) (h3 : s'.made = s.made) (h4 : s'.sent = s.sent) (h5 : s'.heard = s.heard) : Effect C n s s' i
  | event {a : Bool} {k c d : Answer} {e : InputEvent} {q : List Msg} (h0 : s.queue = .event e :: q) (h1 : s.backend.event C n e = .ok s'.backend)
      (h2 : s'.success = s.success) (h3 : s'.made = s.made) (h4 : s'.sent = s.sent) (h5 : s'.heard = s.heard ++ [e]) : Effect C n s s' (.layout a k c d)
  | report {k c d : Answer} {core : Core R Ev Ctx PKS KS} {codes : List Byte} {q : List Msg} (h0 : s.queue = .tick :: q) (h1 : advance C n s.toCore = .ok core)
      (h2 : s'.success = (k != .wouldBlock)) (h3 : s'.made = core.made) (h4 : core.backend.out.pressedKeyCodes = .ok codes)
      (h5 : s'.sent = if k = .ok then s.sent ++ [codes] else s.sent) (h6 : s'.heard = s.heard) (h7 : s'.backend = core.backend) (h8 : k ≠ .error) : Effect C n s s' (.layout true k c d)
  | idle {k c d : Answer} {core : Core R Ev Ctx PKS KS} (h1 : advance C n s.toCore = .ok core)
      (h2 : s'.success = s.success) (h3 : s'.made = core.made) (h4 : s'.sent = s.sent) (h5 : s'.heard = s.heard) (h6 : s'.backend = core.backend) : Effect C n s s' (.layout false k c d)

theorem effect {s s' : Half R Ev Ctx PKS KS} {i : Input} (hr : s.step C n indices i = .ok s') : Effect C n s s' i := by
  cases i with
  | timer raw =>
    simp only [Half.step] at hr
    split at hr
    · rw [timer_ok hr]; exact .none rfl rfl rfl rfl rfl
    · cases hr; exact .none rfl rfl rfl rfl rfl
  | go =>
    simp only [Half.step] at hr
    split at hr
    · unfold Half.go at hr
      split at hr
      · cases hr; exact .none rfl rfl rfl rfl rfl
      · obtain ⟨q, h1, hr⟩ := Res.bind_eq_ok.1 hr
        cases hr; exact .none rfl rfl rfl rfl rfl
      · obtain ⟨ie, h1, hr⟩ := Res.bind_eq_ok.1 hr
        cases ie with
        | none => cases hr; exact .none rfl rfl rfl rfl rfl
        | some ie =>
          obtain ⟨s1, h2, hr⟩ := Res.bind_eq_ok.1 hr
          cases hr
          obtain ⟨bs, k1, rfl⟩ := send_ok h2
          exact .none rfl rfl rfl rfl rfl
    · cases hr; exact .none rfl rfl rfl rfl rfl
  | byte b =>
    simp only [Half.step] at hr
    unfold Half.rx at hr
    split at hr
    · cases hr; exact .none rfl rfl rfl rfl rfl
    · obtain ⟨q, h1, hr⟩ := Res.bind_eq_ok.1 hr
      cases hr; exact .none rfl rfl rfl rfl rfl
  | layout a k c d =>
    simp only [Half.step] at hr
    unfold Half.layout at hr
    split at hr
    · cases hr; exact .none rfl rfl rfl rfl rfl
    · next e q hq =>
      obtain ⟨b', h1, hr⟩ := Res.bind_eq_ok.1 hr
      cases hr
      exact .event hq h1 rfl rfl rfl rfl
    · next q hq =>
      obtain ⟨core, h1, hr⟩ := Res.bind_eq_ok.1 hr
      have hs : core.success = s.success := by
        unfold advance at h1
        split at h1
        · obtain ⟨⟨b', ch⟩, _, h1⟩ := Res.bind_eq_ok.1 h1
          cases h1; rfl
        · cases h1; rfl
      simp only at hr
      cases a with
      | true =>
        obtain ⟨b', h2, hr⟩ := Res.bind_eq_ok.1 hr
        cases hr
        obtain ⟨codes, cs, prev, consumers, w1, w2, w3, w4, rfl⟩ := write_ok h2
        exact .report hq h1 rfl rfl w1 rfl rfl rfl w3
      | false =>
        cases hr
        exact .idle h1 hs rfl rfl rfl rfl

theorem heard_prefix {is : List Input} : ∀ {s s' : Half R Ev Ctx PKS KS}, s.run C n indices is = .ok s' → s.heard <+: s'.heard := by
  induction is with
  | nil => intro s s' h; cases h; exact List.prefix_refl _
  | cons i is ih =>
    intro s s' h
    obtain ⟨s1, g1, g2⟩ := Res.bind_eq_ok.1 h
    refine .trans ?_ (ih g2)
    cases effect g1 with
    | none _ _ _ _ h' => rw [h']; exact List.prefix_refl _
    | event _ _ _ _ _ h' => rw [h']; exact List.prefix_append _ _
    | report _ _ _ _ _ _ h' => rw [h']; exact List.prefix_refl _
    | idle _ _ _ _ h' => rw [h']; exact List.prefix_refl _

theorem run_split {s s2 : Half R Ev Ctx PKS KS} {xs ys : List Input}
    (h : s.run C n indices (xs ++ ys) = .ok s2) : ∃ s1, s.run C n indices xs = .ok s1 ∧ s1.run C n indices ys = .ok s2 := by
  induction xs generalizing s with
  | nil => exact ⟨s, rfl, h⟩
  | cons x xs ih =>
    obtain ⟨d', g1, g2⟩ := Res.bind_eq_ok.1 h
    obtain ⟨s1, k1, k2⟩ := ih g2
    exact ⟨s1, Res.bind_eq_ok.2 ⟨d', g1, k1⟩, k2⟩

theorem roomy_append {s s1 : Half R Ev Ctx PKS KS} {xs ys : List Input}
    (h1 : s.run C n indices xs = .ok s1) (h : Roomy C n indices s (xs ++ ys)) : Roomy C n indices s xs ∧ Roomy C n indices s1 ys := by
  induction xs generalizing s with
  | nil => cases h1; exact ⟨trivial, h⟩
  | cons e es ih =>
    obtain ⟨d', g1, g2⟩ := Res.bind_eq_ok.1 h1
    refine ⟨⟨h.1, fun d'' hd => ?_⟩, (ih g2 (h.2 d' g1)).2⟩
    rw [g1] at hd; cases hd
    exact (ih g2 (h.2 d' g1)).1

theorem lawful_append {Rep : Type} {make : List Byte → Rep} {s s1 : Half R Ev Ctx PKS KS} {xs ys : List Input}
    (h1 : s.run C n indices xs = .ok s1) (h : Lawful C n indices make s (xs ++ ys)) : Lawful C n indices make s1 ys := by
  induction xs generalizing s with
  | nil => cases h1; exact h
  | cons e es ih =>
    obtain ⟨d', g1, g2⟩ := Res.bind_eq_ok.1 h1
    exact ih g2 (h.2 d' g1)

end

section

variable {K : Comp.Keys} {refs : List Comp.Ref} {S : Search} {layout : List Entry} {n : Nat} {indices : List (List (Option Nat))}

/-- The keymap at the message `Tick`. -/
theorem follows_advance {c : Comp.Config} (hp : Comp.Plain K refs c layout) {s s' : CCore} {t : Nat} {q : Queued} {evs : List InputEvent}
    (h : Follows K layout c.layerCount (start c) s.backend.km t q evs) (ht : t + 1 < u32Size) (hr : advance ⟨Comp.system K, refs, S⟩ (n + 2) s = .ok s') :
    ∃ t' q', t' ≤ t + 1 ∧ Follows K layout c.layerCount (start c) s'.backend.km t' q' evs ∧
      ((s.success = true ∧ q.tick layout = some q' ∧ s'.backend.km.rep = (s.backend.km.rep.report q'.board.outputs).1 ∧
          s'.backend.out = (s.backend.km.rep.report q'.board.outputs).2 ∧ s'.made = s.made ++ [s'.backend.out]) ∨
        (s.success = false ∧ q' = q ∧ s' = s)) := by
  unfold advance at hr
  split at hr
  · next a1 =>
    obtain ⟨⟨b', ch⟩, a2, hr⟩ := Res.bind_eq_ok.1 hr
    cases hr
    obtain ⟨km1, os, b1, b2, b3, b4⟩ := backendTick_ok a2
    have key := h.sim.tick (S := S) (n := n) hp.layoutEq hp.fits hp.size ht
    cases hm : q.tick layout with
    | none =>
      obtain ⟨p, hp'⟩ := key.2 hm
      rw [b1] at hp'; cases hp'
    | some q' =>
      obtain ⟨km2, j1, j2⟩ := key.1 q' hm
      rw [b1] at j1; cases j1
      have hos : km1.pressedKeys ⟨Comp.system K, refs, S⟩ = .ok q'.board.outputs := Comp.pressedOutputs_held j2.sim.held
      rw [b2] at hos; cases hos
      have hrep := (tick_clock (qinv h.sim) b1).2.2.2.1
      obtain ⟨t1, t2, t3, t4, t5⟩ := h.taken.tick h.delay hm
      refine ⟨t + 1, q', Nat.le_refl _, ⟨?_, t1, ?_, by omega, ?_⟩, .inl ⟨a1, rfl, ?_, ?_, rfl⟩⟩
      · show Comp.SimQ _ _ _ b'.km _
        rw [b3]; exact simq_rep j2 _
      · have := h.room; omega
      · show 1 ≤ b'.km.rep.num
        rw [b3]; simp only; rw [hrep]
        exact Reporter.reportSent_pos _ (Reporter.update_pos _ _ h.rep)
      · show b'.km.rep = _
        rw [b3]; simp only; rw [hrep]
      · show b'.out = _
        rw [b4, hrep]
  · next a1 =>
    cases hr
    exact ⟨t, q, by omega, h, .inr ⟨by simpa using a1, rfl, rfl⟩⟩

/-- What comes from the other half and from the switches are key events. -/
def Physical (s : CHalf) : Prop := ∀ e, .event e ∈ s.queue → Comp.isPhysical e = true

theorem Physical.step {s s' : CHalf} {i : Input} (h : Physical s) (hr : s.step ⟨Comp.system K, refs, S⟩ (n + 2) indices i = .ok s') : Physical s' := by
  have hsnoc : ∀ {m : Msg}, (∀ e, m = .event e → Comp.isPhysical e = true) → ∀ e, .event e ∈ s.queue ++ [m] → Comp.isPhysical e = true := by
    intro m hm e he
    rcases List.mem_append.1 he with he | he
    · exact h e he
    · exact hm e (List.mem_singleton.1 he).symm
  cases i with
  | timer raw =>
    simp only [Half.step] at hr
    split at hr
    · rw [timer_ok hr]; exact h
    · cases hr; exact h
  | go =>
    simp only [Half.step] at hr
    split at hr
    · unfold Half.go at hr
      split at hr
      · cases hr; exact h
      · obtain ⟨q, h1, hr⟩ := Res.bind_eq_ok.1 hr
        cases hr
        obtain rfl := spawn_ok h1
        exact hsnoc (by intro e he; cases he)
      · obtain ⟨ie, h1, hr⟩ := Res.bind_eq_ok.1 hr
        cases ie with
        | none => cases hr; exact h
        | some ie =>
          obtain ⟨s1, h2, hr⟩ := Res.bind_eq_ok.1 hr
          cases hr
          obtain ⟨bs, k1, rfl⟩ := send_ok h2
          exact hsnoc (by intro e he; cases he; exact keyEvent_physical (keyEvent_of h1))
    · cases hr; exact h
  | byte b =>
    simp only [Half.step] at hr
    unfold Half.rx at hr
    split at hr
    · cases hr; exact h
    · next buf e hb =>
      obtain ⟨q, h1, hr⟩ := Res.bind_eq_ok.1 hr
      cases hr
      obtain rfl := spawn_ok h1
      refine hsnoc (by
        intro e' he; cases he
        have : Split.deserialize buf = some e := by
          have e1 := congrArg Prod.fst hb
          have e2 := congrArg Prod.snd hb
          simp only [receiveByte] at e1 e2
          rw [← e1]; exact e2
        have := Split.deserialize_physical this
        cases e with
        | press _ => rfl
        | release _ => rfl
        | vpress _ => exact this.elim
        | vrelease _ => exact this.elim)
  | layout a k c d =>
    simp only [Half.step] at hr
    unfold Half.layout at hr
    split at hr
    · cases hr; exact h
    · next e q hq =>
      obtain ⟨b', h1, hr⟩ := Res.bind_eq_ok.1 hr
      cases hr
      exact fun e' he => h e' (by rw [hq]; simp only at he; simp [he])
    · next q hq =>
      obtain ⟨core, h1, hr⟩ := Res.bind_eq_ok.1 hr
      simp only at hr
      have hq' : ∀ e', .event e' ∈ q → Comp.isPhysical e' = true := fun e' he => h e' (by rw [hq]; simp [he])
      split at hr
      · obtain ⟨b', h2, hr⟩ := Res.bind_eq_ok.1 hr
        cases hr; exact hq'
      · cases hr; exact hq'

/-- A step, and the board. -/
theorem follows_step {c : Comp.Config} (hp : Comp.Plain K refs c layout) {s s' : CHalf} {t : Nat} {q : Queued} {i : Input} (hph : Physical s)
    (h : Follows K layout c.layerCount (start c) s.backend.km t q s.heard) (ht : t + 1 < u32Size)
    (hro : (∃ a b c d, i = .layout a b c d) → (∃ e q, s.queue = .event e :: q) → s.backend.km.inq.length < 31)
    (hr : s.step ⟨Comp.system K, refs, S⟩ (n + 2) indices i = .ok s') :
    ∃ t' q', t' ≤ t + 1 ∧ Follows K layout c.layerCount (start c) s'.backend.km t' q' s'.heard := by
  cases effect hr with
  | none h1 _ _ _ h5 => exact ⟨t, q, by omega, by rw [h1, h5]; exact h⟩
  | @event _ _ _ _ e q0 h0 h1 _ _ _ h5 =>
    obtain ⟨km, g1, g2⟩ := Res.bind_eq_ok.1 h1
    have hlt := hro ⟨_, _, _, _, rfl⟩ ⟨_, _, h0⟩
    have hq31 : q.queue.length + [e].length ≤ 31 := by
      have := h.sim.inq
      rw [this] at hlt
      simp only [List.length_singleton]; omega
    obtain ⟨q', f1, _, _⟩ := h.register (S := S) (n := n) (es := [e]) hp
      (fun x hx => by rw [List.mem_singleton.1 hx]; exact hph e (by rw [h0]; simp)) hq31 (km' := km) (Res.bind_eq_ok.2 ⟨km, g1, rfl⟩)
    refine ⟨t, q', by omega, ?_⟩
    rw [h5, ← Res.ok.inj g2]
    exact f1
  | report h0 h1 _ _ _ _ h6 h7 _ =>
    obtain ⟨t', q', a1, a2, _⟩ := follows_advance hp h ht h1
    exact ⟨t', q', a1, by rw [h6, h7]; exact a2⟩
  | idle h1 _ _ _ h5 h6 =>
    obtain ⟨t', q', a1, a2, _⟩ := follows_advance hp h ht h1
    exact ⟨t', q', a1, by rw [h5, h6]; exact a2⟩

theorem follows_run {c : Comp.Config} (hp : Comp.Plain K refs c layout) {is : List Input} : ∀ {s s' : CHalf} {t : Nat} {q : Queued}, Physical s →
    Follows K layout c.layerCount (start c) s.backend.km t q s.heard → t + is.length < u32Size → Roomy ⟨Comp.system K, refs, S⟩ (n + 2) indices s is →
    s.run ⟨Comp.system K, refs, S⟩ (n + 2) indices is = .ok s' →
    ∃ t' q', t' ≤ t + is.length ∧ Physical s' ∧ Follows K layout c.layerCount (start c) s'.backend.km t' q' s'.heard := by
  induction is with
  | nil => intro s s' t q hph h _ _ hr; cases hr; exact ⟨t, q, Nat.le_refl _, hph, h⟩
  | cons i is ih =>
    intro s s' t q hph h ht hro hr
    simp only [List.length_cons] at ht ⊢
    obtain ⟨s1, g1, g2⟩ := Res.bind_eq_ok.1 hr
    obtain ⟨t1, q1, f1, f2⟩ := follows_step hp hph h (by omega) hro.1 g1
    obtain ⟨t', q', k1, k2, k3⟩ := ih (hph.step g1) f2 (by omega) (hro.2 s1 g1) g2
    exact ⟨t', q', by omega, k2, k3⟩

/-- After `k` ticks of the keymap in which no key event came and the keyboard reports did not wait. -/
structure Stage {Rep : Type} (make : List Byte → Rep) (K : Comp.Keys) (layout : List Entry) (c : Comp.Config) (k : Nat) (s : CHalf) (t : Nat) (q : Queued) : Prop where
  physical : Physical s
  follows : Follows K layout c.layerCount (start c) s.backend.km t q s.heard
  success : 1 ≤ k → s.success = true
  delay : 1 ≤ k → q.delay = 0
  queue : 1 ≤ k → q.queue.length ≤ 32 - k
  rep : 33 ≤ k → s.backend.km.rep.outputs = q.board.outputs ∧ min q.board.outputs.length (k - 32) ≤ s.backend.km.rep.num
  out : 1 ≤ k → s.backend.out = s.backend.km.rep.reportable
  sent : 1 ≤ k → ∃ codes, s.backend.out.pressedKeyCodes = .ok codes ∧ s.sent.getLast?.map make = some (make codes)

theorem Stage.run {Rep : Type} {make : List Byte → Rep} {c : Comp.Config} (hp : Comp.Plain K refs c layout) {is : List Input} : ∀ {k : Nat} {s s' : CHalf} {t : Nat} {q : Queued},
    Stage make K layout c k s t q → t + is.length < u32Size → (∀ a b c d, .layout a b c d ∈ is → a = true ∧ b ≠ .wouldBlock) →
    Lawful ⟨Comp.system K, refs, S⟩ (n + 2) indices make s is →
    s.run ⟨Comp.system K, refs, S⟩ (n + 2) indices is = .ok s' → s'.heard = s.heard →
    ∃ k' t' q', k + s'.made.length = k' + s.made.length ∧ Stage make K layout c k' s' t' q' := by
  induction is with
  | nil => intro k s s' t q h _ _ _ hr _; cases hr; exact ⟨k, t, q, by omega, h⟩
  | cons i is ih =>
    intro k s s' t q h ht hl hlaw hr hh
    simp only [List.length_cons] at ht
    obtain ⟨s1, g1, g2⟩ := Res.bind_eq_ok.1 hr
    have hh1 : s1.heard = s.heard := by
      have p1 : s.heard <+: s1.heard := heard_prefix (is := [i]) (Res.bind_eq_ok.2 ⟨s1, g1, rfl⟩)
      have p2 := heard_prefix g2
      rw [hh] at p2
      exact (p2.eq_of_length (Nat.le_antisymm p2.length_le p1.length_le))
    have hnext : ∃ k1 t1 q1, t1 ≤ t + 1 ∧ k + s1.made.length = k1 + s.made.length ∧ Stage make K layout c k1 s1 t1 q1 := by
      have hphys := h.physical.step g1
      cases effect g1 with
      | none h1 h2 h3 h4 h5 =>
        refine ⟨k, t, q, by omega, by rw [h3], hphys, by rw [h1, h5]; exact h.follows, fun hk => by rw [h2]; exact h.success hk, h.delay, h.queue, ?_, ?_, ?_⟩
        · rw [h1]; exact h.rep
        · rw [h1]; exact h.out
        · rw [h1, h4]; exact h.sent
      | event _ _ _ _ _ h5 =>
        rw [hh1] at h5
        have := congrArg List.length h5
        simp at this
      | @report b _ _ core codes q0 h0 h1 h2 h3 h4 h5 h6 h7 h8 =>
        obtain ⟨_, hw⟩ := hl _ _ _ _ (List.mem_cons_self ..)
        obtain ⟨t1, q1, a1, a2, a3⟩ := follows_advance hp h.follows (by omega) h1
        have hsucc : s1.success = true := by rw [h2]; simpa using hw
        have hsent : ∃ codes, s1.backend.out.pressedKeyCodes = .ok codes ∧ s1.sent.getLast?.map make = some (make codes) := by
          refine ⟨codes, by rw [h7]; exact h4, ?_⟩
          rw [h5]
          cases b with
          | ok => simp
          | duplicate => rw [if_neg (by simp)]; exact hlaw.1 ⟨_, _, rfl⟩ ⟨_, h0⟩ core codes h1 h4
          | wouldBlock => exact absurd rfl hw
          | error => exact absurd rfl h8
        rcases a3 with ⟨b1, b2, b3, b4, b5⟩ | ⟨b1, b2, b3⟩
        · have hq := Taken.tick (b := q.board) (evs := q.queue) ⟨[], rfl, rfl⟩ h.follows.delay b2
          obtain ⟨p1, p2, p3, p4⟩ := report_same s.backend.km.rep h.follows.rep q1.board.outputs
          refine ⟨k + 1, t1, q1, a1, by rw [h3, b5]; simp; omega, hphys, by rw [h6, h7]; exact a2, fun _ => hsucc, fun _ => hq.2.1, fun _ => ?_, fun hk => ?_, fun _ => ?_, fun _ => hsent⟩
          · by_cases hk : 1 ≤ k
            · have := h.queue hk
              have := hq.2.2.2.1 (h.delay hk)
              omega
            · have := hq.2.2.1
              have := h.follows.room
              omega
          · have hz : q.queue = [] := List.length_eq_zero_iff.1 (by have := h.queue (by omega); omega)
            obtain ⟨_, hb⟩ := hq.2.2.2.2 hz
            rw [h7, b3]
            refine ⟨p1, ?_⟩
            by_cases h33 : 33 ≤ k
            · obtain ⟨r1, r2⟩ := h.rep h33
              have := p4 (by rw [r1, hb])
              rw [← hb] at r2
              omega
            · omega
          · rw [h7, b4, b3, p3]
        · by_cases hk : 1 ≤ k
          · rw [h.success hk] at b1; cases b1
          · subst b2
            refine ⟨k, t1, q1, a1, by rw [h3, b3], hphys, by rw [h6, h7]; exact a2, fun _ => hsucc, ?_, ?_, ?_, ?_, ?_⟩
            all_goals intro hk'; omega
      | idle => exact absurd (hl _ _ _ _ (List.mem_cons_self ..)).1 (by simp)
    obtain ⟨k1, t1, q1, e1, e2, e3⟩ := hnext
    obtain ⟨k2, t2, q2, f1, f2⟩ := ih e3 (by omega) (fun a b c d hm => hl a b c d (List.mem_cons_of_mem _ hm)) (hlaw.2 s1 g1) g2 (by rw [hh, hh1])
    exact ⟨k2, t2, q2, by omega, f2⟩

/-- In `is` anything happens. Then, in `still`, no key event comes to the keymap, the USB device is configured and the keyboard reports do not wait, for 48 ticks of the
keymap or more. There is room for the key events in the keymap. -/
structure Rests {Rep : Type} (make : List Byte → Rep) (K : Comp.Keys) (refs : List Comp.Ref) (S : Search) (n : Nat) (c : Comp.Config) (rows cols : Nat)
    (indices : List (List (Option Nat))) (is still : List Input) (s0 s : CHalf) : Prop where
  before : (fresh rows cols c).run ⟨Comp.system K, refs, S⟩ (n + 2) indices is = .ok s0
  runs : s0.run ⟨Comp.system K, refs, S⟩ (n + 2) indices still = .ok s
  quiet : s.heard = s0.heard
  answers : ∀ configured keyboard consumer mouse, .layout configured keyboard consumer mouse ∈ still → configured = true ∧ keyboard ≠ .wouldBlock
  long : s0.made.length + 48 ≤ s.made.length
  time : is.length + still.length < u32Size
  lawful : Lawful ⟨Comp.system K, refs, S⟩ (n + 2) indices make (fresh rows cols c) (is ++ still)
  roomy : Roomy ⟨Comp.system K, refs, S⟩ (n + 2) indices (fresh rows cols c) is

/-- C91. Whatever has happened: at rest the report the driver has accepted last is that of the outputs of the board of the keymap after the key events it was given. -/
theorem C91_report {Rep : Type} {make : List Byte → Rep} {c : Comp.Config} (hp : Comp.Plain K refs c layout) {rows cols : Nat} {is still : List Input} {s0 s : CHalf}
    (h : Rests make K refs S n c rows cols indices is still s0 s) :
    ∃ (b : Board.State) (codes : List Byte), b = s.heard.foldl (Board.State.input layout) (start c) ∧ b.outputs.length ≤ 16 ∧
      KeymapOutput.pressedKeyCodes b.outputs = .ok codes ∧ s.sent.getLast?.map make = some (make codes) := by
  have hph : Physical (fresh rows cols c) := fun e he => by cases he
  have htime := h.time
  obtain ⟨t, q, f1, f2, f3⟩ := follows_run (S := S) (n := n) (indices := indices) hp hph (follows_new hp) (by omega) h.roomy h.before
  have h0 : Stage make K layout c 0 s0 t q := ⟨f2, f3, fun h => by omega, fun h => by omega, fun h => by omega, fun h => by omega, fun h => by omega, fun h => by omega⟩
  obtain ⟨k, t', q', e1, st⟩ := h0.run hp (S := S) (n := n) (indices := indices) (by omega) h.answers (lawful_append h.before h.lawful) h.runs h.quiet
  have hk : 48 ≤ k := by have := h.long; omega
  have hq : q'.queue = [] := List.length_eq_zero_iff.1 (by have := st.queue (by omega); omega)
  obtain ⟨tk, h1, h2⟩ := st.follows.taken
  rw [hq, List.append_nil] at h2
  subst h2
  have hlen : q'.board.held.length ≤ 16 := st.follows.sim.sim.len
  have hol : q'.board.outputs.length ≤ 16 := Nat.le_trans (List.length_filterMap_le _ _) hlen
  obtain ⟨g1, g2⟩ := st.rep (by omega)
  have hout : s.backend.out = q'.board.outputs := by
    rw [st.out (by omega), Reporter.reportable, g1, List.take_of_length_le (by omega)]
  obtain ⟨codes, c1, c2⟩ := st.sent (by omega)
  exact ⟨q'.board, codes, h1, hol, by rw [← hout]; exact c1, c2⟩

theorem stable_of_last {z raw : Levels} {h : List Levels} (hr : h.take 26 = List.replicate 26 raw) : stable z h = raw := by
  cases h with
  | nil => cases hr
  | cons r h =>
    have : r = raw := by
      have := congrArg List.head? hr
      simpa using this
    subst this
    rw [stable, if_pos hr]

/-- This half and the other half: nothing is left to do, all that the other half has sent has arrived, and each half has read its switches 26 times with the same levels. -/
structure Linked {R' Ev' Ctx' PKS' KS' : Type} (C' : Cfg R' Ev' Ctx' PKS' KS') (n' : Nat) (km' : KM R' Ev' Ctx' PKS' KS') (rows cols rows' cols' : Nat)
    (indices' : List (List (Option Nat))) (is is' : List Input) (s : CHalf) (s' : Half R' Ev' Ctx' PKS' KS') (raw raw' : Levels) : Prop where
  other : (Half.new rows' cols' km').run C' n' indices' is' = .ok s'
  bytes : bytesOf is = s'.tx
  todo : s.todo = none
  queue : s.queue = []
  todo' : s'.todo = none
  sizes : ∀ m ∈ s.scanned, Size rows cols m
  sizes' : ∀ m ∈ s'.scanned, Size rows' cols' m
  last : s.scanned.reverse.take 26 = List.replicate 26 raw
  last' : s'.scanned.reverse.take 26 = List.replicate 26 raw'

theorem run_append {R Ev Ctx PKS KS : Type} {C : Cfg R Ev Ctx PKS KS} {n : Nat} {s s1 s2 : Half R Ev Ctx PKS KS} {xs ys : List Input}
    (h1 : s.run C n indices xs = .ok s1) (h2 : s1.run C n indices ys = .ok s2) : s.run C n indices (xs ++ ys) = .ok s2 := by
  induction xs generalizing s with
  | nil => cases h1; exact h2
  | cons x xs ih =>
    obtain ⟨d', g1, g2⟩ := Res.bind_eq_ok.1 h1
    exact Res.bind_eq_ok.2 ⟨d', g1, ih g2⟩

/-- C91. At rest the report the driver of a half has accepted last is that of a board which holds the keys whose switches are closed, on this half or on the other. -/
theorem C91_settles {Rep : Type} {make : List Byte → Rep} {c : Comp.Config} (hp : Comp.Plain K refs c layout) {rows cols rows' cols' : Nat}
    {indices' : List (List (Option Nat))} (hl : Laid rows cols layout.length indices) (hl' : Laid rows' cols' layout.length indices') (ha : Apart indices indices')
    (h128 : layout.length ≤ 128) {R' Ev' Ctx' PKS' KS' : Type} {C' : Cfg R' Ev' Ctx' PKS' KS'} {n' : Nat} {km' : KM R' Ev' Ctx' PKS' KS'}
    {is still is' : List Input} {s0 s : CHalf} {s' : Half R' Ev' Ctx' PKS' KS'} {raw raw' : Levels}
    (h : Rests make K refs S n c rows cols indices is still s0 s) (hk : Linked C' n' km' rows cols rows' cols' indices' (is ++ still) is' s s' raw raw') :
    ∃ (b : Board.State) (codes : List Byte), b = s.heard.foldl (Board.State.input layout) (start c) ∧ b.outputs.length ≤ 16 ∧
      KeymapOutput.pressedKeyCodes b.outputs = .ok codes ∧ s.sent.getLast?.map make = some (make codes) ∧
      ∀ i, b.holds i = true ↔ Closed indices raw i ∨ Closed indices' raw' i := by
  obtain ⟨b, codes, h1, h2, h3, h4⟩ := C91_report hp h
  refine ⟨b, codes, h1, h2, h3, h4, fun i => ?_⟩
  have hm := C91_all (fun r c i hi => Nat.lt_of_lt_of_le (hl.within r c i hi) h128) (fun r c i hi => Nat.lt_of_lt_of_le (hl'.within r c i hi) h128)
    (run_append h.before h.runs) hk.other hk.bytes hk.todo hk.queue hk.todo'
  have := merge_held hl hl' ha c hk.sizes hk.sizes' hm i
  rw [stable_of_last hk.last, stable_of_last hk.last', ← h1] at this
  exact this

/-- C91. No key is stuck: at rest, with all the switches of both halves open, the report accepted last is the one of no key. -/
theorem C91_no_stuck_keys {Rep : Type} {make : List Byte → Rep} {c : Comp.Config} (hp : Comp.Plain K refs c layout) {rows cols rows' cols' : Nat}
    {indices' : List (List (Option Nat))} (hl : Laid rows cols layout.length indices) (hl' : Laid rows' cols' layout.length indices') (ha : Apart indices indices')
    (h128 : layout.length ≤ 128) {R' Ev' Ctx' PKS' KS' : Type} {C' : Cfg R' Ev' Ctx' PKS' KS'} {n' : Nat} {km' : KM R' Ev' Ctx' PKS' KS'}
    {is still is' : List Input} {s0 s : CHalf} {s' : Half R' Ev' Ctx' PKS' KS'}
    (h : Rests make K refs S n c rows cols indices is still s0 s)
    (hk : Linked C' n' km' rows cols rows' cols' indices' (is ++ still) is' s s' (allOpen rows cols) (allOpen rows' cols')) :
    s.sent.getLast?.map make = some (make []) := by
  obtain ⟨b, codes, _, _, h1, h2, h3⟩ := C91_settles hp hl hl' ha h128 h hk
  have hnil : b.outputs = [] := by
    rw [Board.State.outputs, Keyboard.held_nil]; rfl
    intro i
    cases hs : b.holds i with
    | false => rfl
    | true =>
      rcases (h3 i).1 hs with ⟨r, c, _, hx⟩ | ⟨r, c, _, hx⟩ <;> exact absurd hx (allOpen_entry _ _ _ _)
  rw [hnil] at h1
  have : codes = [] := by cases h1; rfl
  rw [h2, this]

/-- C91. On a keymap without layers the report has a key exactly if the switch of a place with this key is closed, on either half, and a modifier exactly if the switch
of a place with this modifier is closed. -/
theorem C91_keys {Rep : Type} {make : List Byte → Rep} {c : Comp.Config} (hp : Comp.Plain K refs c layout)
    (hpr : ∀ e ∈ layout, ∀ o, Has e (.out o) → Proper o) (hc : ∀ e ∈ layout, ∃ c, e = .cell c) {rows cols rows' cols' : Nat}
    {indices' : List (List (Option Nat))} (hl : Laid rows cols layout.length indices) (hl' : Laid rows' cols' layout.length indices') (ha : Apart indices indices')
    (h128 : layout.length ≤ 128) {R' Ev' Ctx' PKS' KS' : Type} {C' : Cfg R' Ev' Ctx' PKS' KS'} {n' : Nat} {km' : KM R' Ev' Ctx' PKS' KS'}
    {is still is' : List Input} {s0 s : CHalf} {s' : Half R' Ev' Ctx' PKS' KS'} {raw raw' : Levels}
    (h : Rests make K refs S n c rows cols indices is still s0 s) (hk : Linked C' n' km' rows cols rows' cols' indices' (is ++ still) is' s s' raw raw') :
    ∃ codes : List Byte, s.sent.getLast?.map make = some (make codes) ∧
      (∀ u : Byte, u ≠ 0 → ¬ (0xE0 ≤ u.toNat ∧ u.toNat ≤ 0xE7) → (u ∈ codes ↔ ∃ (i : Nat) (o : KeyOutput), (Closed indices raw i ∨ Closed indices' raw' i) ∧
        layout[i]? = some (Entry.cell (.out o)) ∧ o.usage = .keyboard u)) ∧
      (∀ j, j < 8 → (Spec.modCode j ∈ codes ↔ ∃ (i : Nat) (o : KeyOutput), (Closed indices raw i ∨ Closed indices' raw' i) ∧
        layout[i]? = some (Entry.cell (.out o)) ∧ o.mods.getLsbD j = true)) := by
  obtain ⟨b, codes, h0, hol, h1, h2, h3⟩ := C91_settles hp hl hl' ha h128 h hk
  exact ⟨codes, h2, codes_keys hpr hc (by rw [h0]; exact heldOk_foldl _ (heldOk_start c)) hol h1 h3⟩

end

/-! ## A half does not stop -/

section

variable {K : Comp.Keys} {refs : List Comp.Ref} {S : Search} {layout : List Entry} {n : Nat} {indices : List (List (Option Nat))}

theorem spawn_room {q : List Msg} {m : Msg} (h : q.length < 8) : spawn q m = .ok (q ++ [m]) := if_pos h

/-- What holds between the steps. -/
structure Sound (K : Comp.Keys) (layout : List Entry) (c : Comp.Config) (rows cols : Nat) (indices : List (List (Option Nat))) (s : CHalf) (t : Nat) (q : Queued) : Prop where
  follows : Follows K layout c.layerCount (start c) s.backend.km t q s.heard
  deb : s.deb = debounced rows cols s.scanned
  sizes : ∀ m ∈ s.scanned, Size rows cols m
  todo : ∀ e ∈ s.todo.getD [], InMatrix indices e
  heard : ∀ e ∈ s.heard ++ eventsOf s.queue, Within layout.length e
  out : s.backend.out.length ≤ 16

theorem keyEvent_within {count rows cols : Nat} (hl : Laid rows cols count indices) {e : Backend.Event} {ie : InputEvent} (h : keyEvent indices e = some ie) :
    Within count ie := by
  cases e with
  | press r c =>
    obtain ⟨i, hi, rfl⟩ := Option.map_eq_some_iff.1 h
    exact ⟨i, hl.within r c i (by simpa [KeyAt, Option.join_eq_some_iff] using hi), .inl rfl⟩
  | release r c =>
    obtain ⟨i, hi, rfl⟩ := Option.map_eq_some_iff.1 h
    exact ⟨i, hl.within r c i (by simpa [KeyAt, Option.join_eq_some_iff] using hi), .inr rfl⟩

theorem advance_runs {c : Comp.Config} (hp : Comp.Plain K refs c layout) {s : CCore} {t : Nat} {q : Queued} {evs : List InputEvent}
    (h : Follows K layout c.layerCount (start c) s.backend.km t q evs) (hw : ∀ e ∈ evs, Within layout.length e) (h16 : Keyboard.AtMostSixteen layout (start c) evs)
    (ht : t + 1 < u32Size) (ho : s.backend.out.length ≤ 16) :
    ∃ s', advance ⟨Comp.system K, refs, S⟩ (n + 2) s = .ok s' ∧ s'.backend.out.length ≤ 16 ∧ s'.deb = s.deb := by
  cases hs : s.success with
  | false => exact ⟨s, by rw [advance, hs]; rfl, ho, rfl⟩
  | true =>
    have key := h.sim.tick (S := S) (n := n) hp.layoutEq hp.fits hp.size ht
    have hsome : ∃ q2, q.tick layout = some q2 := by
      simp only [Queued.tick]
      split
      · next hc =>
        cases hq : q.queue with
        | nil => exact absurd hq hc.2
        | cons x xs =>
          simp only [Queued.take]
          rw [if_pos (h.takes (Nat.le_refl _) (rest := []) (by simpa using h16) (by simpa using hq) (h.queue_within hw x (by rw [hq]; simp)))]
          exact ⟨_, rfl⟩
      · exact ⟨_, rfl⟩
    obtain ⟨q2, hm⟩ := hsome
    obtain ⟨km2, k1, k2⟩ := key.1 q2 hm
    have hos : km2.pressedKeys ⟨Comp.system K, refs, S⟩ = .ok q2.board.outputs := Comp.pressedOutputs_held k2.sim.held
    have hol : q2.board.outputs.length ≤ 16 := Nat.le_trans (List.length_filterMap_le _ _) k2.sim.len
    have k1' : tick ⟨Comp.system K, refs, S⟩ (n + 2) s.backend.km = .ok km2 := k1
    generalize hrp : km2.rep.report q2.board.outputs = rp
    have hbt : s.backend.tick ⟨Comp.system K, refs, S⟩ (n + 2) = .ok (⟨{ km2 with rep := rp.1 }, rp.2⟩, decide (s.backend.out ≠ rp.2)) := by
      subst hrp
      exact Res.bind_eq_ok.2 ⟨km2, k1', Res.bind_eq_ok.2 ⟨_, Res.bind_eq_ok.2 ⟨_, hos, rfl⟩, rfl⟩⟩
    refine ⟨{ s with backend := ⟨{ km2 with rep := rp.1 }, rp.2⟩, made := s.made ++ [rp.2] }, ?_, ?_, rfl⟩
    · simp only [advance, hs, if_true, hbt]; rfl
    · show rp.2.length ≤ 16
      rw [← hrp]
      simp only [Reporter.report, Reporter.reportable, List.length_take]
      have : (km2.rep.update q2.board.outputs).reportSent.outputs = q2.board.outputs := by simp
      rw [this]; omega

theorem write_runs {s : CBoard} {m : Milli} (ho : s.backend.out.length ≤ 16) (h1 : m.keyboard ≠ .error) (h2 : m.consumer = .ok ∨ m.consumer = .wouldBlock) :
    ∃ s', s.write m = .ok s' := by
  obtain ⟨codes, w1⟩ := keyCodes_ok ho
  obtain ⟨cs, w2⟩ := consumerCodes_ok ho
  have w3 : ∃ b, keyboardAnswer m.keyboard = .ok b := by
    cases hk : m.keyboard with
    | error => exact absurd hk h1
    | _ => exact ⟨_, rfl⟩
  obtain ⟨b, w3⟩ := w3
  have w4 : ∃ p, writeConsumer s.prev s.consumers (consumerReport cs) m.consumer = .ok p := by
    unfold writeConsumer
    split
    · rcases h2 with a2 | a2 <;> rw [a2] <;> exact ⟨_, rfl⟩
    · exact ⟨_, rfl⟩
  obtain ⟨⟨prev, consumers⟩, w4⟩ := w4
  exact ⟨_, Res.bind_eq_ok.2 ⟨codes, w1, Res.bind_eq_ok.2 ⟨b, w3, Res.bind_eq_ok.2 ⟨cs, w2, Res.bind_eq_ok.2 ⟨_, w4, rfl⟩⟩⟩⟩⟩

theorem Sound.step {c : Comp.Config} (hp : Comp.Plain K refs c layout) {rows cols : Nat} (hl : Laid rows cols layout.length indices) (h128 : layout.length ≤ 128)
    {s : CHalf} {t : Nat} {q : Queued} {i : Input} (h : Sound K layout c rows cols indices s t q) (ht : t + 1 < u32Size) (hb : Bears layout (start c) rows cols s i) :
    ∃ s' t' q', s.step ⟨Comp.system K, refs, S⟩ (n + 2) indices i = .ok s' ∧ t' ≤ t + 1 ∧ Sound K layout c rows cols indices s' t' q' := by
  cases i with
  | timer raw =>
    simp only [Half.step]
    split
    · obtain ⟨hsz, hfew⟩ := hb.few raw rfl
      have hke : keyboardEvents s.deb raw = .ok (s.deb.events raw) := if_pos hfew
      refine ⟨{ s with deb := (s.deb.events raw).1, todo := some (s.deb.events raw).2, scanned := s.scanned ++ [raw] }, t, q,
        Res.bind_eq_ok.2 ⟨_, hke, rfl⟩, by omega, h.follows, ?_, ?_, ?_, h.heard, h.out⟩
      · show (s.deb.events raw).1 = debounced rows cols (s.scanned ++ [raw])
        rw [debounced_snoc, h.deb]
      · intro m hm
        rcases List.mem_append.1 hm with hm | hm
        · exact h.sizes m hm
        · rw [List.mem_singleton.1 hm]; exact hsz
      · have := events_inMatrix hl h.sizes hsz
        rw [← h.deb] at this
        exact this
    · exact ⟨s, t, q, rfl, by omega, h⟩
  | go =>
    simp only [Half.step]
    split
    · next hq =>
      unfold Half.go
      split
      · exact ⟨s, t, q, rfl, by omega, h⟩
      · next htd =>
        refine ⟨_, t, q, Res.bind_eq_ok.2 ⟨_, spawn_room (by rw [hq]; decide), rfl⟩, by omega, h.follows, h.deb, h.sizes, ?_, ?_, h.out⟩
        · intro e he; cases he
        · rw [eventsOf_append, ← List.append_assoc]
          simpa [eventsOf] using h.heard
      · next e es htd =>
        have htodo := h.todo
        rw [htd] at htodo
        have h1 := keymapIndexOf_ok (htodo e (by simp))
        cases hke : keyEvent indices e with
        | none =>
          rw [hke] at h1
          exact ⟨_, t, q, Res.bind_eq_ok.2 ⟨_, h1, rfl⟩, by omega, h.follows, h.deb, h.sizes, fun x hx => htodo x (List.mem_cons_of_mem _ hx), h.heard, h.out⟩
        | some ie =>
          rw [hke] at h1
          have hw := keyEvent_within hl hke
          have hs : Sendable ie := by
            obtain ⟨k, hk, rfl | rfl⟩ := hw
            · exact Nat.lt_of_lt_of_le hk h128
            · exact Nat.lt_of_lt_of_le hk h128
          refine ⟨_, t, q, Res.bind_eq_ok.2 ⟨_, h1, Res.bind_eq_ok.2 ⟨_, Res.bind_eq_ok.2 ⟨_, (Split.C41_roundtrip ie hs).1,
            Res.bind_eq_ok.2 ⟨_, spawn_room (by rw [hq]; decide), rfl⟩⟩, rfl⟩⟩, by omega, h.follows, h.deb, h.sizes, fun x hx => htodo x (List.mem_cons_of_mem _ hx), ?_, h.out⟩
          simp only [eventsOf_append]
          intro x hx
          rw [← List.append_assoc] at hx
          rcases List.mem_append.1 hx with hx | hx
          · exact h.heard x hx
          · rw [List.mem_singleton.1 hx]; exact hw
    · exact ⟨s, t, q, rfl, by omega, h⟩
  | byte x =>
    simp only [Half.step]
    unfold Half.rx
    have hkey := hb.keys x
    generalize receiveByte s.buf x = p at *
    obtain ⟨buf, o⟩ := p
    cases o with
    | none => exact ⟨_, t, q, rfl, by omega, h.follows, h.deb, h.sizes, h.todo, h.heard, h.out⟩
    | some e =>
      refine ⟨_, t, q, Res.bind_eq_ok.2 ⟨_, spawn_room (hb.keepsUp x rfl), rfl⟩, by omega, h.follows, h.deb, h.sizes, h.todo, ?_, h.out⟩
      simp only [eventsOf_append]
      intro y hy
      rw [← List.append_assoc] at hy
      rcases List.mem_append.1 hy with hy | hy
      · exact h.heard y hy
      · rw [List.mem_singleton.1 hy]; exact hkey e rfl rfl
  | layout a k cc d =>
    obtain ⟨ans1, ans2⟩ := hb.answers a k cc d rfl
    have hro := hb.room ⟨a, k, cc, d, rfl⟩
    have h16 := hb.sixteen
    simp only [Half.step]
    unfold Half.layout
    split
    · exact ⟨s, t, q, rfl, by omega, h⟩
    · next e qs hq =>
      have hlt := hro ⟨e, qs, hq⟩
      rw [hq] at h16
      have hh := h.heard
      rw [hq] at hh
      have hew : Within layout.length e := hh e (by simp [eventsOf])
      have hq31 : q.queue.length + [e].length ≤ 31 := by
        have := h.follows.sim.inq
        rw [this] at hlt
        simp only [List.length_singleton]; omega
      have hhw : ∀ e ∈ s.heard, Within layout.length e := fun x hx => hh x (by simp [hx])
      have h16' : Keyboard.AtMostSixteen layout (start c) (s.heard ++ [e]) := by
        refine Keyboard.AtMostSixteen.first (ys := eventsOf qs) ?_
        simpa [eventsOf] using h16
      obtain ⟨km, g1⟩ := Follows.register_ok (S := S) (n := n) (es := [e]) hp (Nat.le_refl _) (fun x hx => by rw [List.mem_singleton.1 hx]; exact hew) h16' h.follows hhw hq31
      obtain ⟨km1, g2, g3⟩ := Res.bind_eq_ok.1 g1
      obtain ⟨q', f1, _, _⟩ := h.follows.register (S := S) (n := n) (es := [e]) hp
        (fun x hx => by rw [List.mem_singleton.1 hx]; obtain ⟨k, _, rfl | rfl⟩ := hew <;> rfl) hq31 g1
      cases g3
      refine ⟨_, t, q', Res.bind_eq_ok.2 ⟨_, Res.bind_eq_ok.2 ⟨_, g2, rfl⟩, rfl⟩, by omega, f1, h.deb, h.sizes, h.todo, ?_, h.out⟩
      intro x hx
      exact hh x (by simpa [eventsOf] using hx)
    · next qs hq =>
      have hh := h.heard
      rw [hq] at hh h16
      have hhw : ∀ e ∈ s.heard, Within layout.length e := fun x hx => hh x (by simp [hx])
      obtain ⟨core, g1, g2, g3⟩ := advance_runs (S := S) (n := n) hp (s := s.toCore) h.follows hhw h16.first ht h.out
      obtain ⟨t', q', f1, f2, _⟩ := follows_advance hp h.follows ht g1
      have hh' : ∀ e ∈ s.heard ++ eventsOf qs, Within layout.length e := fun x hx => hh x (by simpa [eventsOf] using hx)
      cases a with
      | false =>
        exact ⟨_, t', q', Res.bind_eq_ok.2 ⟨core, g1, rfl⟩, f1, f2, g3.trans h.deb, h.sizes, h.todo, hh', g2⟩
      | true =>
        obtain ⟨b', w⟩ := write_runs (s := { s.toBoard with toCore := core }) (m := ⟨[], k, cc, d⟩) g2 ans1 ans2
        obtain ⟨codes, cs, prev, consumers, w1, w2, w3, w4, hb'⟩ := write_ok w
        refine ⟨{ s with toBoard := b', queue := qs }, t', q', Res.bind_eq_ok.2 ⟨core, g1, Res.bind_eq_ok.2 ⟨b', w, rfl⟩⟩, f1, ?_, ?_, h.sizes, h.todo, hh', ?_⟩
        · subst hb'; exact f2
        · subst hb'; exact g3.trans h.deb
        · subst hb'; exact g2

/-- C91. A half does not stop, whatever happens that it can bear. -/
theorem C91_runs {c : Comp.Config} (hp : Comp.Plain K refs c layout) {rows cols : Nat} (hl : Laid rows cols layout.length indices) (h128 : layout.length ≤ 128)
    {is : List Input} (ht : is.length < u32Size) (hb : Bearable ⟨Comp.system K, refs, S⟩ (n + 2) indices layout (start c) rows cols (fresh rows cols c) is) :
    ∃ s, (fresh rows cols c).run ⟨Comp.system K, refs, S⟩ (n + 2) indices is = .ok s := by
  suffices H : ∀ (is : List Input) (s : CHalf) (t : Nat) (q : Queued), Sound K layout c rows cols indices s t q → t + is.length < u32Size →
      Bearable ⟨Comp.system K, refs, S⟩ (n + 2) indices layout (start c) rows cols s is → ∃ s', s.run ⟨Comp.system K, refs, S⟩ (n + 2) indices is = .ok s' from
    H is _ 0 _ ⟨follows_new hp, rfl, (fun _ h => by cases h), (fun _ h => by cases h), (fun _ h => by cases h), Nat.zero_le _⟩ (by omega) hb
  intro is
  induction is with
  | nil => exact fun s _ _ _ _ _ => ⟨s, rfl⟩
  | cons i is ih =>
    intro s t q h ht hb
    simp only [List.length_cons] at ht
    obtain ⟨s1, t1, q1, g1, g2, g3⟩ := h.step (S := S) (n := n) hp hl h128 (by omega) hb.1
    obtain ⟨s', r⟩ := ih s1 t1 q1 g3 (by omega) (hb.2 s1 g1)
    exact ⟨s', Res.bind_eq_ok.2 ⟨s1, g1, r⟩⟩

end

/-! ## A report that waits -/

section

variable {R Ev Ctx PKS KS : Type} {C : Cfg R Ev Ctx PKS KS} {n : Nat} {indices : List (List (Option Nat))}

/-- C91. A half whose keyboard report waits when the USB device is no longer configured does not advance its keymap as long as the device stays like this; no report
is accepted. -/
theorem C91_waits {is : List Input} : ∀ {s s' : Half R Ev Ctx PKS KS}, s.success = false → (∀ a b c d, .layout a b c d ∈ is → a = false) →
    s.run C n indices is = .ok s' → s'.success = false ∧ s'.made = s.made ∧ s'.sent = s.sent ∧ s'.backend.out = s.backend.out := by
  induction is with
  | nil => intro s s' h _ hr; cases hr; exact ⟨h, rfl, rfl, rfl⟩
  | cons i is ih =>
    intro s s' h ha hr
    obtain ⟨s1, g1, g2⟩ := Res.bind_eq_ok.1 hr
    have hadv : ∀ {core}, advance C n s.toCore = .ok core → core = s.toCore := fun hc => by
      unfold advance at hc
      rw [h] at hc
      cases hc; rfl
    have hone : s1.success = false ∧ s1.made = s.made ∧ s1.sent = s.sent ∧ s1.backend.out = s.backend.out := by
      cases effect g1 with
      | none h1 h2 h3 h4 _ => exact ⟨h2.trans h, h3, h4, by rw [h1]⟩
      | event h0 h1 h2 h3 h4 _ =>
        obtain ⟨km, k1, k2⟩ := Res.bind_eq_ok.1 h1
        refine ⟨h2.trans h, h3, h4, ?_⟩
        rw [← Res.ok.inj k2]
      | report => exact absurd (ha _ _ _ _ (List.mem_cons_self ..)) (by simp)
      | idle h1 h2 h3 h4 _ h6 =>
        have := hadv h1
        subst this
        exact ⟨h2.trans h, h3, h4, by rw [h6]⟩
    obtain ⟨k1, k2, k3, k4⟩ := ih hone.1 (fun a b c d hm => ha a b c d (List.mem_cons_of_mem _ hm)) g2
    exact ⟨k1, k2.trans hone.2.1, k3.trans hone.2.2.1, k4.trans hone.2.2.2⟩

end

/-! ## Examples -/

/-! ## The tables of the keys -/

section

variable {indices indices' : List (List (Option Nat))} {rows cols rows' cols' count : Nat}

theorem keyAt_within (h : Size rows cols indices) {r c i : Nat} (hk : KeyAt indices r c i) : r < rows ∧ c < cols := by
  obtain ⟨row, h1, h2⟩ := Option.bind_eq_some_iff.1 hk
  obtain ⟨hr, hr'⟩ := List.getElem?_eq_some_iff.1 h1
  obtain ⟨hc, _⟩ := List.getElem?_eq_some_iff.1 h2
  exact ⟨h.1 ▸ hr, h.2 row (hr' ▸ List.getElem_mem hr) ▸ hc⟩

theorem laid_of (hs : Size rows cols indices) (hw : ∀ r < rows, ∀ c < cols, ∀ i ∈ (entry indices r c).join, i < count)
    (hd : ∀ r < rows, ∀ c < cols, ∀ r' < rows, ∀ c' < cols, (entry indices r c).join ≠ none → (entry indices r c).join = (entry indices r' c').join → r = r' ∧ c = c') :
    Laid rows cols count indices where
  size := hs
  within := fun r c i h => hw r (keyAt_within hs h).1 c (keyAt_within hs h).2 i (by rw [show entry indices r c = some (some i) from h]; rfl)
  different := fun r c r' c' i h h' => hd r (keyAt_within hs h).1 c (keyAt_within hs h).2 r' (keyAt_within hs h').1 c' (keyAt_within hs h').2
    (by rw [show entry indices r c = some (some i) from h]; simp)
    (by rw [show entry indices r c = some (some i) from h, show entry indices r' c' = some (some i) from h'])

theorem apart_of (hs : Size rows cols indices) (hs' : Size rows' cols' indices')
    (hd : ∀ r < rows, ∀ c < cols, ∀ r' < rows', ∀ c' < cols', (entry indices r c).join ≠ none → (entry indices r c).join ≠ (entry indices' r' c').join) : Apart indices indices' :=
  fun r c r' c' i h h' => hd r (keyAt_within hs h).1 c (keyAt_within hs h).2 r' (keyAt_within hs' h').1 c' (keyAt_within hs' h').2
    (by rw [show entry indices r c = some (some i) from h]; simp)
    (by rw [show entry indices r c = some (some i) from h, show entry indices' r' c' = some (some i) from h'])

theorem exists_keyAt {i : Nat} (h : ((List.range rows).any fun r => (List.range cols).any fun c => decide (entry indices r c = some (some i))) = true) :
    ∃ r c, KeyAt indices r c i := by
  simp only [List.any_eq_true, decide_eq_true_eq] at h
  obtain ⟨r, _, c, _, h⟩ := h
  exact ⟨r, c, h⟩

end

set_option maxRecDepth 100000 in
set_option synthInstance.maxSize 1000 in
/-- C91. The keyboard of 36 keys is laid out as it should be: each key is at exactly one place of one half, and all have a number that fits in the byte of a key event. -/
theorem C91_boards : Laid 4 5 36 lhs ∧ Laid 4 5 36 rhs ∧ Apart lhs rhs ∧ ∀ i < 36, (∃ r c, KeyAt lhs r c i) ∨ ∃ r c, KeyAt rhs r c i := by
  have h1 : Size 4 5 lhs := ⟨rfl, by decide⟩
  have h2 : Size 4 5 rhs := ⟨rfl, by decide⟩
  refine ⟨laid_of h1 (by decide) (by decide +kernel), laid_of h2 (by decide) (by decide +kernel), apart_of h1 h2 (by decide +kernel), fun i hi => ?_⟩
  have : ∀ i < 36, ((List.range 4).any fun r => (List.range 5).any fun c => decide (entry lhs r c = some (some i))) = true ∨
    ((List.range 4).any fun r => (List.range 5).any fun c => decide (entry rhs r c = some (some i))) = true := by decide +kernel
  rcases this i hi with h | h
  · exact .inl (exists_keyAt h)
  · exact .inr (exists_keyAt h)

set_option maxRecDepth 100000 in
set_option synthInstance.maxSize 1000 in
/-- C89. So is the keyboard of 42 keys in one piece. -/
theorem C89_boards : Laid 4 12 42 pico42 ∧ ∀ i < 42, ∃ r c, KeyAt pico42 r c i := by
  have h1 : Size 4 12 pico42 := ⟨rfl, by decide⟩
  refine ⟨laid_of h1 (by decide) (by decide +kernel), fun i hi => exists_keyAt (rows := 4) (cols := 12) ?_⟩
  have : ∀ i < 42, ((List.range 4).any fun r => (List.range 12).any fun c => decide (entry pico42 r c = some (some i))) = true := by decide +kernel
  exact this i hi

namespace Demo

/-- A keymap of two keys: a, on the left half, and b, on the right half. -/
abbrev C : Cfg Comp.Ref Comp.Ev Comp.Ctx Comp.PKS Comp.KS := ⟨Comp.system Keyboard.Demo.K, Keyboard.Demo.refs, Search.std⟩

def left : List (List (Option Nat)) := [[some 0]]

def right : List (List (Option Nat)) := [[some 1]]

theorem laid_left : Laid 1 1 Keyboard.Demo.layout.length left where
  size := ⟨rfl, by decide⟩
  within := by
    intro r c i h
    rcases r with _ | r <;> rcases c with _ | c <;> simp [KeyAt, entry, left] at h; subst h; decide
  different := by
    intro r c r' c' i h h'
    rcases r with _ | r <;> rcases c with _ | c <;> simp [KeyAt, entry, left] at h
    rcases r' with _ | r' <;> rcases c' with _ | c' <;> simp [KeyAt, entry, left] at h'
    exact ⟨rfl, rfl⟩

theorem laid_right : Laid 1 1 Keyboard.Demo.layout.length right where
  size := ⟨rfl, by decide⟩
  within := by
    intro r c i h
    rcases r with _ | r <;> rcases c with _ | c <;> simp [KeyAt, entry, right] at h; subst h; decide
  different := by
    intro r c r' c' i h h'
    rcases r with _ | r <;> rcases c with _ | c <;> simp [KeyAt, entry, right] at h
    rcases r' with _ | r' <;> rcases c' with _ | c' <;> simp [KeyAt, entry, right] at h'
    exact ⟨rfl, rfl⟩

theorem apart : Apart left right := by
  intro r c r' c' i h h'
  rcases r with _ | r <;> rcases c with _ | c <;> simp [KeyAt, entry, left] at h
  rcases r' with _ | r' <;> rcases c' with _ | c' <;> simp [KeyAt, entry, right] at h'
  omega

/-- A millisecond in which there is at most one event. -/
def milli (raw : Levels) : List Input := [.timer raw, .go, .layout true .ok .ok .ok, .go, .layout true .ok .ok .ok]

def millis (k : Nat) (raw : Levels) : List Input := (List.replicate k (milli raw)).flatten

/-- a is pressed; b is pressed on the other half. -/
def first : List Input := millis 30 [[true]] ++ [.byte 1, .byte 2, .byte 1, .byte 0, .layout true .ok .ok .ok]

/-- Then nothing moves. -/
def still : List Input := millis 48 [[true]]

/-- The other half. -/
def other : List Input := millis 30 [[true]]

/-- A run, if there is room. -/
def roomyRun {R Ev Ctx PKS KS : Type} (C : Cfg R Ev Ctx PKS KS) (n : Nat) (indices : List (List (Option Nat))) (s : Half R Ev Ctx PKS KS) :
    List Input → Option (Half R Ev Ctx PKS KS)
  | [] => some s
  | i :: is =>
    if s.backend.km.inq.length < 31 then
      match s.step C n indices i with
      | .ok s => roomyRun C n indices s is
      | _ => none
    else none

theorem roomyRun_sound {R Ev Ctx PKS KS : Type} {C : Cfg R Ev Ctx PKS KS} {n : Nat} {indices : List (List (Option Nat))} : ∀ (is : List Input)
    {s s' : Half R Ev Ctx PKS KS}, roomyRun C n indices s is = some s' → s.run C n indices is = .ok s' ∧ Roomy C n indices s is
  | [], s, s', h => by cases h; exact ⟨rfl, trivial⟩
  | i :: is, s, s', h => by
    simp only [roomyRun] at h
    split at h
    · next hlt =>
      split at h
      · next s1 h1 =>
        obtain ⟨k1, k2⟩ := roomyRun_sound is h
        refine ⟨Res.bind_eq_ok.2 ⟨s1, h1, k1⟩, fun _ _ => hlt, fun s2 h2 => ?_⟩
        rw [h1] at h2; cases h2
        exact k2
      · cases h
    · cases h

/-- A driver which says `Duplicate` to nothing. -/
theorem lawful_of {R Ev Ctx PKS KS Rep : Type} {C : Cfg R Ev Ctx PKS KS} {n : Nat} {indices : List (List (Option Nat))} (make : List Byte → Rep) : ∀ (is : List Input)
    (s : Half R Ev Ctx PKS KS), (∀ a b c d, .layout a b c d ∈ is → b ≠ .duplicate) → Lawful C n indices make s is
  | [], _, _ => trivial
  | i :: is, s, h => ⟨fun ⟨c, d, hi⟩ => absurd rfl (h true .duplicate c d (by rw [hi]; simp)),
      fun s' _ => lawful_of make is s' fun a b c d hm => h a b c d (List.mem_cons_of_mem _ hm)⟩

/-- What matters of a half. -/
structure Facts where
  made : Nat
  heard : List InputEvent
  idle : Bool
  queue : List Msg
  scanned : List Levels
  last : Option (List Byte)
  tx : List Byte
  deriving DecidableEq

def facts (s : CHalf) : Facts := ⟨s.made.length, s.heard, s.todo.isNone, s.queue, s.scanned, s.sent.getLast?, s.tx⟩

set_option maxRecDepth 100000 in
theorem first_eq : (roomyRun C 2 left (fresh 1 1 Keyboard.Demo.config) first).map facts =
    some ⟨30, [.press 0, .press 1], true, [], List.replicate 30 [[true]], some [4], [1, 1, 1, 0]⟩ := by decide +kernel

set_option maxRecDepth 100000 in
theorem all_eq : (roomyRun C 2 left (fresh 1 1 Keyboard.Demo.config) (first ++ still)).map facts =
    some ⟨78, [.press 0, .press 1], true, [], List.replicate 78 [[true]], some [4, 5], [1, 1, 1, 0]⟩ := by decide +kernel

set_option maxRecDepth 100000 in
theorem other_eq : (roomyRun C 2 right (fresh 1 1 Keyboard.Demo.config) other).map facts =
    some ⟨30, [.press 1], true, [], List.replicate 30 [[true]], some [5], [1, 2, 1, 0]⟩ := by decide +kernel

theorem mem_millis {k : Nat} {raw : Levels} {a : Bool} {b c d : Answer} (h : Input.layout a b c d ∈ millis k raw) : a = true ∧ b = .ok := by
  obtain ⟨l, h1, h2⟩ := List.mem_flatten.1 h
  rw [List.eq_of_mem_replicate h1] at h2
  simp only [milli, List.mem_cons, reduceCtorEq, Input.layout.injEq, List.not_mem_nil, or_false, false_or] at h2
  rcases h2 with h2 | h2 <;> exact ⟨h2.1, h2.2.1⟩

set_option maxRecDepth 100000 in
/-- The hypotheses of C91 hold of this history; both keys are in the report. -/
example : ∃ s0 s s', Rests id Keyboard.Demo.K Keyboard.Demo.refs Search.std 0 Keyboard.Demo.config 1 1 left first still s0 s ∧
    Linked C 2 (KM.new (Comp.Ctx.fromConfig Keyboard.Demo.config)) 1 1 1 1 right (first ++ still) other s s' [[true]] [[true]] ∧ s.sent.getLast? = some [4, 5] := by
  obtain ⟨s0, a1, a2⟩ := Option.map_eq_some_iff.1 first_eq
  obtain ⟨s, b1, b2⟩ := Option.map_eq_some_iff.1 all_eq
  obtain ⟨s', c1, c2⟩ := Option.map_eq_some_iff.1 other_eq
  obtain ⟨a3, a4⟩ := roomyRun_sound _ a1
  obtain ⟨b3, _⟩ := roomyRun_sound _ b1
  obtain ⟨c3, _⟩ := roomyRun_sound _ c1
  simp only [facts, Facts.mk.injEq, Option.isNone_iff_eq_none] at a2 b2 c2
  obtain ⟨s1, d1, d2⟩ := run_split b3
  rw [a3] at d1; cases d1
  refine ⟨s0, s, s', ⟨a3, d2, ?_, ?_, ?_, by decide, lawful_of _ _ _ ?_, a4⟩, ⟨c3, ?_, b2.2.2.1, b2.2.2.2.1, c2.2.2.1, ?_, ?_, ?_, ?_⟩, b2.2.2.2.2.2.1⟩
  · rw [b2.2.1, a2.2.1]
  · intro a b c d hm
    obtain ⟨h1, h2⟩ := mem_millis hm
    exact ⟨h1, by rw [h2]; decide⟩
  · rw [a2.1, b2.1]; decide
  · intro a b c d hm
    simp only [first, still, List.mem_append] at hm
    rcases hm with (hm | hm) | hm
    · rw [(mem_millis hm).2]; decide
    · simp only [List.mem_cons, reduceCtorEq, Input.layout.injEq, List.not_mem_nil, or_false, false_or] at hm
      rw [hm.2.1]; decide
    · rw [(mem_millis hm).2]; decide
  · rw [c2.2.2.2.2.2.2]; decide +kernel
  · intro m hm
    rw [b2.2.2.2.2.1] at hm
    rw [List.eq_of_mem_replicate hm]; exact ⟨rfl, by decide⟩
  · intro m hm
    rw [c2.2.2.2.2.1] at hm
    rw [List.eq_of_mem_replicate hm]; exact ⟨rfl, by decide⟩
  · rw [b2.2.2.2.2.1]; decide
  · rw [c2.2.2.2.2.1]; decide

/-- Whether a half can stand a step. -/
def bears {R Ev Ctx PKS KS : Type} (layout : List Entry) (b : Board.State) (rows cols : Nat) (s : Half R Ev Ctx PKS KS) (i : Input) : Bool :=
  (decide (s.backend.km.inq.length < 31) && (List.range ((s.heard ++ eventsOf s.queue).length + 1)).all fun k =>
    decide ((((s.heard ++ eventsOf s.queue).take k).foldl (Board.State.input layout) b).held.length ≤ 16)) &&
  match i with
  | .timer raw => decide (raw.length = rows) && raw.all (fun row => decide (row.length = cols)) && decide ((s.deb.events raw).2.length ≤ 8)
  | .go => true
  | .byte x => decide (s.queue.length < 8) && match (Split.receiveByte s.buf x).2 with
    | none => true
    | some (.press k) => decide (k < layout.length)
    | some (.release k) => decide (k < layout.length)
    | some _ => false
  | .layout _ keyboard consumer _ => decide (keyboard ≠ .error) && (decide (consumer = .ok) || decide (consumer = .wouldBlock))

theorem bears_sound {R Ev Ctx PKS KS : Type} {layout : List Entry} {b : Board.State} {rows cols : Nat} {s : Half R Ev Ctx PKS KS} {i : Input}
    (h : bears layout b rows cols s i = true) : Bears layout b rows cols s i := by
  simp only [bears, Bool.and_eq_true, decide_eq_true_eq] at h
  obtain ⟨⟨h1, h2⟩, h3⟩ := h
  refine ⟨?_, ?_, ?_, ?_, ?_, fun _ _ => h1⟩
  · rintro x rfl; simp only [Bool.and_eq_true, decide_eq_true_eq] at h3; exact h3.1
  · rintro x e rfl he
    simp only [he, Bool.and_eq_true, decide_eq_true_eq] at h3
    cases e with
    | press k => exact ⟨k, by simpa using h3.2, .inl rfl⟩
    | release k => exact ⟨k, by simpa using h3.2, .inr rfl⟩
    | _ => exact absurd h3.2 (by simp)
  · rintro raw rfl
    simp only [Bool.and_eq_true, decide_eq_true_eq, List.all_eq_true] at h3
    exact ⟨⟨h3.1.1, h3.1.2⟩, h3.2⟩
  · rintro _ _ _ _ rfl
    simpa using h3
  · intro first hf
    obtain ⟨rest, hr⟩ := hf
    have := List.all_eq_true.1 h2 first.length (List.mem_range.2 (by rw [← hr]; simp; omega))
    rw [← hr] at this
    simpa using this

/-- A run, if the half can stand it. -/
def bearRun {R Ev Ctx PKS KS : Type} (C : Cfg R Ev Ctx PKS KS) (n : Nat) (indices : List (List (Option Nat))) (layout : List Entry) (b : Board.State) (rows cols : Nat)
    (s : Half R Ev Ctx PKS KS) : List Input → Bool
  | [] => true
  | i :: is => bears layout b rows cols s i && match s.step C n indices i with
    | .ok s => bearRun C n indices layout b rows cols s is
    | _ => true

theorem bearRun_sound {R Ev Ctx PKS KS : Type} {C : Cfg R Ev Ctx PKS KS} {n : Nat} {indices : List (List (Option Nat))} {layout : List Entry} {b : Board.State} {rows cols : Nat} :
    ∀ (is : List Input) {s : Half R Ev Ctx PKS KS}, bearRun C n indices layout b rows cols s is = true → Bearable C n indices layout b rows cols s is
  | [], _, _ => trivial
  | i :: is, s, h => by
    simp only [bearRun, Bool.and_eq_true] at h
    refine ⟨bears_sound h.1, fun s' hs => bearRun_sound is ?_⟩
    have := h.2
    rw [hs] at this
    exact this

set_option maxRecDepth 100000 in
/-- The hypotheses of C91_runs hold of this history. -/
example : Bearable C 2 left Keyboard.Demo.layout (start Keyboard.Demo.config) 1 1 (fresh 1 1 Keyboard.Demo.config) (first ++ still) :=
  bearRun_sound _ (by decide +kernel)

/-- The hypotheses of C91_waits: a report waits, then the computer goes to sleep; the switch of a moves. -/
def asleep : List Input := ((List.replicate 60 [.timer [[true]], .go, .layout false .ok .ok .ok, .go, .layout false .ok .ok .ok]).flatten)

set_option maxRecDepth 100000 in
example : ((fun (s : CHalf) => (s.success, s.made.length)) <$> (fresh 1 1 Keyboard.Demo.config).run C 2 left [.timer [[false]], .go, .layout true .wouldBlock .ok .ok]) =
    .ok (false, 1) ∧
    ((fun (s : CHalf) => (s.success, s.made.length, s.heard, s.scanned.length)) <$> (fresh 1 1 Keyboard.Demo.config).run C 2 left
      ([.timer [[false]], .go, .layout true .wouldBlock .ok .ok] ++ asleep)) = .ok (false, 1, [.press 0], 61) := by decide +kernel

end Demo

/-- C91, without the hypothesis that the bytes are those of the other half: four bytes of noise, which are those of a key that is not in the keymap, stop the half. -/
theorem C91_noise_refuted : (fresh 1 1 Keyboard.Demo.config).run Demo.C 2 Demo.left [.byte 1, .byte 2, .byte 100, .byte 0, .layout true .ok .ok .ok] = .panic .index :=
  Res.map_eq_panic (f := fun (s : CHalf) => s.tx) (by decide +kernel)

/-- C91, if `layout` does not keep up: nine key events of the other half before `layout` handles the first of them stop the half. -/
theorem C91_nine_refuted : (fresh 1 1 Keyboard.Demo.config).run Demo.C 2 Demo.left ((List.replicate 9 ((wire (.press 1)).map Input.byte)).flatten) = .panic .unwrap :=
  Res.map_eq_panic (f := fun (s : CHalf) => s.tx) (by decide +kernel)

end Verif.RticSplit
