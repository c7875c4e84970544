import Verif.Lemmas.Rtic
import Verif.Props.Keyboard

/-!
# C86, C87, C88: the Rust firmwares
-/

namespace Verif.Rtic

section

variable {R Ev Ctx PKS KS : Type} {C : Cfg R Ev Ctx PKS KS} {n : Nat} {indices : List (List (Option Nat))}

/-! ## C86: keyboard reports -/

/-- C86. The keyboard reports the driver accepts are those of the outputs of the keymap, one for each tick, in their order; of the same reports in a row there
may be fewer or more. Only the last one may be waiting. -/
theorem C86_in_order {Rep : Type} [DecidableEq Rep] (make : List Byte → Rep) {rows cols : Nat} {km : KM R Ev Ctx PKS KS} {ms : List Milli}
    {s : Board R Ev Ctx PKS KS} (hl : Lawful C n indices make (Board.new rows cols km) ms) (h : (Board.new rows cols km).run C n indices ms = .ok s) :
    ∃ rs : List (List Byte), s.made.map KeymapOutput.pressedKeyCodes = rs.map .ok ∧
      once (s.sent.map make) = once ((if s.success then rs else rs.dropLast).map make) := by
  obtain ⟨rs, h1, _, h3⟩ := (InOrder.new make rows cols km).run hl h
  exact ⟨rs, h1, h3⟩

/-- C86. While a report waits the keymap does not tick; the next attempt is with the same report. -/
theorem C86_waits {s s' : Board R Ev Ctx PKS KS} {m : Milli} (hw : s.success = false) (h : s.step C n indices m = .ok s') :
    s'.made = s.made ∧ s'.backend.out = s.backend.out := by
  obtain ⟨s1, h1, h2⟩ := step_ok h
  obtain ⟨codes, cs, prev, consumers, w1, w2, w3, w4, rfl⟩ := write_ok h2
  obtain ⟨deb, es, b, k1, k2, k3⟩ := scan_ok h1
  rcases k3 with ⟨a1, _⟩ | ⟨a1, rfl⟩
  · rw [hw] at a1; cases a1
  · exact ⟨rfl, feed_out k2⟩

/-! ## C87: consumer and mouse reports -/

/-- The report before the first. -/
abbrev nothing : List Byte := List.replicate 4 0

structure Consumed (s : Board R Ev Ctx PKS KS) (css : List (List Byte)) : Prop where
  codes : s.made.map KeymapOutput.pressedConsumerCodes = css.map .ok
  last : s.success = false → s.made.getLast? = some s.backend.out
  prev : s.prev = s.consumers.getLastD nothing
  change : once (nothing :: s.consumers) = nothing :: s.consumers
  sub : s.consumers.Sublist (css.map consumerReport)
  dropped : css.getLast?.map consumerReport = some s.prev ∨ s.consumers.Sublist (css.dropLast.map consumerReport)

theorem getLastD_cons_last {α : Type} (z : α) (xs : List α) : (z :: xs).getLast? = some (xs.getLastD z) := by
  cases xs with
  | nil => rfl
  | cons x xs => simp [List.getLastD_eq_getLast?, List.getLast?_cons]

theorem split_last {α : Type} {xs : List α} {x : α} (h : xs.getLast? = some x) : xs = xs.dropLast ++ [x] := by
  have hne : xs ≠ [] := by intro he; rw [he] at h; cases h
  have := List.dropLast_concat_getLast hne
  rw [List.getLast?_eq_some_getLast hne] at h
  simp only [Option.some.injEq] at h
  rw [← h]; exact this.symm

theorem Consumed.step {s s' : Board R Ev Ctx PKS KS} {css : List (List Byte)} {m : Milli} (h : Consumed s css) (hs : s.step C n indices m = .ok s') :
    ∃ css', Consumed s' css' := by
  obtain ⟨s1, h1, h2⟩ := step_ok hs
  obtain ⟨codes, cs, prev, consumers, w1, w2, w3, w4, rfl⟩ := write_ok h2
  obtain ⟨deb, es, b, k1, k2, k3⟩ := scan_ok h1
  obtain ⟨css', q1, q2, q3, q4, q5, q6⟩ : ∃ css' : List (List Byte), s1.made.map KeymapOutput.pressedConsumerCodes = css'.map Res.ok ∧
      s1.made.getLast? = some s1.backend.out ∧ css'.getLast? = some cs ∧ s1.prev = s.prev ∧ s1.consumers = s.consumers ∧
      (consumerReport cs = s.prev ∧ s.consumers.Sublist (css'.map consumerReport) ∨ s.consumers.Sublist (css'.dropLast.map consumerReport)) := by
    rcases k3 with ⟨a1, b', ch, a2, rfl⟩ | ⟨a1, rfl⟩
    · refine ⟨css ++ [cs], ?_, by simp, by simp, rfl, rfl, .inr (by simpa using h.sub)⟩
      simp only [List.map_append, h.codes, List.map_cons, List.map_nil]
      rw [← w2]
    · have hb : b.out = s.backend.out := feed_out k2
      have hlast := h.last a1
      have hc : css.getLast? = some cs := by
        have : (s.made.map KeymapOutput.pressedConsumerCodes).getLast? = some (.ok cs) := by
          rw [List.getLast?_map, hlast, Option.map_some, ← hb]; exact congrArg some w2
        rw [h.codes, List.getLast?_map] at this
        cases hg : css.getLast? with
        | none => rw [hg] at this; cases this
        | some x => rw [hg] at this; simp only [Option.map_some, Option.some.injEq, Res.ok.injEq] at this; rw [this]
      refine ⟨css, h.codes, by simp only [hb]; exact hlast, hc, rfl, rfl, ?_⟩
      rcases h.dropped with hd | hd
      · rw [hc] at hd
        simp only [Option.map_some, Option.some.injEq] at hd
        exact .inl ⟨hd, h.sub⟩
      · exact .inr hd
  have hcss := split_last q3
  have hsub : s.consumers.Sublist (css'.map consumerReport) := by
    rcases q6 with ⟨_, q6⟩ | q6
    · exact q6
    · rw [hcss, List.map_append]; exact q6.trans (List.sublist_append_left _ _)
  rw [q4, q5] at w4
  unfold writeConsumer at w4
  have hkeep : prev = s.prev → consumers = s.consumers → ∃ css'', Consumed { s1 with
      success := m.keyboard != .wouldBlock
      prev := prev
      sent := if m.keyboard = .ok then s1.sent ++ [codes] else s1.sent
      consumers := consumers
      mice := if m.mouse = .ok then s1.mice ++ [s1.backend.out.pressedMouseOutput] else s1.mice } css'' := by
    rintro rfl rfl
    refine ⟨css', q1, fun _ => q2, h.prev, h.change, hsub, ?_⟩
    rcases q6 with ⟨q6, _⟩ | q6
    · left; rw [q3, Option.map_some, q6]
    · exact .inr q6
  split at w4
  · next hne =>
    cases hm : m.consumer with
    | wouldBlock => rw [hm] at w4; cases w4; exact hkeep rfl rfl
    | error => rw [hm] at w4; cases w4
    | duplicate => rw [hm] at w4; cases w4
    | ok =>
      rw [hm] at w4; cases w4
      refine ⟨css', q1, fun _ => q2, by simp [List.getLastD_eq_getLast?], ?_, ?_, ?_⟩
      · show once (nothing :: (s.consumers ++ [consumerReport cs])) = _
        rw [← List.cons_append, once_snoc, if_neg, h.change]
        rw [getLastD_cons_last, ← h.prev]
        intro he
        exact hne (Option.some.inj he).symm
      · rcases q6 with ⟨q6, _⟩ | q6
        · exact absurd q6 hne
        · show (s.consumers ++ [consumerReport cs]).Sublist _
          rw [hcss, List.map_append]
          exact q6.append (List.Sublist.refl _)
      · left; rw [q3]; rfl
  · cases w4; exact hkeep rfl rfl

theorem Consumed.run {ms : List Milli} : ∀ {s s' : Board R Ev Ctx PKS KS} {css : List (List Byte)},
    Consumed s css → s.run C n indices ms = .ok s' → ∃ css', Consumed s' css' := by
  induction ms with
  | nil => intro s s' rs h hr; cases hr; exact ⟨rs, h⟩
  | cons m ms ih =>
    intro s s' rs h hr
    obtain ⟨s1, g1, g2⟩ := Res.bind_eq_ok.1 hr
    obtain ⟨rs1, h1⟩ := h.step g1
    exact ih h1 g2

theorem Consumed.new (rows cols : Nat) (km : KM R Ev Ctx PKS KS) : Consumed (Board.new rows cols km) [] :=
  ⟨rfl, fun h => (nomatch h), rfl, rfl, List.Sublist.refl _, .inr (List.Sublist.refl _)⟩

theorem consumerReport_eq : consumerReport = firstFour := by
  funext codes
  rcases codes with _ | ⟨a, _ | ⟨b, _ | ⟨c, _ | ⟨d, _⟩⟩⟩⟩ <;> rfl

/-- C87. The consumer reports the driver accepts are some of those of the outputs of the keymap, in their order; each is another than the one before. -/
theorem C87_consumer_partial {rows cols : Nat} {km : KM R Ev Ctx PKS KS} {ms : List Milli} {s : Board R Ev Ctx PKS KS}
    (h : (Board.new rows cols km).run C n indices ms = .ok s) :
    ∃ css : List (List Byte), s.made.map KeymapOutput.pressedConsumerCodes = css.map .ok ∧ s.consumers.Sublist (css.map firstFour) ∧
      once (nothing :: s.consumers) = nothing :: s.consumers := by
  obtain ⟨css, hc⟩ := (Consumed.new rows cols km).run h
  exact ⟨css, hc.codes, consumerReport_eq ▸ hc.sub, hc.change⟩

/-- C87. As soon as the driver takes a consumer report, the computer knows the consumer codes of the keymap as they are (the first four). -/
theorem C87_current {rows cols : Nat} {km : KM R Ev Ctx PKS KS} {ms : List Milli} {m : Milli} {s : Board R Ev Ctx PKS KS}
    (h : (Board.new rows cols km).run C n indices (ms ++ [m]) = .ok s) (hm : m.consumer ≠ .wouldBlock) :
    ∃ cs, s.backend.out.pressedConsumerCodes = .ok cs ∧ s.consumers.getLastD nothing = firstFour cs := by
  rw [← consumerReport_eq]
  obtain ⟨css, hc⟩ := (Consumed.new rows cols km).run h
  obtain ⟨s0, g1, g2⟩ := run_split h
  obtain ⟨s1, g3, g4⟩ := Res.bind_eq_ok.1 g2
  cases g4
  obtain ⟨s2, g5, g6⟩ := step_ok g3
  obtain ⟨codes, cs, prev, consumers, w1, w2, w3, w4, rfl⟩ := write_ok g6
  refine ⟨cs, w2, ?_⟩
  rw [← hc.prev]
  show prev = _
  unfold writeConsumer at w4
  split at w4
  · cases hq : m.consumer with
    | wouldBlock => exact absurd hq hm
    | error => rw [hq] at w4; cases w4
    | duplicate => rw [hq] at w4; cases w4
    | ok => rw [hq] at w4; cases w4; rfl
  · next he =>
    cases w4
    exact (Classical.not_not.1 he).symm

/-- C87. If no report ever has to wait, each tick of the keymap gives one mouse report, with its movement. -/
theorem C87_mouse_partial {rows cols : Nat} {km : KM R Ev Ctx PKS KS} {ms : List Milli} {s : Board R Ev Ctx PKS KS}
    (h : (Board.new rows cols km).run C n indices ms = .ok s) (hp : ∀ m ∈ ms, m.keyboard ≠ .wouldBlock ∧ m.mouse = .ok) :
    s.mice = s.made.map KeymapOutput.pressedMouseOutput := by
  suffices H : ∀ (ms : List Milli) (s0 : Board R Ev Ctx PKS KS), (∀ m ∈ ms, m.keyboard ≠ .wouldBlock ∧ m.mouse = .ok) → s0.success = true →
      s0.mice = s0.made.map KeymapOutput.pressedMouseOutput → s0.run C n indices ms = .ok s → s.mice = s.made.map KeymapOutput.pressedMouseOutput from
    H ms _ hp rfl rfl h
  intro ms
  induction ms with
  | nil => intro s0 _ _ h0 hr; cases hr; exact h0
  | cons m ms ih =>
    intro s0 hp hs h0 hr
    obtain ⟨s1, g1, g2⟩ := Res.bind_eq_ok.1 hr
    obtain ⟨s2, g5, g6⟩ := step_ok g1
    obtain ⟨codes, cs, prev, consumers, w1, w2, w3, w4, rfl⟩ := write_ok g6
    obtain ⟨deb, es, b, k1, k2, k3⟩ := scan_ok g5
    obtain ⟨p1, p2⟩ := hp m (by simp)
    refine ih _ (fun m hm => hp m (by simp [hm])) (by simpa using p1) ?_ g2
    rcases k3 with ⟨a1, b', ch, a2, rfl⟩ | ⟨a1, rfl⟩
    · simp [p2, h0]
    · rw [hs] at a1; cases a1

end

/-! ## C88: debouncing -/

/-- How many entries at the front are this one. -/
def runLen (r : Levels) : List Levels → Nat
  | [] => 0
  | x :: h => if x = r then runLen r h + 1 else 0

theorem take_replicate_iff (r : Levels) (k : Nat) (h : List Levels) : h.take k = List.replicate k r ↔ k ≤ runLen r h := by
  induction k generalizing h with
  | zero => simp
  | succ k ih =>
    cases h with
    | nil => simp [runLen, List.replicate_succ]
    | cons x h =>
      simp only [List.take_succ_cons, List.replicate_succ, List.cons.injEq, runLen, ih]
      split
      · next hx => simp [hx]
      · next hx => simp [hx]

/-- What the debouncer remembers of what has been read, newest first. -/
structure Remembers (z : Levels) (d : Debouncer) (h : List Levels) : Prop where
  cur : d.cur = stable z h
  idle : (h = [] ∨ h.head? = some d.cur) → d.since = 0
  run : ∀ r, h.head? = some r → r ≠ d.cur → d.new = r ∧ d.since = runLen r h

theorem Remembers.update {z : Levels} {d : Debouncer} {h : List Levels} (hd : Remembers z d h) (raw : Levels) :
    Remembers z (d.update raw).1 (raw :: h) ∧ ((d.update raw).2 = true ↔ d.cur ≠ (d.update raw).1.cur) ∧
      ((d.update raw).2 = true → (d.update raw).1.new = d.cur) := by
  unfold Debouncer.update
  by_cases hc : d.cur = raw
  · rw [if_pos hc]
    refine ⟨⟨?_, fun _ => rfl, fun r hr hne => ?_⟩, by simp, by simp⟩
    · show d.cur = _
      rw [stable]
      split
      · exact hc
      · exact hd.cur
    · simp only [List.head?_cons, Option.some.injEq] at hr
      exact absurd (hr.symm.trans hc.symm) hne
  · rw [if_neg hc]
    have key : ∃ d1 : Debouncer, (if d.new ≠ raw then { d with new := raw, since := 1 } else { d with since := d.since + 1 }) = d1 ∧ d1.cur = d.cur ∧ d1.new = raw ∧
        d1.since = runLen raw (raw :: h) := by
      refine ⟨_, rfl, ?_, ?_, ?_⟩
      · split <;> rfl
      · split
        · rfl
        · next hn => exact Classical.not_not.1 hn
      · simp only [runLen, if_true]
        cases h with
        | nil =>
          split
          · rfl
          · simp [runLen, hd.idle (.inl rfl)]
        | cons x h =>
          by_cases hx : x = d.cur
          · have h0 := hd.idle (.inr (by simp [hx]))
            have : runLen raw (x :: h) = 0 := by rw [runLen, if_neg (fun he => hc (hx.symm.trans he))]
            rw [this]
            split
            · rfl
            · simp [h0]
          · obtain ⟨r1, r2⟩ := hd.run x rfl hx
            split
            · next hn =>
              rw [r1] at hn
              rw [runLen, if_neg hn]
            · next hn =>
              have : x = raw := r1.symm.trans (Classical.not_not.1 hn)
              subst this
              rw [show ({ d with since := d.since + 1 } : Debouncer).since = d.since + 1 from rfl, r2]
    obtain ⟨d1, e1, e2, e3, e4⟩ := key
    simp only [e1]
    have hiff := take_replicate_iff raw 26 (raw :: h)
    by_cases hs : d1.since > bounces
    · rw [if_pos hs]
      have h26 : 26 ≤ runLen raw (raw :: h) := by rw [← e4]; exact hs
      refine ⟨⟨?_, fun _ => rfl, fun r hr hne => ?_⟩, ?_, fun _ => e2⟩
      · show d1.new = _
        rw [stable, if_pos (hiff.2 h26), e3]
      · simp only [List.head?_cons, Option.some.injEq] at hr
        exact absurd (hr.symm.trans e3.symm) hne
      · simp only [true_iff]
        rw [e3]; exact hc
    · rw [if_neg hs]
      have h26 : ¬ 26 ≤ runLen raw (raw :: h) := by rw [← e4]; simp only [bounces] at hs; omega
      refine ⟨⟨?_, fun hh => ?_, fun r hr hne => ?_⟩, by simp [e2], by simp⟩
      · show d1.cur = _
        rw [stable, if_neg (fun ht => h26 (hiff.1 ht)), e2]; exact hd.cur
      · rcases hh with hh | hh
        · cases hh
        · simp only [List.head?_cons, Option.some.injEq] at hh
          exact absurd (e2.symm.trans hh.symm) hc
      · simp only [List.head?_cons, Option.some.injEq] at hr
        subst hr
        exact ⟨e3, e4⟩

theorem Remembers.start (z : Levels) : Remembers z ⟨z, z, 0⟩ [] := ⟨rfl, fun _ => rfl, fun r hr => nomatch hr⟩

theorem scans_fst (d : Debouncer) (raws : List Levels) : (scans d raws).1 = raws.foldl (fun d raw => (d.update raw).1) d := by
  induction raws generalizing d with
  | nil => rfl
  | cons r rs ih => simp only [scans, Debouncer.events, List.foldl_cons]; exact ih _

theorem Remembers.scans {z : Levels} {d : Debouncer} {h : List Levels} (hd : Remembers z d h) (raws : List Levels) :
    Remembers z (scans d raws).1 (raws.reverse ++ h) := by
  induction raws generalizing d h with
  | nil => exact hd
  | cons r rs ih =>
    have := ih (hd.update r).1
    rw [scans_fst] at this ⊢
    simpa using this

/-- C88. The levels the debouncer stands for are those that have been read 26 times in a row last. -/
theorem C88_debounced (z : Levels) (raws : List Levels) : (scans ⟨z, z, 0⟩ raws).1.cur = stable z raws.reverse := by
  have := ((Remembers.start z).scans raws).cur
  rwa [List.append_nil] at this

theorem rowEvents_spec (i : Nat) : ∀ (j : Nat) (o n : List Bool), o.length = n.length →
    (∀ r c, Backend.Event.press r c ∈ rowEvents i j o n ↔ r = i ∧ ∃ k, c = j + k ∧ o[k]? = some false ∧ n[k]? = some true) ∧
    (∀ r c, Backend.Event.release r c ∈ rowEvents i j o n ↔ r = i ∧ ∃ k, c = j + k ∧ o[k]? = some true ∧ n[k]? = some false) ∧
    (rowEvents i j o n).Pairwise (fun a b => Before (place a) (place b)) ∧ ∀ e ∈ rowEvents i j o n, (place e).1 = i ∧ j ≤ (place e).2
  | j, [], [], _ => by simp [rowEvents]
  | j, a :: o, b :: n, h => by
    obtain ⟨h1, h2, h3, h4⟩ := rowEvents_spec i (j + 1) o n (by simpa using h)
    have shift : ∀ (c : Nat) (p q : Bool), (∃ k, c = j + k ∧ (a :: o)[k]? = some p ∧ (b :: n)[k]? = some q) ↔
        (c = j ∧ a = p ∧ b = q) ∨ ∃ k, c = j + 1 + k ∧ o[k]? = some p ∧ n[k]? = some q := by
      intro c p q
      constructor
      · rintro ⟨k, hk, x, y⟩
        cases k with
        | zero => left; exact ⟨hk, by simpa using x, by simpa using y⟩
        | succ k => right; exact ⟨k, by omega, by simpa using x, by simpa using y⟩
      · rintro (⟨rfl, rfl, rfl⟩ | ⟨k, rfl, x, y⟩)
        · exact ⟨0, by simp⟩
        · exact ⟨k + 1, by omega, by simpa using x, by simpa using y⟩
    have hbefore : ∀ e ∈ rowEvents i (j + 1) o n, Before (i, j) (place e) := fun e he => .inr ⟨(h4 e he).1.symm, (h4 e he).2⟩
    have hplace : ∀ e ∈ rowEvents i (j + 1) o n, (place e).1 = i ∧ j ≤ (place e).2 := fun e he => ⟨(h4 e he).1, by have := (h4 e he).2; omega⟩
    cases a <;> cases b <;> simp only [rowEvents, List.mem_cons, h1, h2, shift, Backend.Event.press.injEq, Backend.Event.release.injEq, reduceCtorEq, false_or, false_and, and_false,
      List.pairwise_cons, Bool.false_eq_true, Bool.true_eq_false, and_true, true_and]
    · exact ⟨fun _ _ => trivial, fun _ _ => trivial, h3, hplace⟩
    · refine ⟨fun r c => ?_, fun r c => trivial, ⟨hbefore, h3⟩, ?_⟩
      · constructor
        · rintro (⟨rfl, rfl⟩ | ⟨rfl, h⟩)
          · exact ⟨rfl, .inl rfl⟩
          · exact ⟨rfl, .inr h⟩
        · rintro ⟨rfl, h | h⟩
          · exact .inl ⟨rfl, h⟩
          · exact .inr ⟨rfl, h⟩
      · rintro e (rfl | he)
        · exact ⟨rfl, Nat.le_refl _⟩
        · exact hplace e he
    · refine ⟨fun r c => trivial, fun r c => ?_, ⟨hbefore, h3⟩, ?_⟩
      · constructor
        · rintro (⟨rfl, rfl⟩ | ⟨rfl, h⟩)
          · exact ⟨rfl, .inl rfl⟩
          · exact ⟨rfl, .inr h⟩
        · rintro ⟨rfl, h | h⟩
          · exact .inl ⟨rfl, h⟩
          · exact .inr ⟨rfl, h⟩
      · rintro e (rfl | he)
        · exact ⟨rfl, Nat.le_refl _⟩
        · exact hplace e he
    · exact ⟨fun _ _ => trivial, fun _ _ => trivial, h3, hplace⟩

theorem changedFrom_spec : ∀ (i : Nat) (o n : Levels), o.map List.length = n.map List.length →
    (∀ r c, Backend.Event.press r c ∈ changedFrom i o n ↔ ∃ k, r = i + k ∧ entry o k c = some false ∧ entry n k c = some true) ∧
    (∀ r c, Backend.Event.release r c ∈ changedFrom i o n ↔ ∃ k, r = i + k ∧ entry o k c = some true ∧ entry n k c = some false) ∧
    (changedFrom i o n).Pairwise (fun a b => Before (place a) (place b)) ∧ ∀ e ∈ changedFrom i o n, i ≤ (place e).1
  | i, [], [], _ => by simp [changedFrom, entry]
  | i, a :: o, b :: n, h => by
    simp only [List.map_cons, List.cons.injEq] at h
    obtain ⟨h1, h2, h3, h4⟩ := changedFrom_spec (i + 1) o n h.2
    obtain ⟨g1, g2, g3, g4⟩ := rowEvents_spec i 0 a b h.1
    have shift : ∀ (r c : Nat) (p q : Bool), (∃ k, r = i + k ∧ entry (a :: o) k c = some p ∧ entry (b :: n) k c = some q) ↔
        (r = i ∧ ∃ k, c = 0 + k ∧ a[k]? = some p ∧ b[k]? = some q) ∨ ∃ k, r = i + 1 + k ∧ entry o k c = some p ∧ entry n k c = some q := by
      intro r c p q
      constructor
      · rintro ⟨k, hk, x, y⟩
        cases k with
        | zero => left; exact ⟨hk, c, by omega, by simpa [entry] using x, by simpa [entry] using y⟩
        | succ k => right; exact ⟨k, by omega, by simpa [entry] using x, by simpa [entry] using y⟩
      · rintro (⟨rfl, k, hk, x, y⟩ | ⟨k, rfl, x, y⟩)
        · have : c = k := by omega
          subst this
          exact ⟨0, rfl, by simpa [entry] using x, by simpa [entry] using y⟩
        · exact ⟨k + 1, by omega, by simpa [entry] using x, by simpa [entry] using y⟩
    refine ⟨fun r c => ?_, fun r c => ?_, ?_, fun e he => ?_⟩
    · simp only [changedFrom, List.mem_append, g1, h1, shift]
    · simp only [changedFrom, List.mem_append, g2, h2, shift]
    · simp only [changedFrom, List.pairwise_append]
      exact ⟨g3, h3, fun e he f hf => .inl (by have := (g4 e he).1; have := h4 f hf; omega)⟩
    · rcases List.mem_append.1 he with he | he
      · have := (g4 e he).1; omega
      · have := h4 e he; omega

/-- C88. The events of a scan are the changes of the debounced levels: a switch that is closed now and was not is pressed, one that was closed and is not is
released, each once, row by row and from left to right. -/
theorem C88_events {rows cols : Nat} {z : Levels} (hz : Size rows cols z) (raws : List Levels) (raw : Levels) (hr : ∀ m ∈ raws, Size rows cols m)
    (hraw : Size rows cols raw) {before after : Levels} (hb : before = stable z raws.reverse) (ha : after = stable z (raw :: raws.reverse))
    {es : List Backend.Event} (he : es = ((scans ⟨z, z, 0⟩ raws).1.events raw).2) :
    (∀ r c, .press r c ∈ es ↔ entry before r c = some false ∧ entry after r c = some true) ∧
    (∀ r c, .release r c ∈ es ↔ entry before r c = some true ∧ entry after r c = some false) ∧
    es.Pairwise fun a b => Before (place a) (place b) := by
  have hrem := (Remembers.start z).scans raws
  rw [List.append_nil] at hrem
  obtain ⟨u1, u2, u3⟩ := hrem.update raw
  have hbef : (scans ⟨z, z, 0⟩ raws).1.cur = before := by rw [hb]; exact hrem.cur
  have haft : ((scans ⟨z, z, 0⟩ raws).1.update raw).1.cur = after := by rw [ha]; exact u1.cur
  have hev : es = if ((scans ⟨z, z, 0⟩ raws).1.update raw).2 then changedFrom 0 ((scans ⟨z, z, 0⟩ raws).1.update raw).1.new after else [] := by
    rw [he, ← haft]; rfl
  have hst : ∀ h : List Levels, (∀ m ∈ h, Size rows cols m) → Size rows cols (stable z h) := by
    intro h
    induction h with
    | nil => intro _; exact hz
    | cons x h ih =>
      intro hx
      rw [stable]
      split
      · exact hx x (by simp)
      · exact ih fun m hm => hx m (by simp [hm])
  have hsz : ∀ {m m' : Levels}, Size rows cols m → Size rows cols m' → m.map List.length = m'.map List.length := by
    intro m m' h h'
    have : ∀ m : Levels, Size rows cols m → m.map List.length = List.replicate rows cols := by
      intro m h
      rw [← h.1, List.eq_replicate_iff]
      exact ⟨by simp, fun b hb => by obtain ⟨r, hr, rfl⟩ := List.mem_map.1 hb; exact h.2 r hr⟩
    rw [this m h, this m' h']
  have s1 : Size rows cols before := by rw [hb]; exact hst _ fun m hm => hr m (by simpa using hm)
  have s2 : Size rows cols after := by
    rw [ha]
    refine hst _ fun m hm => ?_
    rcases List.mem_cons.1 hm with rfl | hm
    · exact hraw
    · exact hr m (by simpa using hm)
  cases hch : ((scans ⟨z, z, 0⟩ raws).1.update raw).2 with
  | false =>
    rw [hch, if_neg (by decide)] at hev
    have heq : before = after := by
      rw [← hbef, ← haft]
      exact Classical.not_not.1 fun hne => by rw [u2.2 hne] at hch; cases hch
    subst hev heq
    refine ⟨fun r c => ?_, fun r c => ?_, List.Pairwise.nil⟩
    · simp only [List.not_mem_nil, false_iff]; rintro ⟨x, y⟩; rw [x] at y; cases y
    · simp only [List.not_mem_nil, false_iff]; rintro ⟨x, y⟩; rw [x] at y; cases y
  | true =>
    rw [hch, if_pos rfl, u3 hch, hbef] at hev
    obtain ⟨c1, c2, c3, _⟩ := changedFrom_spec 0 before after (hsz s1 s2)
    subst hev
    refine ⟨fun r c => ?_, fun r c => ?_, c3⟩
    · rw [c1]
      constructor
      · rintro ⟨k, hk, h⟩; rw [Nat.zero_add] at hk; rw [hk]; exact h
      · intro h; exact ⟨r, by omega, h⟩
    · rw [c2]
      constructor
      · rintro ⟨k, hk, h⟩; rw [Nat.zero_add] at hk; rw [hk]; exact h
      · intro h; exact ⟨r, by omega, h⟩

theorem length_le_of_nodup {α : Type} [DecidableEq α] : ∀ (xs ys : List α), xs.Nodup → (∀ x ∈ xs, x ∈ ys) → xs.length ≤ ys.length
  | [], _, _, _ => Nat.zero_le _
  | x :: xs, ys, hn, hs => by
    obtain ⟨h1, h2⟩ := List.nodup_cons.1 hn
    have hx : x ∈ ys := hs x (by simp)
    have := length_le_of_nodup xs (ys.erase x) h2 fun y hy => by
      have hne : y ≠ x := fun he => h1 (he ▸ hy)
      exact (List.mem_erase_of_ne hne).2 (hs y (by simp [hy]))
    rw [List.length_erase_of_mem hx] at this
    have := List.length_pos_of_mem hx
    simp only [List.length_cons]
    omega

/-- C88. A scan in which at most eight switches change, after debouncing, does not stop the firmware. -/
theorem C88_room_partial {rows cols : Nat} {z : Levels} (hz : Size rows cols z) (raws : List Levels) (raw : Levels) (hr : ∀ m ∈ raws, Size rows cols m)
    (hraw : Size rows cols raw) (ps : List (Nat × Nat)) (h8 : ps.length ≤ 8)
    (hps : ∀ r c, entry (stable z raws.reverse) r c ≠ entry (stable z (raw :: raws.reverse)) r c → (r, c) ∈ ps) :
    keyboardEvents (scans ⟨z, z, 0⟩ raws).1 raw = .ok ((scans ⟨z, z, 0⟩ raws).1.events raw) := by
  obtain ⟨e1, e2, e3⟩ := C88_events hz raws raw hr hraw rfl rfl rfl
  refine if_pos (Nat.le_trans ?_ h8)
  have hn : (((scans ⟨z, z, 0⟩ raws).1.events raw).2.map place).Nodup := by
    rw [List.nodup_iff_pairwise_ne, List.pairwise_map]
    refine e3.imp fun {a b} hab he => ?_
    rw [he] at hab
    rcases hab with hab | hab <;> omega
  have := length_le_of_nodup _ ps hn fun p hp => by
    obtain ⟨e, he, rfl⟩ := List.mem_map.1 hp
    cases e with
    | press r c => obtain ⟨x, y⟩ := (e1 r c).1 he; exact hps r c (by rw [x, y]; decide)
    | release r c => obtain ⟨x, y⟩ := (e2 r c).1 he; exact hps r c (by rw [x, y]; decide)
  rwa [List.length_map] at this

namespace Demo

/-- Three keys in a row: volume up, the cursor to the right, and a. -/
def refs : List Comp.Ref := [.consumer 0xE9, .mouse .cursorRight, .keyboard (.keyCode 4)]

def C : Cfg Comp.Ref Comp.Ev Comp.Ctx Comp.PKS Comp.KS := ⟨Comp.system {}, refs, Search.std⟩

def indices : List (List (Option Nat)) := [[some 0, some 1, some 2]]

def start : Board Comp.Ref Comp.Ev Comp.Ctx Comp.PKS Comp.KS := Board.new 1 3 (KM.new (Comp.Ctx.fromConfig Keyboard.Demo.config))

/-- For `k` milliseconds. -/
def during (k : Nat) (raw : List Bool) (keyboard consumer mouse : Answer) : List Milli := List.replicate k ⟨[raw], keyboard, consumer, mouse⟩

/-- Volume up is held; released and pressed again, while the driver has no room for a consumer report; and then held. -/
def twice : List Milli :=
  during 40 [true, false, false] .ok .ok .ok ++ during 40 [false, false, false] .ok .wouldBlock .ok ++ during 40 [true, false, false] .ok .wouldBlock .ok ++
    during 40 [true, false, false] .ok .ok .ok

/-- The cursor key is held for a while, in which keyboard reports wait, or mouse reports. -/
def moving (keyboard mouse : Answer) : List Milli := during 40 [false, true, false] .ok .ok .ok ++ during 20 [false, true, false] keyboard .ok mouse

/-- How far the cursor goes to the right. -/
def way (ms : List MouseOutput) : Int := (ms.map (·.x)).foldl (· + ·) 0


set_option maxRecDepth 100000 in
theorem twice_eq : (fun s => (once (s.made.map KeymapOutput.pressedConsumerCodes), s.consumers)) <$> start.run C 3 indices twice =
    .ok ([.ok [], .ok [0xE9], .ok [], .ok [0xE9]], [[0xE9, 0, 0, 0]]) := by decide +kernel

set_option maxRecDepth 100000 in
theorem moving_eq : (fun s => (way (s.made.map KeymapOutput.pressedMouseOutput), way s.mice)) <$> start.run C 3 indices (moving .wouldBlock .ok) = .ok (80, 175) ∧
    (fun s => (way (s.made.map KeymapOutput.pressedMouseOutput), way s.mice)) <$> start.run C 3 indices (moving .ok .wouldBlock) = .ok (175, 75) := by
  decide +kernel

/-- a is held, and the report of its release waits. -/
def held : List Milli :=
  during 40 [false, false, true] .ok .ok .ok ++ during 40 [false, false, false] .wouldBlock .ok .ok ++ during 40 [false, false, false] .ok .ok .ok

set_option maxRecDepth 100000 in
theorem held_eq : (fun s => (once s.sent, s.success)) <$> start.run C 3 indices held = .ok ([[], [4], []], true) := by decide +kernel

/-- If the driver never says `Duplicate`, it says so lawfully. -/
theorem lawful_of {R Ev Ctx PKS KS : Type} {C : Cfg R Ev Ctx PKS KS} {n : Nat} {indices : List (List (Option Nat))} {Rep : Type} (make : List Byte → Rep) :
    ∀ (ms : List Milli) (s : Board R Ev Ctx PKS KS), (∀ m ∈ ms, m.keyboard ≠ .duplicate) → Lawful C n indices make s ms
  | [], _, _ => trivial
  | m :: ms, _, h => ⟨fun hd => absurd hd (h m (by simp)), fun s' _ => lawful_of make ms s' fun m hm => h m (by simp [hm])⟩

/-- The hypotheses of C86 hold of a history in which a report waits. -/
example : ∃ s, start.run C 3 indices held = .ok s ∧ Lawful C 3 indices id start held ∧ once s.sent = [[], [4], []] := by
  obtain ⟨s, h1, h2⟩ := Res.map_eq_ok.1 held_eq
  exact ⟨s, h1, lawful_of id held start (by decide), congrArg Prod.fst h2⟩

end Demo

/-- C87, refuted: volume up is pressed twice, and the computer knows of one press. While the driver has no room for consumer reports the keymap goes on, and
what it says in between is lost. -/
theorem C87_lost_refuted : ∃ s, Demo.start.run Demo.C 3 Demo.indices Demo.twice = .ok s ∧
    once (s.made.map KeymapOutput.pressedConsumerCodes) = [.ok [], .ok [0xE9], .ok [], .ok [0xE9]] ∧ s.consumers = [[0xE9, 0, 0, 0]] := by
  obtain ⟨s, h1, h2⟩ := Res.map_eq_ok.1 Demo.twice_eq
  exact ⟨s, h1, congrArg Prod.fst h2, congrArg Prod.snd h2⟩

/-- C87, refuted: while a keyboard report waits, the last movement of the mouse is sent again each millisecond: the cursor goes 175 to the right where the
keymap says 80. -/
theorem C87_repeats_refuted : ∃ s, Demo.start.run Demo.C 3 Demo.indices (Demo.moving .wouldBlock .ok) = .ok s ∧
    Demo.way (s.made.map KeymapOutput.pressedMouseOutput) = 80 ∧ Demo.way s.mice = 175 := by
  obtain ⟨s, h1, h2⟩ := Res.map_eq_ok.1 Demo.moving_eq.1
  exact ⟨s, h1, congrArg Prod.fst h2, congrArg Prod.snd h2⟩

/-- C87, refuted: while the driver has no room for mouse reports, movements are lost: the cursor goes 75 to the right where the keymap says 175. -/
theorem C87_drops_refuted : ∃ s, Demo.start.run Demo.C 3 Demo.indices (Demo.moving .ok .wouldBlock) = .ok s ∧
    Demo.way (s.made.map KeymapOutput.pressedMouseOutput) = 175 ∧ Demo.way s.mice = 75 := by
  obtain ⟨s, h1, h2⟩ := Res.map_eq_ok.1 Demo.moving_eq.2
  exact ⟨s, h1, congrArg Prod.fst h2, congrArg Prod.snd h2⟩

/-- C88, refuted: nine switches that are closed together stop the firmware. -/
theorem C88_nine_refuted (z : Levels) (hz : z = List.replicate 3 [false, false, false]) (closed : Levels) (hc : closed = List.replicate 3 [true, true, true]) :
    keyboardEvents (scans ⟨z, z, 0⟩ (List.replicate 25 closed)).1 closed = .panic .capacity := by
  subst hz hc
  decide +kernel

/-- C88, refuted: events are not in the order of the switches. The right one of two is closed ten scans before the left one, and its event comes second; because
a change of any switch makes all others wait. -/
theorem C88_order_refuted : (scans ⟨[[false, false]], [[false, false]], 0⟩ (List.replicate 10 [[false, true]] ++ List.replicate 26 [[true, true]])).2 =
    List.replicate 35 [] ++ [[.press 0 0, .press 0 1]] := by decide +kernel

/-- The hypotheses of C88 hold of 26 scans of a switch that has been closed. -/
example : ((scans ⟨[[false, false]], [[false, false]], 0⟩ (List.replicate 25 [[false, true]])).1.events [[false, true]]).2 = [.press 0 1] ∧
    Size 1 2 [[false, true]] ∧ stable [[false, false]] (List.replicate 26 [[false, true]]) = [[false, true]] := by
  refine ⟨by decide +kernel, ⟨rfl, by decide⟩, by decide +kernel⟩

end Verif.Rtic
