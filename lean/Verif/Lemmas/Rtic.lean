import Verif.Spec.Rtic
import Verif.Lemmas.Keyboard

/-!
# The Rust firmwares
-/

namespace Verif.Rtic

theorem once_snoc {α : Type} [DecidableEq α] (rs : List α) (r : α) : once (rs ++ [r]) = if rs.getLast? = some r then once rs else once rs ++ [r] := by
  induction rs with
  | nil => rfl
  | cons x rs ih =>
    cases rs with
    | nil =>
      simp only [List.cons_append, List.nil_append, once, List.getLast?_singleton, Option.some.injEq]
      split
      · next h => rw [h]
      · rfl
    | cons y ys =>
      have hl : (x :: y :: ys).getLast? = (y :: ys).getLast? := by simp
      rw [hl]
      simp only [List.cons_append, once]
      simp only [List.cons_append] at ih
      rw [ih]
      split <;> split <;> simp

theorem once_getLast {α : Type} [DecidableEq α] (rs : List α) : (once rs).getLast? = rs.getLast? := by
  induction rs with
  | nil => rfl
  | cons x rs ih =>
    cases rs with
    | nil => rfl
    | cons y ys =>
      simp only [once]
      split
      · rw [ih]; simp
      · rw [List.getLast?_cons, ih, List.getLast?_cons_cons, List.getLast?_cons]
        rfl

section

variable {R Ev Ctx PKS KS : Type} {C : Cfg R Ev Ctx PKS KS} {n : Nat} {indices : List (List (Option Nat))}

theorem coreScan_ok {s s' : Core R Ev Ctx PKS KS} {raw : Levels} (h : s.scan C n indices raw = .ok s') :
    ∃ deb es b, keyboardEvents s.deb raw = .ok (deb, es) ∧ feed C n indices s.backend es = .ok b ∧
      ((s.success = true ∧ ∃ b' ch, b.tick C n = .ok (b', ch) ∧ s' = { s with deb := deb, backend := b', made := s.made ++ [b'.out] }) ∨
        (s.success = false ∧ s' = { s with deb := deb, backend := b })) := by
  unfold Core.scan at h
  obtain ⟨⟨deb, es⟩, h1, h⟩ := Res.bind_eq_ok.1 h
  obtain ⟨b, h2, h⟩ := Res.bind_eq_ok.1 h
  refine ⟨deb, es, b, h1, h2, ?_⟩
  cases hs : s.success with
  | true =>
    rw [hs, if_pos rfl] at h
    obtain ⟨⟨b', ch⟩, h3, h⟩ := Res.bind_eq_ok.1 h
    cases h
    exact .inl ⟨rfl, b', ch, h3, rfl⟩
  | false =>
    rw [hs, if_neg (by decide)] at h
    cases h
    exact .inr ⟨rfl, rfl⟩

theorem scan_ok {s s' : Board R Ev Ctx PKS KS} {raw : Levels} (h : s.scan C n indices raw = .ok s') :
    ∃ deb es b, keyboardEvents s.deb raw = .ok (deb, es) ∧ feed C n indices s.backend es = .ok b ∧
      ((s.success = true ∧ ∃ b' ch, b.tick C n = .ok (b', ch) ∧ s' = { s with deb := deb, backend := b', made := s.made ++ [b'.out] }) ∨
        (s.success = false ∧ s' = { s with deb := deb, backend := b })) := by
  obtain ⟨core, h1, h2⟩ := Res.bind_eq_ok.1 h
  cases h2
  obtain ⟨deb, es, b, k1, k2, k3⟩ := coreScan_ok h1
  refine ⟨deb, es, b, k1, k2, ?_⟩
  rcases k3 with ⟨a1, b', ch, a2, rfl⟩ | ⟨a1, rfl⟩
  · exact .inl ⟨a1, b', ch, a2, rfl⟩
  · exact .inr ⟨a1, rfl⟩

theorem feed_out {es : List Backend.Event} : ∀ {b b' : Backend.Keyboard R Ev Ctx PKS KS}, feed C n indices b es = .ok b' → b'.out = b.out := by
  induction es with
  | nil => intro b b' h; cases h; rfl
  | cons e es ih =>
    intro b b' h
    obtain ⟨ie, h1, h⟩ := Res.bind_eq_ok.1 h
    cases ie with
    | none => exact ih h
    | some ie =>
      obtain ⟨b1, h2, h⟩ := Res.bind_eq_ok.1 h
      rw [ih h]
      obtain ⟨km, _, h3⟩ := Res.bind_eq_ok.1 h2
      cases h3; rfl

theorem write_ok {s s' : Board R Ev Ctx PKS KS} {m : Milli} (h : s.write m = .ok s') :
    ∃ codes cs prev consumers, s.backend.out.pressedKeyCodes = .ok codes ∧ s.backend.out.pressedConsumerCodes = .ok cs ∧ m.keyboard ≠ .error ∧
      writeConsumer s.prev s.consumers (consumerReport cs) m.consumer = .ok (prev, consumers) ∧
      s' = { s with
        success := m.keyboard != .wouldBlock
        prev := prev
        sent := if m.keyboard = .ok then s.sent ++ [codes] else s.sent
        consumers := consumers
        mice := if m.mouse = .ok then s.mice ++ [s.backend.out.pressedMouseOutput] else s.mice } := by
  unfold Board.write at h
  obtain ⟨codes, h1, h⟩ := Res.bind_eq_ok.1 h
  obtain ⟨success, h2, h⟩ := Res.bind_eq_ok.1 h
  obtain ⟨cs, h3, h⟩ := Res.bind_eq_ok.1 h
  obtain ⟨⟨prev, consumers⟩, h4, h⟩ := Res.bind_eq_ok.1 h
  cases h
  refine ⟨codes, cs, prev, consumers, h1, h3, ?_, h4, ?_⟩
  · intro he; rw [he] at h2; cases h2
  · have : success = (m.keyboard != .wouldBlock) := by
      cases hm : m.keyboard <;> rw [hm] at h2 <;> cases h2 <;> rfl
    subst this; rfl

theorem step_ok {s s' : Board R Ev Ctx PKS KS} {m : Milli} (h : s.step C n indices m = .ok s') :
    ∃ s1, s.scan C n indices m.raw = .ok s1 ∧ s1.write m = .ok s' := Res.bind_eq_ok.1 h

theorem run_append {s s1 s2 : Board R Ev Ctx PKS KS} {xs ys : List Milli} (h1 : s.run C n indices xs = .ok s1) (h2 : s1.run C n indices ys = .ok s2) :
    s.run C n indices (xs ++ ys) = .ok s2 := by
  induction xs generalizing s with
  | nil => cases h1; exact h2
  | cons x xs ih =>
    obtain ⟨d', g1, g2⟩ := Res.bind_eq_ok.1 h1
    exact Res.bind_eq_ok.2 ⟨d', g1, ih g2⟩

theorem run_split {s s2 : Board R Ev Ctx PKS KS} {xs ys : List Milli} (h : s.run C n indices (xs ++ ys) = .ok s2) :
    ∃ s1, s.run C n indices xs = .ok s1 ∧ s1.run C n indices ys = .ok s2 := by
  induction xs generalizing s with
  | nil => exact ⟨s, rfl, h⟩
  | cons x xs ih =>
    obtain ⟨d', g1, g2⟩ := Res.bind_eq_ok.1 h
    obtain ⟨s1, k1, k2⟩ := ih g2
    exact ⟨s1, Res.bind_eq_ok.2 ⟨d', g1, k1⟩, k2⟩

/-- An invariant of histories. -/
theorem run_inv {P : Board R Ev Ctx PKS KS → Prop} (hs : ∀ s m s', P s → s.step C n indices m = .ok s' → P s') {ms : List Milli} :
    ∀ {s s' : Board R Ev Ctx PKS KS}, P s → s.run C n indices ms = .ok s' → P s' := by
  induction ms with
  | nil => intro s s' h hr; cases hr; exact h
  | cons m ms ih =>
    intro s s' h hr
    obtain ⟨s1, g1, g2⟩ := Res.bind_eq_ok.1 hr
    exact ih (hs s m s1 h g1) g2

/-- The key codes of the outputs, those of the last left out if its report waits. -/
structure InOrder {Rep : Type} [DecidableEq Rep] (make : List Byte → Rep) (s : Board R Ev Ctx PKS KS) (rs : List (List Byte)) : Prop where
  codes : s.made.map KeymapOutput.pressedKeyCodes = rs.map .ok
  last : s.success = false → s.made.getLast? = some s.backend.out
  sent : once (s.sent.map make) = once ((if s.success then rs else rs.dropLast).map make)

theorem InOrder.step {Rep : Type} [DecidableEq Rep] {make : List Byte → Rep} {s s' : Board R Ev Ctx PKS KS} {rs : List (List Byte)} {m : Milli}
    (h : InOrder make s rs)
    (hl : m.keyboard = .duplicate → ∀ s1 codes, s.scan C n indices m.raw = .ok s1 → s1.backend.out.pressedKeyCodes = .ok codes →
      s.sent.getLast?.map make = some (make codes))
    (hs : s.step C n indices m = .ok s') : ∃ rs', InOrder make s' rs' := by
  obtain ⟨s1, h1, h2⟩ := step_ok hs
  obtain ⟨codes, cs, prev, consumers, w1, w2, w3, w4, rfl⟩ := write_ok h2
  have hl := fun hd => hl hd s1 codes h1 w1
  obtain ⟨deb, es, b, k1, k2, k3⟩ := scan_ok h1
  -- before the report: all but the last are out
  obtain ⟨rs', q1, q2, q3, q4, q5⟩ : ∃ rs' : List (List Byte), s1.made.map KeymapOutput.pressedKeyCodes = rs'.map Res.ok ∧ s1.made.getLast? = some s1.backend.out ∧
      rs'.getLast? = some codes ∧ once (s.sent.map make) = once (rs'.dropLast.map make) ∧ s1.sent = s.sent := by
    rcases k3 with ⟨a1, b', ch, a2, rfl⟩ | ⟨a1, rfl⟩
    · refine ⟨rs ++ [codes], ?_, by simp, by simp, ?_, rfl⟩
      · simp only [List.map_append, h.codes, List.map_cons, List.map_nil]
        rw [← w1]
      · have := h.sent
        rw [a1, if_pos rfl] at this
        simpa using this
    · have hb : b.out = s.backend.out := feed_out k2
      have hlast := h.last a1
      refine ⟨rs, h.codes, ?_, ?_, ?_, rfl⟩
      · simp only [hb]; exact hlast
      · have : (s.made.map KeymapOutput.pressedKeyCodes).getLast? = some (.ok codes) := by
          rw [List.getLast?_map, hlast, Option.map_some, ← hb]; exact congrArg some w1
        rw [h.codes, List.getLast?_map] at this
        cases hg : rs.getLast? with
        | none => rw [hg] at this; cases this
        | some x => rw [hg] at this; simp only [Option.map_some, Option.some.injEq, Res.ok.injEq] at this; rw [this]
      · have := h.sent
        rw [a1] at this
        simpa using this
  have hrs : rs' = rs'.dropLast ++ [codes] := by
    have hne : rs' ≠ [] := by intro he; rw [he] at q3; cases q3
    have := List.dropLast_concat_getLast hne
    rw [List.getLast?_eq_some_getLast hne] at q3
    simp only [Option.some.injEq] at q3
    rw [← q3]; exact this.symm
  refine ⟨rs', q1, fun _ => q2, ?_⟩
  simp only [q5]
  cases hm : m.keyboard with
  | error => exact absurd hm w3
  | wouldBlock => simpa using q4
  | ok =>
    simp only [if_true, bne_iff_ne, ne_eq, reduceCtorEq, not_false_eq_true]
    have e1 : once ((s.sent ++ [codes]).map make) = once (rs'.map make) := by
      rw [List.map_append, List.map_cons, List.map_nil, once_snoc]
      conv => rhs; rw [hrs, List.map_append, List.map_cons, List.map_nil, once_snoc]
      have : (s.sent.map make).getLast? = (rs'.dropLast.map make).getLast? := by
        rw [← once_getLast, q4, once_getLast]
      rw [this, q4]
    simpa using e1
  | duplicate =>
    have e0 := hl hm
    have e1 : once (s.sent.map make) = once (rs'.map make) := by
      rw [q4]
      conv => rhs; rw [hrs, List.map_append, List.map_cons, List.map_nil, once_snoc]
      have : (s.sent.map make).getLast? = (rs'.dropLast.map make).getLast? := by
        rw [← once_getLast, q4, once_getLast]
      rw [← this, List.getLast?_map, e0, if_pos rfl]
    simpa using e1

theorem InOrder.run {Rep : Type} [DecidableEq Rep] {make : List Byte → Rep} {ms : List Milli} : ∀ {s s' : Board R Ev Ctx PKS KS} {rs : List (List Byte)},
    InOrder make s rs → Lawful C n indices make s ms → s.run C n indices ms = .ok s' → ∃ rs', InOrder make s' rs' := by
  induction ms with
  | nil => intro s s' rs h _ hr; cases hr; exact ⟨rs, h⟩
  | cons m ms ih =>
    intro s s' rs h hl hr
    obtain ⟨s1, g1, g2⟩ := Res.bind_eq_ok.1 hr
    obtain ⟨rs1, h1⟩ := h.step hl.1 g1
    exact ih h1 (hl.2 s1 g1) g2

theorem InOrder.new {Rep : Type} [DecidableEq Rep] (make : List Byte → Rep) (rows cols : Nat) (km : KM R Ev Ctx PKS KS) :
    InOrder make (Board.new rows cols km) [] := ⟨rfl, fun h => (nomatch h), rfl⟩

end

end Verif.Rtic
