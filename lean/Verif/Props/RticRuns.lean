import Verif.Props.Backend
import Verif.Props.Embassy

/-!
# C89 and C90: the Rust firmwares do not stop
-/

namespace Verif.Rtic

open Verif.Board (Queued Entry Cell)
open Verif.Keyboard (Follows start follows_new Within AtMostSixteen atMostSixteen_few)

section

variable {R Ev Ctx PKS KS : Type} {C : Cfg R Ev Ctx PKS KS} {n : Nat} {indices : List (List (Option Nat))}

theorem at_of_entry {r c : Nat} {x : Option Nat} (h : entry indices r c = some x) : Backend.at' indices r c = .ok x := by
  obtain ⟨row, h1, h2⟩ := Option.bind_eq_some_iff.1 h
  unfold Backend.at'
  simp only [h1, h2]

/-- An event of a place of the matrix. -/
def InMatrix (indices : List (List (Option Nat))) (e : Backend.Event) : Prop := ∃ x, entry indices (place e).1 (place e).2 = some x

theorem keymapIndexOf_ok {e : Backend.Event} (h : InMatrix indices e) : Backend.keymapIndexOf indices e = .ok (keyEvent indices e) := by
  obtain ⟨x, hx⟩ := h
  cases e with
  | press r c =>
    have hx' : entry indices r c = some x := hx
    simp only [Backend.keymapIndexOf, at_of_entry hx', Res.ok_bind, keyEvent, hx', Option.join_some]
  | release r c =>
    have hx' : entry indices r c = some x := hx
    simp only [Backend.keymapIndexOf, at_of_entry hx', Res.ok_bind, keyEvent, hx', Option.join_some]

theorem feed_ok {es : List Backend.Event} : ∀ {b : Backend.Keyboard R Ev Ctx PKS KS} {km : KM R Ev Ctx PKS KS}, (∀ e ∈ es, InMatrix indices e) →
    Device.register C n b.km (es.filterMap (keyEvent indices)) = .ok km → ∃ b', feed C n indices b es = .ok b' := by
  induction es with
  | nil => intro b km _ _; exact ⟨b, rfl⟩
  | cons e es ih =>
    intro b km hm h
    have h1 := keymapIndexOf_ok (hm e (by simp))
    cases he : keyEvent indices e with
    | none =>
      rw [List.filterMap_cons_none he] at h
      obtain ⟨b', g⟩ := ih (b := b) (fun e he => hm e (by simp [he])) h
      rw [he] at h1
      exact ⟨b', Res.bind_eq_ok.2 ⟨none, h1, g⟩⟩
    | some ie =>
      rw [List.filterMap_cons_some he] at h
      obtain ⟨km1, h2, h3⟩ := Res.bind_eq_ok.1 h
      obtain ⟨b', g⟩ := ih (b := { b with km := km1 }) (fun e he => hm e (by simp [he])) h3
      rw [he] at h1
      exact ⟨b', Res.bind_eq_ok.2 ⟨_, h1, Res.bind_eq_ok.2 ⟨{ b with km := km1 }, Res.bind_eq_ok.2 ⟨km1, h2, rfl⟩, g⟩⟩⟩

theorem events_inMatrix {rows cols count : Nat} (hl : Laid rows cols count indices) {raws : List Levels} {raw : Levels} (hr : ∀ m ∈ raws, Size rows cols m)
    (hraw : Size rows cols raw) : ∀ e ∈ ((debounced rows cols raws).events raw).2, InMatrix indices e := by
  obtain ⟨e1, e2, _⟩ := C88_events (allOpen_size rows cols) raws raw hr hraw rfl rfl rfl
  have hz : Size rows cols (stable (allOpen rows cols) raws.reverse) := stable_size (allOpen_size rows cols) _ fun m hm => hr m (List.mem_reverse.1 hm)
  intro e he
  cases e with
  | press r c => exact entry_some hz hl.size ((e1 r c).1 he).1
  | release r c => exact entry_some hz hl.size ((e2 r c).1 he).1

end

theorem keyCodes_ok {out : KeymapOutput} (h : out.length ≤ 16) : ∃ codes, out.pressedKeyCodes = .ok codes := by
  have h1 : (Mods.asKeyCodes (KeymapOutput.modifiers out)).length ≤ 8 := by
    unfold Mods.asKeyCodes
    exact Nat.le_trans (List.length_filterMap_le _ _) (by decide)
  have h2 : (out.filterMap KeyOutput.keyboardCode?).length ≤ out.length := List.length_filterMap_le _ _
  refine ⟨_, Res.bind_eq_ok.2 ⟨_, extendCap_eq_ok.2 ⟨.inr ?_, rfl⟩, extendCap_eq_ok.2 ⟨.inr ?_, rfl⟩⟩⟩
  · simp only [List.length_nil]; omega
  · simp only [List.nil_append]; omega

theorem consumerCodes_ok {out : KeymapOutput} (h : out.length ≤ 16) : ∃ codes, out.pressedConsumerCodes = .ok codes := by
  have h2 : (out.filterMap KeyOutput.consumerCode?).length ≤ out.length := List.length_filterMap_le _ _
  exact ⟨_, extendCap_eq_ok.2 ⟨.inr (by simp only [List.length_nil]; omega), rfl⟩⟩

section

variable {K : Comp.Keys} {refs : List Comp.Ref} {S : Search} {layout : List Entry} {n : Nat} {indices : List (List (Option Nat))}

theorem moves_within {rows cols : Nat} (hl : Laid rows cols layout.length indices) (raws : List Levels) :
    ∀ e ∈ moves rows cols indices raws, Within layout.length e := by
  intro e he
  obtain ⟨x, _, hx⟩ := List.mem_filterMap.1 he
  cases x with
  | press r c =>
    obtain ⟨i, hi, rfl⟩ := Option.map_eq_some_iff.1 hx
    exact ⟨i, hl.within r c i (by simpa [KeyAt, Option.join_eq_some_iff] using hi), .inl rfl⟩
  | release r c =>
    obtain ⟨i, hi, rfl⟩ := Option.map_eq_some_iff.1 hx
    exact ⟨i, hl.within r c i (by simpa [KeyAt, Option.join_eq_some_iff] using hi), .inr rfl⟩

theorem moves_prefix (rows cols : Nat) (xs ys : List Levels) : moves rows cols indices xs <+: moves rows cols indices (xs ++ ys) := by
  refine ⟨(scans (debounced rows cols xs) ys).2.flatten.filterMap (keyEvent indices), ?_⟩
  rw [moves, moves, scans_append]
  simp [debounced]

theorem scan_runs {c : Comp.Config} (hp : Comp.Plain K refs c layout) {rows cols : Nat} (hl : Laid rows cols layout.length indices)
    {s : CCore} {t : Nat} {q : Queued} {raws : List Levels} {raw : Levels} (h16 : AtMostSixteen layout (start c) (moves rows cols indices (raws ++ [raw]))) (hr : ∀ m ∈ raws, Size rows cols m) (hraw : Size rows cols raw)
    (h : Follows K layout c.layerCount (start c) s.backend.km t q (moves rows cols indices raws)) (hd : s.deb = debounced rows cols raws) (ht : t + 1 < u32Size)
    (hro : s.backend.km.inq.length + (s.deb.events raw).2.length ≤ 31) (h8 : (s.deb.events raw).2.length ≤ 8) (ho : s.backend.out.length ≤ 16) :
    ∃ s', s.scan ⟨Comp.system K, refs, S⟩ (n + 2) indices raw = .ok s' ∧ s'.backend.out.length ≤ 16 := by
  have hke : keyboardEvents s.deb raw = .ok (s.deb.events raw) := if_pos h8
  have hin := events_inMatrix hl hr hraw
  rw [← hd] at hin
  have hmv := moves_snoc (indices := indices) rows cols raws raw
  rw [← hd] at hmv
  have hw' := moves_within hl (raws ++ [raw])
  rw [hmv] at h16
  generalize s.deb.events raw = p at *
  obtain ⟨deb, es⟩ := p
  simp only at *
  have hfl : (es.filterMap (keyEvent indices)).length ≤ es.length := List.length_filterMap_le _ _
  have hql : q.queue.length + (es.filterMap (keyEvent indices)).length ≤ 31 := by rw [← h.sim.inq]; omega
  have hwes : ∀ e ∈ es.filterMap (keyEvent indices), Within layout.length e := fun e he => hw' e (by rw [hmv]; simp [he])
  obtain ⟨km, g1⟩ := Follows.register_ok (S := S) (n := n) hp (Nat.le_refl _) hwes h16 h (moves_within hl raws) hql
  obtain ⟨b, g2⟩ := feed_ok hin g1
  have g3 := feed_register g2
  rw [g1] at g3
  have g3' := Res.ok.inj g3
  subst g3'
  have hbo := feed_out g2
  obtain ⟨q1, f1, f2, f3⟩ := h.register (es := es.filterMap (keyEvent indices)) hp
    (fun e he => by obtain ⟨x, _, hx⟩ := List.mem_filterMap.1 he; exact keyEvent_physical hx) hql g1
  rw [← hmv] at f1 h16
  cases hs : s.success with
  | false =>
    refine ⟨{ s with deb := deb, backend := b }, Res.bind_eq_ok.2 ⟨_, hke, Res.bind_eq_ok.2 ⟨b, g2, ?_⟩⟩, ?_⟩
    · rw [hs]; rfl
    · show b.out.length ≤ 16
      rw [hbo]; exact ho
  | true =>
    have key := f1.sim.tick (S := S) (n := n) hp.layoutEq hp.fits hp.size ht
    have hsome : ∃ q2, q1.tick layout = some q2 := by
      simp only [Queued.tick]
      split
      · next hc =>
        cases hq : q1.queue with
        | nil => exact absurd hq hc.2
        | cons x xs =>
          simp only [Queued.take]
          rw [if_pos (f1.takes (Nat.le_refl _) (rest := []) (by simpa using h16) (by simpa using hq) (f1.queue_within hw' x (by rw [hq]; simp)))]
          exact ⟨_, rfl⟩
      · exact ⟨_, rfl⟩
    obtain ⟨q2, hm⟩ := hsome
    obtain ⟨km2, k1, k2⟩ := key.1 q2 hm
    have hos : km2.pressedKeys ⟨Comp.system K, refs, S⟩ = .ok q2.board.outputs := Comp.pressedOutputs_held k2.sim.held
    have hol : q2.board.outputs.length ≤ 16 := Nat.le_trans (List.length_filterMap_le _ _) k2.sim.len
    have k1' : tick ⟨Comp.system K, refs, S⟩ (n + 2) b.km = .ok km2 := k1
    generalize hrp : km2.rep.report q2.board.outputs = rp
    have hbt : b.tick ⟨Comp.system K, refs, S⟩ (n + 2) = .ok (⟨{ km2 with rep := rp.1 }, rp.2⟩, decide (b.out ≠ rp.2)) := by
      subst hrp
      exact Res.bind_eq_ok.2 ⟨km2, k1', Res.bind_eq_ok.2 ⟨_, Res.bind_eq_ok.2 ⟨_, hos, rfl⟩, rfl⟩⟩
    refine ⟨{ s with deb := deb, backend := ⟨{ km2 with rep := rp.1 }, rp.2⟩, made := s.made ++ [rp.2] },
      Res.bind_eq_ok.2 ⟨_, hke, Res.bind_eq_ok.2 ⟨b, g2, ?_⟩⟩, ?_⟩
    · simp only [hs, if_true, hbt]; rfl
    · show rp.2.length ≤ 16
      rw [← hrp]
      simp only [Reporter.report, Reporter.reportable, List.length_take]
      have : (km2.rep.update q2.board.outputs).reportSent.outputs = q2.board.outputs := by simp
      rw [this]; omega

/-- C89. A keyboard does not stop, whatever its switches do, if no more than sixteen keys are held at a time, if in no scan more than eight switches change, if there is room for the key
events, and if the driver does nothing but accept reports, have no room, or find a keyboard report unchanged. -/
theorem C89_runs {c : Comp.Config} (hp : Comp.Plain K refs c layout) {rows cols : Nat} (hl : Laid rows cols layout.length indices)
    {ms : List Milli} (h16 : AtMostSixteen layout (start c) (moves rows cols indices (ms.map (·.raw)))) (hms : ∀ m ∈ ms, Size rows cols m.raw) (ht : ms.length < u32Size)
    (hfew : Few ⟨allOpen rows cols, allOpen rows cols, 0⟩ (ms.map (·.raw)))
    (hans : ∀ m ∈ ms, m.keyboard ≠ .error ∧ (m.consumer = .ok ∨ m.consumer = .wouldBlock))
    (hro : Roomy ⟨Comp.system K, refs, S⟩ (n + 2) indices (fresh rows cols c).toCore (ms.map Milli.turn)) :
    ∃ s, (fresh rows cols c).run ⟨Comp.system K, refs, S⟩ (n + 2) indices ms = .ok s := by
  suffices H : ∀ (ms : List Milli) (s : CBoard) (t : Nat) (q : Queued) (raws : List Levels), (∀ m ∈ raws, Size rows cols m) → (∀ m ∈ ms, Size rows cols m.raw) →
      Follows K layout c.layerCount (start c) s.backend.km t q (moves rows cols indices raws) → s.deb = debounced rows cols raws → t + ms.length < u32Size →
      Few s.deb (ms.map (·.raw)) → (∀ m ∈ ms, m.keyboard ≠ .error ∧ (m.consumer = .ok ∨ m.consumer = .wouldBlock)) →
      Roomy ⟨Comp.system K, refs, S⟩ (n + 2) indices s.toCore (ms.map Milli.turn) → s.backend.out.length ≤ 16 → AtMostSixteen layout (start c) (moves rows cols indices (raws ++ ms.map (·.raw))) →
      ∃ s', s.run ⟨Comp.system K, refs, S⟩ (n + 2) indices ms = .ok s' from
    H ms _ 0 _ [] (by simp) hms (follows_new hp) rfl (by omega) hfew hans hro (Nat.zero_le _) h16
  intro ms
  induction ms with
  | nil => exact fun s _ _ _ _ _ _ _ _ _ _ _ _ _ => ⟨s, rfl⟩
  | cons m ms ih =>
    intro s t q raws hr hms h hd ht hfew hans hro ho h16
    simp only [List.length_cons] at ht
    rw [List.map_cons, ← List.singleton_append, ← List.append_assoc] at h16
    have h16' : AtMostSixteen layout (start c) (moves rows cols indices (raws ++ [m.raw])) :=
      fun first hf => h16 first (hf.trans (moves_prefix _ _ _ _))
    obtain ⟨core, g1, g2⟩ := scan_runs (S := S) (n := n) hp hl h16' hr (hms m (by simp)) h hd (by omega) hro.1 hfew.1 ho
    obtain ⟨codes, w1⟩ := keyCodes_ok g2
    obtain ⟨cs, w2⟩ := consumerCodes_ok g2
    obtain ⟨a1, a2⟩ := hans m (by simp)
    have w3 : ∃ b, keyboardAnswer m.keyboard = .ok b := by
      cases hk : m.keyboard with
      | error => exact absurd hk a1
      | _ => exact ⟨_, rfl⟩
    obtain ⟨b, w3⟩ := w3
    have w4 : ∃ p, writeConsumer s.prev s.consumers (consumerReport cs) m.consumer = .ok p := by
      unfold writeConsumer
      split
      · rcases a2 with a2 | a2 <;> rw [a2] <;> exact ⟨_, rfl⟩
      · exact ⟨_, rfl⟩
    obtain ⟨⟨prev, consumers⟩, w4⟩ := w4
    have hst : ∃ s1 : CBoard, s.step ⟨Comp.system K, refs, S⟩ (n + 2) indices m = .ok s1 ∧ s1.backend = core.backend :=
      ⟨_, Res.bind_eq_ok.2 ⟨{ s with toCore := core }, Res.bind_eq_ok.2 ⟨core, g1, rfl⟩, Res.bind_eq_ok.2 ⟨codes, w1, Res.bind_eq_ok.2 ⟨b, w3,
        Res.bind_eq_ok.2 ⟨cs, w2, Res.bind_eq_ok.2 ⟨_, w4, rfl⟩⟩⟩⟩⟩, rfl⟩
    obtain ⟨s1, k1, k2⟩ := hst
    have k3 := board_turn k1
    obtain ⟨t1, q1, q2, f1, f2, _, _, _, f3, _⟩ := follows_step hp h (by omega) hro.1 k3
    have hd1 : s1.deb = (s.deb.events m.raw).1 := f3
    have hd2 := hd1
    rw [hd, ← debounced_snoc] at hd2
    have f2' : Follows K layout c.layerCount (start c) s1.backend.km t1 q2 (moves rows cols indices (raws ++ [m.raw])) := by
      rw [moves_snoc, ← hd]; exact f2
    obtain ⟨s', r⟩ := ih s1 t1 q2 (raws ++ [m.raw])
      (fun x hx => (List.mem_append.1 hx).elim (hr x) fun hx => by rw [List.mem_singleton.1 hx]; exact hms m (by simp))
      (fun x hx => hms x (by simp [hx])) f2' hd2 (by omega) (by rw [hd1]; exact hfew.2) (fun x hx => hans x (by simp [hx])) (hro.2 _ k3) (by rw [k2]; exact g2) h16
    exact ⟨s', Res.bind_eq_ok.2 ⟨s1, k1, r⟩⟩

/-- C90. The same of the embassy firmware: whether writing succeeds or not. -/
theorem C90_runs {c : Comp.Config} (hp : Comp.Plain K refs c layout) {rows cols : Nat} (hl : Laid rows cols layout.length indices)
    {ms : List Turn} (h16 : AtMostSixteen layout (start c) (moves rows cols indices (ms.map (·.raw)))) (hms : ∀ m ∈ ms, Size rows cols m.raw) (ht : ms.length < u32Size)
    (hfew : Few ⟨allOpen rows cols, allOpen rows cols, 0⟩ (ms.map (·.raw)))
    (hro : Roomy ⟨Comp.system K, refs, S⟩ (n + 2) indices (Core.new rows cols (KM.new (Comp.Ctx.fromConfig c))) (ms.map Turn.turn)) :
    ∃ s, (Loop.new rows cols (KM.new (Comp.Ctx.fromConfig c))).run ⟨Comp.system K, refs, S⟩ (n + 2) indices ms = .ok s := by
  suffices H : ∀ (ms : List Turn) (s : CLoop) (t : Nat) (q : Queued) (raws : List Levels), (∀ m ∈ raws, Size rows cols m) → (∀ m ∈ ms, Size rows cols m.raw) →
      Follows K layout c.layerCount (start c) s.backend.km t q (moves rows cols indices raws) → s.deb = debounced rows cols raws → t + ms.length < u32Size →
      Few s.deb (ms.map (·.raw)) →
      Roomy ⟨Comp.system K, refs, S⟩ (n + 2) indices s.toCore (ms.map Turn.turn) → s.backend.out.length ≤ 16 → AtMostSixteen layout (start c) (moves rows cols indices (raws ++ ms.map (·.raw))) →
      ∃ s', s.run ⟨Comp.system K, refs, S⟩ (n + 2) indices ms = .ok s' from
    H ms _ 0 _ [] (by simp) hms (follows_new hp) rfl (by omega) hfew hro (Nat.zero_le _) h16
  intro ms
  induction ms with
  | nil => exact fun s _ _ _ _ _ _ _ _ _ _ _ _ => ⟨s, rfl⟩
  | cons m ms ih =>
    intro s t q raws hr hms h hd ht hfew hro ho h16
    simp only [List.length_cons] at ht
    rw [List.map_cons, ← List.singleton_append, ← List.append_assoc] at h16
    have h16' : AtMostSixteen layout (start c) (moves rows cols indices (raws ++ [m.raw])) :=
      fun first hf => h16 first (hf.trans (moves_prefix _ _ _ _))
    obtain ⟨core, g1, g2⟩ := scan_runs (S := S) (n := n) hp hl h16' hr (hms m (by simp)) h hd (by omega) hro.1 hfew.1 ho
    obtain ⟨cs, w2⟩ := consumerCodes_ok g2
    have hst : ∃ s1 : CLoop, s.step ⟨Comp.system K, refs, S⟩ (n + 2) indices m = .ok s1 := by
      generalize hs1 : ({ s with toCore := core } : CLoop) = s1
      have hb1 : (((s1.writeKeyboard m.keyboard).writeMouse m.mouse)).backend = core.backend := by
        rw [(writeMouse_parts _ _).1, ← hs1]
        unfold Loop.writeKeyboard
        split <;> rfl
      generalize hs2 : (s1.writeKeyboard m.keyboard).writeMouse m.mouse = s2
      rw [hs2] at hb1
      have : ∃ s3, s2.writeConsumer m.consumer = .ok s3 := by
        unfold Loop.writeConsumer
        rw [hb1, w2, Res.ok_bind]
        simp only
        split
        · split <;> exact ⟨_, rfl⟩
        · exact ⟨_, rfl⟩
      obtain ⟨s3, h3⟩ := this
      refine ⟨s3, Res.bind_eq_ok.2 ⟨core, g1, ?_⟩⟩
      simp only [hs1, hs2]; exact h3
    obtain ⟨s1, k1⟩ := hst
    have k2 : s1.backend = core.backend := by
      obtain ⟨core', j1, j2, _⟩ := loop_ok k1
      rw [g1] at j1; cases j1
      rw [j2]
    have k3 := loop_turn k1
    obtain ⟨t1, q1, q2, f1, f2, _, _, _, f3, _⟩ := follows_step hp h (by omega) hro.1 k3
    have hd1 : s1.deb = (s.deb.events m.raw).1 := f3
    have hd2 := hd1
    rw [hd, ← debounced_snoc] at hd2
    have f2' : Follows K layout c.layerCount (start c) s1.backend.km t1 q2 (moves rows cols indices (raws ++ [m.raw])) := by
      rw [moves_snoc, ← hd]; exact f2
    obtain ⟨s', r⟩ := ih s1 t1 q2 (raws ++ [m.raw])
      (fun x hx => (List.mem_append.1 hx).elim (hr x) fun hx => by rw [List.mem_singleton.1 hx]; exact hms m (by simp))
      (fun x hx => hms x (by simp [hx])) f2' hd2 (by omega) (by rw [hd1]; exact hfew.2) (hro.2 _ k3) (by rw [k2]; exact g2) h16
    exact ⟨s', Res.bind_eq_ok.2 ⟨s1, k1, r⟩⟩

/-! ## From the pins -/

/-- Which switches are closed, as levels. -/
def table (rows cols : Nat) (closed : Nat → Nat → Bool) : Levels := (List.range rows).map fun r => (List.range cols).map fun c => closed r c

theorem readings_eq (p : Backend.Pins) (cs : List (Nat → Nat → Bool)) : readings p.clear cs = cs.map (table p.low.length p.cols) := by
  have hlen : p.clear.low.length = p.low.length := by simp [Backend.Pins.clear]
  induction cs with
  | nil => rfl
  | cons c cs ih =>
    have h := Backend.C55_scan c p
    simp only at h
    simp only [readings, h, List.map_cons, ih, hlen]
    rfl

theorem table_size (rows cols : Nat) (closed : Nat → Nat → Bool) : Size rows cols (table rows cols closed) := by
  refine ⟨by simp [table], ?_⟩
  intro r hr
  obtain ⟨k, _, rfl⟩ := List.mem_map.1 hr
  simp

theorem table_entry {rows cols r c : Nat} {closed : Nat → Nat → Bool} : entry (table rows cols closed) r c = some true ↔ r < rows ∧ c < cols ∧ closed r c = true := by
  unfold entry table
  simp only [List.getElem?_map]
  by_cases hr : r < rows
  · rw [List.getElem?_range hr]
    by_cases hc : c < cols
    · simp [List.getElem?_range hc, hr, hc]
    · simp [hr, hc]
  · simp [hr]

/-- C89, from the pins of the matrix: when the switches have not moved for 80 ms, the keys that are held are exactly those whose switches are closed; whatever switches
were closed at each scan before. -/
theorem C89_switches {Rep : Type} [DecidableEq Rep] {make : List Byte → Rep} {c : Comp.Config} (hp : Comp.Plain K refs c layout) {pins : Backend.Pins}
    (hl : Laid pins.low.length pins.cols layout.length indices) {ms still : List Milli} {s : CBoard} {before : List (Nat → Nat → Bool)} {closed : Nat → Nat → Bool}
    (hraw : (ms ++ still).map (·.raw) = readings pins.clear (before ++ List.replicate still.length closed)) (hlong : 80 ≤ still.length)
    (hans : ∀ m ∈ still, m.keyboard ≠ .wouldBlock) (ht : ms.length + still.length < u32Size)
    (hrun : (fresh pins.low.length pins.cols c).run ⟨Comp.system K, refs, S⟩ (n + 2) indices (ms ++ still) = .ok s)
    (hlaw : Lawful ⟨Comp.system K, refs, S⟩ (n + 2) indices make (fresh pins.low.length pins.cols c) (ms ++ still))
    (hro : Roomy ⟨Comp.system K, refs, S⟩ (n + 2) indices (fresh pins.low.length pins.cols c).toCore ((ms ++ still).map Milli.turn)) :
    ∃ (b : Board.State) (codes : List Byte), KeymapOutput.pressedKeyCodes b.outputs = .ok codes ∧ s.sent.getLast?.map make = some (make codes) ∧
      b = (moves pins.low.length pins.cols indices ((before ++ List.replicate still.length closed).map (table pins.low.length pins.cols))).foldl
        (Board.State.input layout) (start c) ∧
      ∀ i, b.holds i = true ↔ ∃ r c, KeyAt indices r c i ∧ closed r c = true := by
  rw [readings_eq, List.map_append, List.map_append] at hraw
  have hlen : ms.length = before.length := by
    have := congrArg List.length hraw
    simp only [List.length_append, List.length_map, List.length_replicate] at this
    omega
  obtain ⟨h1, h2⟩ := List.append_inj hraw (by simp [hlen])
  rw [List.map_replicate] at h2
  obtain ⟨b, codes, e1, e2, e3, e4, e5⟩ := C89_settles (make := make) hp hl (raw := table pins.low.length pins.cols closed) (s := s) (ms := ms) (still := still)
    { long := hlong
      levels := fun m hm => by
        have : m.raw ∈ ms.map (·.raw) := List.mem_map_of_mem hm
        rw [h1] at this
        obtain ⟨f, _, hf⟩ := List.mem_map.1 this
        rw [← hf]; exact table_size _ _ _
      size := table_size _ _ _
      rest := fun m hm => ⟨List.eq_of_mem_replicate (n := still.length) (by rw [← h2]; exact List.mem_map_of_mem hm), hans m hm⟩
      time := ht
      runs := hrun
      lawful := hlaw
      roomy := hro }
  refine ⟨b, codes, e3, e4, ?_, fun i => (e5 i).trans ?_⟩
  · rw [e1, h1, List.map_append, List.map_replicate]
  · constructor
    · rintro ⟨r, c, k1, k2⟩; exact ⟨r, c, k1, (table_entry.1 k2).2.2⟩
    · rintro ⟨r, c, k1, k2⟩
      obtain ⟨row, j1, j2⟩ := Option.bind_eq_some_iff.1 k1
      obtain ⟨l1, rfl⟩ := List.getElem?_eq_some_iff.1 j1
      obtain ⟨l2, _⟩ := List.getElem?_eq_some_iff.1 j2
      have := hl.size.2 _ (List.getElem_mem l1)
      exact ⟨r, c, k1, table_entry.2 ⟨by rw [← hl.size.1]; exact l1, by omega, k2⟩⟩

end

namespace Demo

theorem few_of : ∀ (raws : List Levels) (d : Debouncer), ((scans d raws).2.all fun es => decide (es.length ≤ 8)) = true → Few d raws
  | [], _, _ => trivial
  | raw :: raws, d, h => by
    simp only [scans, List.all_cons, Bool.and_eq_true, decide_eq_true_eq] at h
    exact ⟨h.1, few_of raws _ h.2⟩

theorem answers : ∀ m ∈ before ++ after, m.keyboard ≠ .error ∧ (m.consumer = .ok ∨ m.consumer = .wouldBlock) := by
  intro m hm
  simp only [before, after, List.mem_append] at hm
  rcases hm with (hm | hm) | hm <;> rw [List.eq_of_mem_replicate hm] <;> decide

theorem levels : ∀ m ∈ before ++ after, Size 2 1 m.raw := by
  intro m hm
  simp only [before, after, List.mem_append] at hm
  rcases hm with (hm | hm) | hm <;> rw [List.eq_of_mem_replicate hm] <;> exact ⟨rfl, by decide⟩

theorem roomy : Roomy ⟨Comp.system Keyboard.Demo.K, Keyboard.Demo.refs, Search.std⟩ 2 two (fresh 2 1 Keyboard.Demo.config).toCore
    ((before ++ after).map Milli.turn) := by
  obtain ⟨s, h1, _⟩ := Option.map_eq_some_iff.1 roomy_eq
  exact (roomyRun_sound _ h1).2

set_option maxRecDepth 100000 in
/-- The hypotheses of C89_runs hold of the history of the example of C89. -/
example : ∃ s, (fresh 2 1 Keyboard.Demo.config).run ⟨Comp.system Keyboard.Demo.K, Keyboard.Demo.refs, Search.std⟩ 2 two (before ++ after) = .ok s :=
  C89_runs (n := 0) Keyboard.Demo.plain laid (atMostSixteen_few (count := 2) (by decide) _ (moves_within (layout := Keyboard.Demo.layout) laid _)) levels (by decide) (few_of _ _ (by decide +kernel)) answers roomy

/-- The switch of b, and then that of both, is closed; and then that of a. -/
def closings : List (Nat → Nat → Bool) := List.replicate 40 (fun r _ => r == 1) ++ List.replicate 40 (fun _ _ => true)

/-- The hypotheses of C89_switches hold of it, too. -/
example : (before ++ after).map (·.raw) = readings (Backend.Pins.clear ⟨[true, true], 1⟩) (closings ++ List.replicate after.length (fun r _ => r == 0)) := by
  decide +kernel

set_option maxRecDepth 100000 in
/-- The hypotheses of C90_runs hold of the history of the example of C90. -/
example : ∃ s, (Loop.new 2 1 (KM.new (Comp.Ctx.fromConfig Keyboard.Demo.config))).run ⟨Comp.system Keyboard.Demo.K, Keyboard.Demo.refs, Search.std⟩ 2 two
    (Embassy.before ++ Embassy.after) = .ok s := by
  obtain ⟨s, h1, _⟩ := Option.map_eq_some_iff.1 Embassy.roomy_eq
  refine C90_runs (n := 0) Keyboard.Demo.plain laid (atMostSixteen_few (count := 2) (by decide) _ (moves_within (layout := Keyboard.Demo.layout) laid _)) ?_ (by decide) (few_of _ _ (by decide +kernel)) (Embassy.roomyRun_sound _ h1).2
  intro m hm
  simp only [Embassy.before, Embassy.after, List.mem_append] at hm
  rcases hm with (hm | hm) | hm <;> rw [List.eq_of_mem_replicate hm] <;> exact ⟨rfl, by decide⟩

end Demo

end Verif.Rtic
