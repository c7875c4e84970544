import Verif.Props.RticKeyboard
import Verif.Props.Device
import Verif.Spec.Embassy

/-!
# C90: the embassy firmware
-/

namespace Verif.Rtic

section

variable {R Ev Ctx PKS KS : Type} {C : Cfg R Ev Ctx PKS KS} {n : Nat} {indices : List (List (Option Nat))}

theorem consumer_first {o : KeymapOutput} {cs : List Byte} (h : o.pressedConsumerCodes = .ok cs) : cs.headD 0 = firstConsumer o := by
  obtain ⟨_, h⟩ := extendCap_eq_ok.1 h
  rw [List.nil_append] at h
  rw [h, firstConsumer]
  congr 2

theorem writeMouse_parts (s : Loop R Ev Ctx PKS KS) (ok : Bool) : (s.writeMouse ok).toCore = s.toCore ∧ (s.writeMouse ok).keyboards = s.keyboards ∧
    (s.writeMouse ok).consumers = s.consumers ∧ (s.writeMouse ok).lastConsumer = s.lastConsumer ∧
    ((s.writeMouse ok).mice, (s.writeMouse ok).lastMouse) =
      (if (s.backend.out.pressedMouseOutput ≠ s.lastMouse ∨ s.backend.out.pressedMouseOutput ≠ noMouse) ∧ ok = true then
        (s.mice ++ [mouseBytes s.backend.out.pressedMouseOutput], s.backend.out.pressedMouseOutput) else (s.mice, s.lastMouse)) := by
  by_cases h : s.backend.out.pressedMouseOutput ≠ s.lastMouse ∨ s.backend.out.pressedMouseOutput ≠ noMouse
  · have e : s.writeMouse ok = if ok then { s with lastMouse := s.backend.out.pressedMouseOutput, mice := s.mice ++ [mouseBytes s.backend.out.pressedMouseOutput] } else s :=
      if_pos h
    rw [e]
    cases ok with
    | true => exact ⟨rfl, rfl, rfl, rfl, (if_pos ⟨h, rfl⟩).symm⟩
    | false => exact ⟨rfl, rfl, rfl, rfl, (if_neg (fun hh => Bool.noConfusion hh.2)).symm⟩
  · have e : s.writeMouse ok = s := if_neg h
    rw [e]
    exact ⟨rfl, rfl, rfl, rfl, (if_neg (fun hh => h hh.1)).symm⟩

theorem writeConsumer_parts {s s' : Loop R Ev Ctx PKS KS} {ok : Bool} (h : s.writeConsumer ok = .ok s') : s'.toCore = s.toCore ∧ s'.keyboards = s.keyboards ∧
    s'.mice = s.mice ∧ s'.lastMouse = s.lastMouse ∧
    (s'.consumers, s'.lastConsumer) = (if firstConsumer s.backend.out ≠ s.lastConsumer ∧ ok = true then
        (s.consumers ++ [consumerBytes (firstConsumer s.backend.out)], firstConsumer s.backend.out) else (s.consumers, s.lastConsumer)) := by
  unfold Loop.writeConsumer at h
  obtain ⟨cs, h2, h⟩ := Res.bind_eq_ok.1 h
  rw [consumer_first h2] at h
  by_cases hc : firstConsumer s.backend.out ≠ s.lastConsumer
  · have e : (if ok then Res.ok { s with lastConsumer := firstConsumer s.backend.out, consumers := s.consumers ++ [consumerBytes (firstConsumer s.backend.out)] } else .ok s) =
        Res.ok s' := (if_pos hc).symm.trans h
    cases ok with
    | true => cases e; exact ⟨rfl, rfl, rfl, rfl, (if_pos ⟨hc, rfl⟩).symm⟩
    | false => cases e; exact ⟨rfl, rfl, rfl, rfl, (if_neg (fun hh => Bool.noConfusion hh.2)).symm⟩
  · have e : Res.ok s = Res.ok s' := (if_neg hc).symm.trans h
    cases e
    exact ⟨rfl, rfl, rfl, rfl, (if_neg (fun hh => hc hh.1)).symm⟩

/-- A turn, in its parts. -/
theorem loop_ok {s s' : Loop R Ev Ctx PKS KS} {m : Turn} (h : s.step C n indices m = .ok s') :
    ∃ core, s.toCore.scan C n indices m.raw = .ok core ∧ s'.toCore = { core with success := m.keyboard } ∧
      s'.keyboards = (if m.keyboard then s.keyboards ++ [core.backend.out.asBootReport] else s.keyboards) ∧
      (s'.mice, s'.lastMouse) = (if (core.backend.out.pressedMouseOutput ≠ s.lastMouse ∨ core.backend.out.pressedMouseOutput ≠ noMouse) ∧ m.mouse = true then
        (s.mice ++ [mouseBytes core.backend.out.pressedMouseOutput], core.backend.out.pressedMouseOutput) else (s.mice, s.lastMouse)) ∧
      (s'.consumers, s'.lastConsumer) = (if firstConsumer core.backend.out ≠ s.lastConsumer ∧ m.consumer = true then
        (s.consumers ++ [consumerBytes (firstConsumer core.backend.out)], firstConsumer core.backend.out) else (s.consumers, s.lastConsumer)) := by
  obtain ⟨core, h1, h⟩ := Res.bind_eq_ok.1 h
  refine ⟨core, h1, ?_⟩
  obtain ⟨c1, c2, c3, c4, c5⟩ := writeConsumer_parts h
  obtain ⟨m1, m2, m3, m4, m5⟩ := writeMouse_parts (({ s with toCore := core } : Loop R Ev Ctx PKS KS).writeKeyboard m.keyboard) m.mouse
  have k1 : (({ s with toCore := core } : Loop R Ev Ctx PKS KS).writeKeyboard m.keyboard) =
      { s with toCore := { core with success := m.keyboard },
               keyboards := if m.keyboard then s.keyboards ++ [core.backend.out.asBootReport] else s.keyboards } := by
    unfold Loop.writeKeyboard
    cases m.keyboard <;> rfl
  rw [c1, c2, c3, c4, c5, m1, m2, m3, m4, m5, k1]
  exact ⟨rfl, rfl, rfl, rfl⟩

theorem loop_turn {s s' : Loop R Ev Ctx PKS KS} {m : Turn} (h : s.step C n indices m = .ok s') :
    s.toCore.turn C n indices m.turn = .ok s'.toCore := by
  obtain ⟨core, h1, h2, _⟩ := loop_ok h
  rw [h2]
  exact Res.bind_eq_ok.2 ⟨core, h1, rfl⟩

theorem loop_run {ms : List Turn} : ∀ {s s' : Loop R Ev Ctx PKS KS},
    s.run C n indices ms = .ok s' → s.toCore.run C n indices (ms.map Turn.turn) = .ok s'.toCore := by
  induction ms with
  | nil => intro s s' h; cases h; rfl
  | cons m ms ih =>
    intro s s' h
    obtain ⟨s1, g1, g2⟩ := Res.bind_eq_ok.1 h
    exact Res.bind_eq_ok.2 ⟨_, loop_turn g1, ih g2⟩

/-- An invariant of histories. -/
theorem loop_inv {P : Loop R Ev Ctx PKS KS → Prop} {ms : List Turn} : ∀ {s s' : Loop R Ev Ctx PKS KS},
    (∀ s s', ∀ m ∈ ms, P s → s.step C n indices m = .ok s' → P s') → P s → s.run C n indices ms = .ok s' → P s' := by
  induction ms with
  | nil => intro s s' _ h hr; cases hr; exact h
  | cons m ms ih =>
    intro s s' hs h hr
    obtain ⟨s1, g1, g2⟩ := Res.bind_eq_ok.1 hr
    exact ih (fun s s' m hm => hs s s' m (by simp [hm])) (hs s s1 m (by simp) h g1) g2

/-- The outputs after a scan: a new one, or the last one again. -/
theorem core_made {s core : Core R Ev Ctx PKS KS} {raw : Levels} (h : s.scan C n indices raw = .ok core) :
    (s.success = true ∧ core.made = s.made ++ [core.backend.out]) ∨ (s.success = false ∧ core.made = s.made ∧ core.backend.out = s.backend.out) := by
  obtain ⟨deb, es, b, k1, k2, k3⟩ := coreScan_ok h
  rcases k3 with ⟨a1, b', ch, a2, rfl⟩ | ⟨a1, rfl⟩
  · exact .inl ⟨a1, rfl⟩
  · exact .inr ⟨a1, rfl, feed_out k2⟩

/-! ## C90 -/

/-- C90. The keyboard reports that are written are those of the outputs of the keymap, one for each tick, in their order. Only the last one may be missing: that
writing it has failed, and it will be tried again before the next tick. -/
theorem C90_keyboard {rows cols : Nat} {km : KM R Ev Ctx PKS KS} {ms : List Turn} {s : Loop R Ev Ctx PKS KS}
    (h : (Loop.new rows cols km).run C n indices ms = .ok s) :
    s.keyboards = (if s.success then s.made else s.made.dropLast).map KeymapOutput.asBootReport := by
  refine (loop_inv (P := fun s => (s.success = false → s.made.getLast? = some s.backend.out) ∧
    s.keyboards = (if s.success then s.made else s.made.dropLast).map KeymapOutput.asBootReport) ?_ ⟨fun h => by simp [Loop.new, Core.new] at h, rfl⟩ h).2
  rintro s s' m _ ⟨hl, hk⟩ hs
  obtain ⟨core, h1, h2, h3, _, _⟩ := loop_ok hs
  have key : core.made.getLast? = some core.backend.out ∧ s.keyboards = core.made.dropLast.map KeymapOutput.asBootReport := by
    rcases core_made h1 with ⟨a1, a2⟩ | ⟨a1, a2, a3⟩
    · rw [a1, if_pos rfl] at hk
      rw [a2]
      exact ⟨by simp, by simpa using hk⟩
    · rw [a1] at hk
      rw [a2, a3]
      exact ⟨hl a1, by simpa using hk⟩
  rw [h2, h3]
  refine ⟨fun _ => key.1, ?_⟩
  have hm := split_last key.1
  cases m.keyboard with
  | false => simpa using key.2
  | true =>
    simp only [if_true]
    conv => rhs; rw [hm]
    rw [key.2, List.map_append]; rfl

theorem worth_snoc (last : MouseOutput) (os : List MouseOutput) (o : MouseOutput) :
    worth last (os ++ [o]) = worth last os ++ (if o = noMouse ∧ os.getLastD last = noMouse then [] else [o]) := by
  induction os generalizing last with
  | nil => simp [worth]
  | cons x os ih =>
    have : (x :: os).getLastD last = os.getLastD x := by cases os <;> simp [List.getLastD]
    simp only [List.cons_append, worth, ih, this]
    split <;> simp

theorem newOnes_snoc (last : Byte) (cs : List Byte) (c : Byte) :
    newOnes last (cs ++ [c]) = newOnes last cs ++ (if c = cs.getLastD last then [] else [c]) := by
  induction cs generalizing last with
  | nil => simp [newOnes]
  | cons x os ih =>
    have : (x :: os).getLastD last = os.getLastD x := by cases os <;> simp [List.getLastD]
    simp only [List.cons_append, newOnes, ih, this]
    split <;> simp

/-- C90. If writing keyboard and mouse reports does not fail, each movement and each change of the buttons is reported once, in order. -/
theorem C90_mouse_partial {rows cols : Nat} {km : KM R Ev Ctx PKS KS} {ms : List Turn} {s : Loop R Ev Ctx PKS KS}
    (h : (Loop.new rows cols km).run C n indices ms = .ok s) (hok : ∀ m ∈ ms, m.keyboard = true ∧ m.mouse = true) :
    s.mice = (worth noMouse (s.made.map KeymapOutput.pressedMouseOutput)).map mouseBytes := by
  refine (loop_inv (P := fun s => s.success = true ∧ s.lastMouse = (s.made.map KeymapOutput.pressedMouseOutput).getLastD noMouse ∧
    s.mice = (worth noMouse (s.made.map KeymapOutput.pressedMouseOutput)).map mouseBytes) ?_ ⟨rfl, rfl, rfl⟩ h).2.2
  rintro s s' m hm ⟨hs1, hs2, hs3⟩ hs
  obtain ⟨o1, o2⟩ := hok m hm
  obtain ⟨core, h1, h2, _, h4, _⟩ := loop_ok hs
  rcases core_made h1 with ⟨_, a2⟩ | ⟨a1, _⟩
  rotate_left
  · rw [hs1] at a1; cases a1
  rw [h2]
  simp only [a2, List.map_append, List.map_cons, List.map_nil, worth_snoc, o1, true_and]
  simp only [o2, and_true] at h4
  refine ⟨?_, ?_⟩
  · split at h4
    · simp only [Prod.mk.injEq] at h4; rw [h4.2]; simp [List.getLastD_eq_getLast?]
    · next hn =>
      simp only [Prod.mk.injEq] at h4; rw [h4.2]
      have : core.backend.out.pressedMouseOutput = s.lastMouse := Classical.byContradiction fun hne => hn (.inl hne)
      rw [← this]; simp [List.getLastD_eq_getLast?]
  · rw [← hs2]
    split at h4
    · next hy =>
      simp only [Prod.mk.injEq] at h4
      rw [h4.1, hs3, if_neg]; rfl
      rintro ⟨b1, b2⟩
      rcases hy with hy | hy
      · exact hy (b1.trans b2.symm)
      · exact hy b1
    · next hn =>
      simp only [Prod.mk.injEq] at h4
      have e1 : core.backend.out.pressedMouseOutput = s.lastMouse := Classical.byContradiction fun hne => hn (.inl hne)
      have e2 : core.backend.out.pressedMouseOutput = noMouse := Classical.byContradiction fun hne => hn (.inr hne)
      rw [h4.1, hs3, if_pos ⟨e2, e1.symm.trans e2⟩, List.map_nil, List.append_nil]

/-- C90. If writing consumer reports does not fail, each change of the first consumer code is reported once, in order. -/
theorem C90_consumer_partial {rows cols : Nat} {km : KM R Ev Ctx PKS KS} {ms : List Turn} {s : Loop R Ev Ctx PKS KS}
    (h : (Loop.new rows cols km).run C n indices ms = .ok s) (hok : ∀ m ∈ ms, m.consumer = true) :
    s.consumers = (newOnes 0 (s.made.map firstConsumer)).map consumerBytes := by
  refine (loop_inv (P := fun s => (s.success = false → s.made.getLast? = some s.backend.out) ∧ s.lastConsumer = (s.made.map firstConsumer).getLastD 0 ∧
    s.consumers = (newOnes 0 (s.made.map firstConsumer)).map consumerBytes) ?_ ⟨fun h => by simp [Loop.new, Core.new] at h, rfl, rfl⟩ h).2.2
  rintro s s' m hm ⟨hs1, hs2, hs3⟩ hs
  have o1 := hok m hm
  obtain ⟨core, h1, h2, _, _, h5⟩ := loop_ok hs
  simp only [o1, and_true] at h5
  rw [h2]
  rcases core_made h1 with ⟨_, a2⟩ | ⟨a1, a2, a3⟩
  · simp only [a2, List.map_append, List.map_cons, List.map_nil, newOnes_snoc]
    rw [← hs2]
    split at h5
    · next hy =>
      simp only [Prod.mk.injEq] at h5
      refine ⟨fun _ => by simp, by rw [h5.2]; simp [List.getLastD_eq_getLast?], ?_⟩
      rw [h5.1, hs3, if_neg hy]; rfl
    · next hn =>
      simp only [Prod.mk.injEq] at h5
      have e1 := Classical.not_not.1 hn
      refine ⟨fun _ => by simp, by rw [h5.2, ← e1]; simp [List.getLastD_eq_getLast?], ?_⟩
      rw [h5.1, hs3, if_pos e1, List.map_nil, List.append_nil]
  · have hl := hs1 a1
    have e1 : firstConsumer core.backend.out = s.lastConsumer := by
      rw [hs2, a3, List.getLastD_eq_getLast?, List.getLast?_map, hl]; rfl
    rw [if_neg (fun hne => hne e1)] at h5
    simp only [Prod.mk.injEq] at h5
    simp only [a2, a3]
    exact ⟨fun _ => hl, by rw [h5.2, hs2], by rw [h5.1, hs3]⟩

theorem loop_last {s1 : Loop R Ev Ctx PKS KS} {ms : List Turn} {m : Turn} {s : Loop R Ev Ctx PKS KS} (h : s1.run C n indices (ms ++ [m]) = .ok s) :
    ∃ s0 : Loop R Ev Ctx PKS KS, s0.step C n indices m = .ok s := by
  induction ms generalizing s1 with
  | nil => obtain ⟨s2, k1, k2⟩ := Res.bind_eq_ok.1 h; cases k2; exact ⟨s1, k1⟩
  | cons x xs ih => obtain ⟨s2, k1, k2⟩ := Res.bind_eq_ok.1 h; exact ih k2

/-- C90. Whatever failed before: after a turn in which writing a consumer report succeeds, the computer knows the first consumer code as it is. -/
theorem C90_consumer_current {rows cols : Nat} {km : KM R Ev Ctx PKS KS} {ms : List Turn} {m : Turn} {s : Loop R Ev Ctx PKS KS}
    (h : (Loop.new rows cols km).run C n indices (ms ++ [m]) = .ok s) (hm : m.consumer = true) :
    s.consumers.getLastD (consumerBytes 0) = consumerBytes (firstConsumer s.backend.out) := by
  have hinv : ∀ {ms : List Turn} {s : Loop R Ev Ctx PKS KS}, (Loop.new rows cols km).run C n indices ms = .ok s →
      s.consumers.getLastD (consumerBytes 0) = consumerBytes s.lastConsumer := by
    intro ms s h
    refine loop_inv (P := fun s => s.consumers.getLastD (consumerBytes 0) = consumerBytes s.lastConsumer) ?_ rfl h
    rintro s s' m _ hs1 hs
    obtain ⟨core, _, _, _, _, h5⟩ := loop_ok hs
    split at h5
    · simp only [Prod.mk.injEq] at h5; rw [h5.1, h5.2]; simp [List.getLastD_eq_getLast?]
    · simp only [Prod.mk.injEq] at h5; rw [h5.1, h5.2]; exact hs1
  rw [hinv h]
  obtain ⟨s0, g⟩ := loop_last h
  obtain ⟨core, _, h2, _, _, h5⟩ := loop_ok g
  rw [h2]
  simp only [hm, and_true] at h5
  split at h5
  · simp only [Prod.mk.injEq] at h5; rw [h5.2]
  · next hn => simp only [Prod.mk.injEq] at h5; rw [h5.2, ← Classical.not_not.1 hn]

/-- C90. Whatever failed before: after a turn in which writing a mouse report succeeds, the computer knows the buttons, and the movement, as they are. -/
theorem C90_mouse_current {rows cols : Nat} {km : KM R Ev Ctx PKS KS} {ms : List Turn} {m : Turn} {s : Loop R Ev Ctx PKS KS}
    (h : (Loop.new rows cols km).run C n indices (ms ++ [m]) = .ok s) (hm : m.mouse = true) :
    s.mice.getLastD (mouseBytes noMouse) = mouseBytes s.backend.out.pressedMouseOutput := by
  have hinv : ∀ {ms : List Turn} {s : Loop R Ev Ctx PKS KS}, (Loop.new rows cols km).run C n indices ms = .ok s →
      s.mice.getLastD (mouseBytes noMouse) = mouseBytes s.lastMouse := by
    intro ms s h
    refine loop_inv (P := fun s => s.mice.getLastD (mouseBytes noMouse) = mouseBytes s.lastMouse) ?_ rfl h
    rintro s s' m _ hs1 hs
    obtain ⟨core, _, _, _, h4, _⟩ := loop_ok hs
    split at h4
    · simp only [Prod.mk.injEq] at h4; rw [h4.1, h4.2]; simp [List.getLastD_eq_getLast?]
    · simp only [Prod.mk.injEq] at h4; rw [h4.1, h4.2]; exact hs1
  rw [hinv h]
  obtain ⟨s0, g⟩ := loop_last h
  obtain ⟨core, _, h2, _, h4, _⟩ := loop_ok g
  rw [h2]
  simp only [hm, and_true] at h4
  split at h4
  · simp only [Prod.mk.injEq] at h4; rw [h4.2]
  · next hn =>
    simp only [Prod.mk.injEq] at h4
    have e1 : core.backend.out.pressedMouseOutput = s0.lastMouse := Classical.byContradiction fun hne => hn (.inl hne)
    rw [h4.2, ← e1]

/-- C90. A mouse report says the buttons, and the movement to the right, down, of the wheel and to the side. -/
theorem C90_mouse_packet (o : MouseOutput) (hx : -128 ≤ o.x ∧ o.x ≤ 127) (hy : -128 ≤ o.y ∧ o.y ≤ 127) (hv : -128 ≤ o.vscroll ∧ o.vscroll ≤ 127)
    (hh : -128 ≤ o.hscroll ∧ o.hscroll ≤ 127) :
    ∃ b x y w p : Byte, mouseBytes o = [b, x, y, w, p] ∧ b = o.buttons ∧ x.toInt = o.x ∧ y.toInt = o.y ∧ w.toInt = o.vscroll ∧ p.toInt = o.hscroll :=
  ⟨_, _, _, _, _, rfl, rfl, Device.toInt_ofInt8 hx.1 hx.2, Device.toInt_ofInt8 hy.1 hy.2, Device.toInt_ofInt8 hv.1 hv.2, Device.toInt_ofInt8 hh.1 hh.2⟩

/-- C90. A consumer report is the code as a number of 16 bits, its low byte first. -/
theorem C90_consumer_packet (code : Byte) : ∃ l h : Byte, consumerBytes code = [l, h] ∧ l.toNat + 256 * h.toNat = code.toNat := ⟨_, _, rfl, by simp⟩

end

section

open Verif.Board (Entry)
open Verif.Keyboard (start)

variable {K : Comp.Keys} {refs : List Comp.Ref} {S : Search} {layout : List Entry} {n : Nat} {indices : List (List (Option Nat))}

abbrev CLoop := Loop Comp.Ref Comp.Ev Comp.Ctx Comp.PKS Comp.KS

/-- C90. Whatever has happened: when the switches have not moved for 80 turns in which keyboard reports were written, the last report is that of the outputs of the
board of the keymap after the events of the debounced switches; and the keys the board holds are those whose switches are closed. -/
theorem C90_settles {c : Comp.Config} (hp : Comp.Plain K refs c layout) {rows cols : Nat} (hl : Laid rows cols layout.length indices) {ms still : List Turn}
    {raw : Levels} {s : CLoop} (hlong : 80 ≤ still.length) (hms : ∀ m ∈ ms, Size rows cols m.raw) (hsize : Size rows cols raw)
    (hst : ∀ m ∈ still, m.raw = raw ∧ m.keyboard = true) (ht : ms.length + still.length < u32Size)
    (hrun : (Loop.new rows cols (KM.new (Comp.Ctx.fromConfig c))).run ⟨Comp.system K, refs, S⟩ (n + 2) indices (ms ++ still) = .ok s)
    (hro : Roomy ⟨Comp.system K, refs, S⟩ (n + 2) indices (Core.new rows cols (KM.new (Comp.Ctx.fromConfig c))) ((ms ++ still).map Turn.turn)) :
    ∃ b : Board.State, b = (moves rows cols indices (ms.map (·.raw) ++ List.replicate still.length raw)).foldl (Board.State.input layout) (start c) ∧
      s.keyboards.getLast? = some (KeymapOutput.asBootReport b.outputs) ∧
      ∀ i, b.holds i = true ↔ ∃ r c, KeyAt indices r c i ∧ entry raw r c = some true := by
  have hrun' := loop_run hrun
  rw [List.map_append] at hrun' hro
  obtain ⟨b, e1, e2, e3, e4, e5, e6⟩ := at_rest hp hl (raw := raw) (by simpa using hlong)
    (fun m hm => by obtain ⟨y, hy, rfl⟩ := List.mem_map.1 hm; exact hms y hy) hsize
    (fun m hm => by obtain ⟨y, hy, rfl⟩ := List.mem_map.1 hm; exact hst y hy)
    (by simpa using ht) hrun' hro
  refine ⟨b, ?_, ?_, e6⟩
  · rw [e1, List.map_map, List.length_map]; rfl
  · rw [C90_keyboard hrun, e5, if_pos rfl, List.getLast?_map, e4, e3]; rfl

end

namespace Demo.Embassy

/-- Four keys in a row: volume up, volume down, the cursor to the right, and a. -/
def refs : List Comp.Ref := [.consumer 0xE9, .consumer 0xEA, .mouse .cursorRight, .keyboard (.keyCode 4)]

def C : Cfg Comp.Ref Comp.Ev Comp.Ctx Comp.PKS Comp.KS := ⟨Comp.system {}, refs, Search.std⟩

def indices : List (List (Option Nat)) := [[some 0, some 1, some 2, some 3]]

def start : Loop Comp.Ref Comp.Ev Comp.Ctx Comp.PKS Comp.KS := Loop.new 1 4 (KM.new (Comp.Ctx.fromConfig Keyboard.Demo.config))

/-- For `k` turns. -/
def during (k : Nat) (raw : List Bool) (keyboard mouse consumer : Bool) : List Turn := List.replicate k ⟨[raw], keyboard, mouse, consumer⟩

/-- Volume up is held, and volume down tapped. -/
def both : List Turn :=
  during 40 [true, false, false, false] true true true ++ during 40 [true, true, false, false] true true true ++
    during 40 [true, false, false, false] true true true

/-- The cursor key is held for a while, in which writing keyboard reports fails, or mouse reports. -/
def moving (keyboard mouse : Bool) : List Turn :=
  during 40 [false, false, true, false] true true true ++ during 20 [false, false, true, false] keyboard mouse true

/-- How far the cursor goes to the right, in reports of five bytes. -/
def way (rs : List (List Byte)) : Int := (rs.map fun r => (r.getD 1 0).toInt).foldl (· + ·) 0

set_option maxRecDepth 100000 in
theorem both_eq : (fun s => (once (s.made.map KeymapOutput.pressedConsumerCodes), s.consumers)) <$> start.run C 3 indices both =
    .ok ([.ok [], .ok [0xE9], .ok [0xE9, 0xEA], .ok [0xE9]], [[0xE9, 0]]) := by decide +kernel

set_option maxRecDepth 100000 in
theorem moving_eq :
    (fun s => (way ((s.made.map KeymapOutput.pressedMouseOutput).map mouseBytes), way s.mice)) <$> start.run C 3 indices (moving false true) = .ok (80, 175) ∧
    (fun s => (way ((s.made.map KeymapOutput.pressedMouseOutput).map mouseBytes), way s.mice)) <$> start.run C 3 indices (moving true false) = .ok (175, 75) ∧
    (fun s => (way ((s.made.map KeymapOutput.pressedMouseOutput).map mouseBytes), way s.mice)) <$> start.run C 3 indices (moving true true) = .ok (175, 175) := by
  decide +kernel

/-- The hypotheses of C90 hold of a history in which the cursor moves. -/
example : ∃ s, start.run C 3 indices (moving true true) = .ok s ∧ (∀ m ∈ moving true true, m.keyboard = true ∧ m.mouse = true) ∧ way s.mice = 175 := by
  obtain ⟨s, h1, h2⟩ := Res.map_eq_ok.1 moving_eq.2.2
  exact ⟨s, h1, by decide, congrArg Prod.snd h2⟩

/-- A run, if there is room. -/
def roomyRun {R Ev Ctx PKS KS : Type} (C : Cfg R Ev Ctx PKS KS) (n : Nat) (indices : List (List (Option Nat))) (s : Loop R Ev Ctx PKS KS) :
    List Turn → Option (Loop R Ev Ctx PKS KS)
  | [] => some s
  | m :: ms =>
    if s.backend.km.inq.length + (s.deb.events m.raw).2.length ≤ 31 then
      match s.step C n indices m with
      | .ok s => roomyRun C n indices s ms
      | _ => none
    else none

theorem roomyRun_sound {R Ev Ctx PKS KS : Type} {C : Cfg R Ev Ctx PKS KS} {n : Nat} {indices : List (List (Option Nat))} : ∀ (ms : List Turn)
    {s s' : Loop R Ev Ctx PKS KS}, roomyRun C n indices s ms = some s' → s.run C n indices ms = .ok s' ∧ Roomy C n indices s.toCore (ms.map Turn.turn)
  | [], s, s', h => by cases h; exact ⟨rfl, trivial⟩
  | m :: ms, s, s', h => by
    rw [roomyRun] at h
    split at h
    · next hr =>
      split at h
      · next s1 hs =>
        obtain ⟨h1, h2⟩ := roomyRun_sound ms h
        exact ⟨Res.bind_eq_ok.2 ⟨s1, hs, h1⟩, hr, fun s' h' => by rw [loop_turn hs] at h'; cases h'; exact h2⟩
      · cases h
    · cases h

/-- b is pressed; writing fails; a is held. -/
def before : List Turn := List.replicate 40 ⟨[[false], [true]], true, true, true⟩ ++ List.replicate 40 ⟨[[true], [true]], false, true, true⟩

def after : List Turn := List.replicate 100 ⟨[[true], [false]], true, true, true⟩

set_option maxRecDepth 100000 in
theorem roomy_eq : ((roomyRun ⟨Comp.system Keyboard.Demo.K, Keyboard.Demo.refs, Search.std⟩ 2 Demo.two
    (Loop.new 2 1 (KM.new (Comp.Ctx.fromConfig Keyboard.Demo.config))) (before ++ after)).map fun s => once s.keyboards) =
    some [[0, 0, 0, 0, 0, 0, 0, 0], [0, 0, 5, 0, 0, 0, 0, 0], [0, 0, 5, 4, 0, 0, 0, 0], [0, 0, 4, 0, 0, 0, 0, 0]] := by decide +kernel

/-- The hypotheses of C90_settles hold of this history. -/
example : ∃ s, (Loop.new 2 1 (KM.new (Comp.Ctx.fromConfig Keyboard.Demo.config))).run ⟨Comp.system Keyboard.Demo.K, Keyboard.Demo.refs, Search.std⟩ 2 Demo.two
      (before ++ after) = .ok s ∧
    Roomy ⟨Comp.system Keyboard.Demo.K, Keyboard.Demo.refs, Search.std⟩ 2 Demo.two (Core.new 2 1 (KM.new (Comp.Ctx.fromConfig Keyboard.Demo.config)))
      ((before ++ after).map Turn.turn) ∧
    s.keyboards.getLast? = some ([0, 0, 4, 0, 0, 0, 0, 0]) := by
  obtain ⟨s, h1, h2⟩ := Option.map_eq_some_iff.1 roomy_eq
  obtain ⟨h3, h4⟩ := roomyRun_sound _ h1
  exact ⟨s, h3, h4, by rw [← once_getLast, h2]; rfl⟩

end Demo.Embassy

/-- C90, refuted: of two consumer keys that are held only the first one is reported: volume down is tapped while volume up is held, and the computer
does not hear of it. -/
theorem C90_second_refuted : ∃ s, Demo.Embassy.start.run Demo.Embassy.C 3 Demo.Embassy.indices Demo.Embassy.both = .ok s ∧
    once (s.made.map KeymapOutput.pressedConsumerCodes) = [.ok [], .ok [0xE9], .ok [0xE9, 0xEA], .ok [0xE9]] ∧ s.consumers = [[0xE9, 0]] := by
  obtain ⟨s, h1, h2⟩ := Res.map_eq_ok.1 Demo.Embassy.both_eq
  exact ⟨s, h1, congrArg Prod.fst h2, congrArg Prod.snd h2⟩

/-- C90, refuted: while writing keyboard reports fails, the last movement of the mouse is sent again and again: the cursor goes 175 to the right where the keymap
says 80. -/
theorem C90_repeats_refuted : ∃ s, Demo.Embassy.start.run Demo.Embassy.C 3 Demo.Embassy.indices (Demo.Embassy.moving false true) = .ok s ∧
    Demo.Embassy.way ((s.made.map KeymapOutput.pressedMouseOutput).map mouseBytes) = 80 ∧ Demo.Embassy.way s.mice = 175 := by
  obtain ⟨s, h1, h2⟩ := Res.map_eq_ok.1 Demo.Embassy.moving_eq.1
  exact ⟨s, h1, congrArg Prod.fst h2, congrArg Prod.snd h2⟩

/-- C90, refuted: movements whose reports cannot be written are lost: the cursor goes 75 to the right where the keymap says 175. -/
theorem C90_drops_refuted : ∃ s, Demo.Embassy.start.run Demo.Embassy.C 3 Demo.Embassy.indices (Demo.Embassy.moving true false) = .ok s ∧
    Demo.Embassy.way ((s.made.map KeymapOutput.pressedMouseOutput).map mouseBytes) = 175 ∧ Demo.Embassy.way s.mice = 75 := by
  obtain ⟨s, h1, h2⟩ := Res.map_eq_ok.1 Demo.Embassy.moving_eq.2.1
  exact ⟨s, h1, congrArg Prod.fst h2, congrArg Prod.snd h2⟩

end Verif.Rtic
