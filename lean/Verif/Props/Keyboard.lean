import Verif.Lemmas.KeyboardRun
import Verif.Lemmas.UsbFast
import Verif.Props.Hid
import Verif.Props.Macro
import Verif.Props.Codegen
import Verif.Props.ChordCapacity

/-!
# C82: from the switches to what the computer takes for pressed
-/

namespace Verif.Keyboard

open Device (Along levels)
open Board (Queued Entry Cell)
open Hid (On keyPage consumerPage reading)
open Spec

section

variable {K : Comp.Keys} {refs : List Comp.Ref} {S : Search} {layout : List Entry} {n : Nat}

/-! ## Outputs as the computer reads them -/

/-- An output as a request. -/
def req (o : KeyOutput) : Request := ⟨o.usage, o.mods⟩

theorem fromKeyCode_none {k : Byte} (h : k.toNat < 0xE0 ∨ 0xE7 < k.toNat) : Mods.fromKeyCode k = none := by
  have hne : ∀ x : Byte, 0xE0 ≤ x.toNat → x.toNat ≤ 0xE7 → k ≠ x := fun x h1 h2 he => by subst he; omega
  simp only [Mods.fromKeyCode]
  rw [if_neg (hne _ (by decide) (by decide)), if_neg (hne _ (by decide) (by decide)), if_neg (hne _ (by decide) (by decide)),
    if_neg (hne _ (by decide) (by decide)), if_neg (hne _ (by decide) (by decide)), if_neg (hne _ (by decide) (by decide)),
    if_neg (hne _ (by decide) (by decide)), if_neg (hne _ (by decide) (by decide))]

theorem req_output {o : KeyOutput} (h : Proper o) : (req o).output = o := by
  obtain ⟨u, m⟩ := o
  cases u with
  | keyboard k => simp [req, Request.output, KeyOutput.fromUsageWithModifiers, fromKeyCode_none (h k rfl)]
  | _ => rfl

theorem map_req {outs : List KeyOutput} (h : ∀ o ∈ outs, Proper o) : (outs.map req).map Request.output = outs := by
  rw [List.map_map]
  conv => rhs; rw [← List.map_id outs]
  exact List.map_congr_left fun o ho => req_output (h o ho)

theorem plainCodes_req {outs : List KeyOutput} (h : ∀ o ∈ outs, Proper o) : plainCodes (outs.map req) = codes outs := by
  rw [plainCodes, codes, List.filterMap_map]
  induction outs with
  | nil => rfl
  | cons o outs ih =>
    have := ih fun o ho => h o (by simp [ho])
    have ho := h o (by simp)
    rw [List.filterMap_cons, List.filterMap_cons, this]
    have : ((fun q : Request => plainCode? q.usage) ∘ req) o = (match o.usage with
      | .keyboard k => if k = 0 then none else some k
      | _ => none) := by
      obtain ⟨u, m⟩ := o
      cases u with
      | keyboard k =>
        have := ho k rfl
        show (if k = 0 ∨ (0xE0 ≤ k.toNat ∧ k.toNat ≤ 0xE7) then none else some k) = if k = 0 then none else some k
        by_cases h0 : k = 0
        · rw [if_pos (.inl h0), if_pos h0]
        · rw [if_neg (by rintro (h | h) <;> first | exact h0 h | omega), if_neg h0]
      | _ => rfl
    rw [this]
    rfl

theorem consumerCodes_req (outs : List KeyOutput) : consumerCodes (outs.map req) = consumer outs := by
  rw [consumerCodes, consumer, List.filterMap_map]; rfl

theorem update_size {r r' : CApi.HidReport} {outs : List KeyOutput} (hr : Device.Sizes r) (h1 : r.update outs = .ok r') : Device.Sizes r' := by
  unfold CApi.HidReport.update at h1
  obtain ⟨cu, _, h1⟩ := Res.bind_eq_ok.1 h1
  obtain ⟨co, _, h1⟩ := Res.bind_eq_ok.1 h1
  cases h1
  refine ⟨?_, ?_⟩
  · simp [CApi.copyInto, C01_boot_report_length, hr.1]
  · simp [CApi.copyInto, CApi.consumerLen]; omega

/-- The report of these outputs, read with the descriptors. -/
theorem shows {outs : List KeyOutput} (hp : ∀ o ∈ outs, Proper o) (hl : outs.length ≤ 16) {old rep : CApi.HidReport} (ho : Device.Sizes old)
    (hu : old.update outs = .ok rep) :
    (∃ r, reading Hid.usbKeyboard 0 rep.keyboard = some r ∧ Shows outs r) ∧
      ∃ r, reading Hid.usbConsumer 0 rep.consumer = some r ∧ ShowsConsumer outs r := by
  have hs : Device.Sizes rep := update_size ho hu
  have hm := map_req hp
  obtain ⟨rep1, r, a1, a2, a3, a4, a5⟩ := Hid.C78_keyboard_partial (outs.map req) (by simpa [maxPressedKeys] using hl) old ho.1
  rw [hm, hu] at a1
  cases a1
  obtain ⟨rep1, r', b1, b2, b3⟩ := Hid.C78_consumer (outs.map req) (by simpa [maxPressedKeys] using hl) old ho.1
  rw [hm, hu] at b1
  cases b1
  simp only [Device.packets] at a2 b2
  rw [List.take_of_length_le (Nat.le_of_eq hs.1)] at a2
  rw [List.take_of_length_le (Nat.le_of_eq hs.2)] at b2
  rw [plainCodes_req hp] at a4
  rw [consumerCodes_req] at b3
  refine ⟨⟨r, a2, fun i hi => (a3 i hi).trans ⟨?_, ?_⟩, a4, a5⟩, r', b2, b3⟩
  · rintro ⟨q, hq, h⟩
    obtain ⟨o, ho, rfl⟩ := List.mem_map.1 hq
    rcases h with h | h
    · exact ⟨o, ho, h⟩
    · have := hp o ho _ h
      simp only [modCode, BitVec.toNat_ofNat] at this
      omega
  · rintro ⟨o, ho, h⟩
    exact ⟨req o, List.mem_map_of_mem ho, .inl h⟩

/-! ## Held keys -/

/-- The held keys are different keys, and do what their entries have. -/
structure HeldOk (layout : List Entry) (s : Board.State) : Prop where
  nodup : (s.held.map (·.1)).Nodup
  has : ∀ p ∈ s.held, ∃ e, layout[p.1]? = some e ∧ Has e p.2

theorem press_same (c : Cell) (s : Board.State) : (c.press s).held = s.held := by cases c <;> rfl

theorem release_same (c : Cell) (s : Board.State) : (c.release s).held = s.held := by cases c <;> rfl

theorem pick_has (e : Entry) (s : Board.State) : Has e (e.pick s) := by
  cases e with
  | cell c => rfl
  | layered b cs => exact Comp.lookup_mem s.on s.dflt b cs

theorem HeldOk.input {s : Board.State} (h : HeldOk layout s) (ev : InputEvent) : HeldOk layout (s.input layout ev) := by
  cases ev with
  | press i =>
    simp only [Board.State.input]
    split
    · exact h
    · next hh =>
      split
      · next e he =>
        refine ⟨?_, fun p hp => ?_⟩
        · rw [press_same, List.map_append, List.nodup_append]
          refine ⟨h.nodup, by simp, fun a ha b hb => ?_⟩
          simp only [List.map_cons, List.map_nil, List.mem_singleton] at hb
          subst hb
          obtain ⟨p, hp, rfl⟩ := List.mem_map.1 ha
          intro hc
          apply hh
          rw [Board.State.holds, List.any_eq_true]
          exact ⟨p, hp, by simp [hc]⟩
        · rw [press_same] at hp
          rcases List.mem_append.1 hp with hp | hp
          · exact h.has p hp
          · simp only [List.mem_singleton] at hp
            subst hp
            exact ⟨e, he, pick_has e s⟩
      · exact h
  | release i =>
    simp only [Board.State.input]
    split
    · refine ⟨?_, fun p hp => ?_⟩
      · rw [release_same]
        exact h.nodup.sublist (List.Sublist.map _ List.filter_sublist)
      · rw [release_same] at hp
        exact h.has p (List.mem_filter.1 hp).1
    · exact h
  | _ => exact h

theorem heldOk_foldl (evs : List InputEvent) {s : Board.State} (h : HeldOk layout s) : HeldOk layout (evs.foldl (Board.State.input layout) s) := by
  induction evs generalizing s with
  | nil => exact h
  | cons e es ih => exact ih (h.input e)

theorem heldOk_start (c : Comp.Config) : HeldOk layout (start c) := ⟨List.nodup_nil, fun _ h => nomatch h⟩

theorem heldBy_start (c : Comp.Config) (count : Nat) : HeldBy (start c) 0 (List.replicate count Firmware.Key.new) := by
  intro j hj
  rw [List.getElem_replicate]
  rfl

/-! ## C82 -/

/-- C82. The switches may have moved in whatever way. If then they do not move for sixty scans (0.3 s with the timer of the firmware), and the computer
asks for reports, then what it takes for pressed is what the board of the keymap says after the events of the debounced switches; and the
keys the board holds are those whose switches are closed. -/
theorem C82_settles {c : Comp.Config} (hp : Comp.Plain K refs c layout) (hpr : ∀ e ∈ layout, ∀ o, Has e (.out o) → Proper o)
    {count n1 n2 k : Nat} (h1 : 121 ≤ n1) (h2 : 121 ≤ n2) (hk : 60 ≤ k) {es : List Device.Event} {raw : List Bool}
    (hlv : ∀ r ∈ levels es, r.length = count) (hraw : raw.length = count) (hcount : count ≤ layout.length) (hcf : .configure ∈ es)
    (ht : (levels es).length + k < u32Size) {d : CDev}
    (hrun : Device.run ⟨Comp.system K, refs, S⟩ (n + 2) (Device.new count (KM.new (Comp.Ctx.fromConfig c))) (es ++ still n1 n2 raw k) = .ok d)
    (hal : Along ⟨Comp.system K, refs, S⟩ (n + 2) (Device.new count (KM.new (Comp.Ctx.fromConfig c))) (es ++ still n1 n2 raw k))
    (hro : Roomy ⟨Comp.system K, refs, S⟩ (n + 2) (Device.new count (KM.new (Comp.Ctx.fromConfig c))) (es ++ still n1 n2 raw k)) :
    ∃ s : Board.State, s = (moves count (levels es ++ List.replicate k raw)).foldl (Board.State.input layout) (start c) ∧
      (∃ r, pressed d.usb = some r ∧ Shows s.outputs r) ∧ (∃ r, pressedConsumer d.usb = some r ∧ ShowsConsumer s.outputs r) ∧
      (∀ i, s.holds i = true ↔ raw[i]? = some true) := by
  obtain ⟨t, m, st⟩ := stage hp h1 h2 hlv hraw hcf k ht hrun hal hro
  obtain ⟨e1, e2, old, e3, e4⟩ := at_rest st (by omega)
  have hok : HeldOk layout m.board := by rw [e1]; exact heldOk_foldl _ (heldOk_start c)
  have hproper : ∀ o ∈ m.board.outputs, Proper o := by
    intro o ho
    obtain ⟨p, hp1, hp2⟩ := List.mem_filterMap.1 ho
    obtain ⟨e, he, hh⟩ := hok.has p hp1
    refine hpr e (List.mem_of_getElem? he) o ?_
    obtain ⟨i, x⟩ := p
    cases x <;> simp only [Cell.output, Option.some.injEq, reduceCtorEq] at hp2
    subst hp2
    exact hh
  obtain ⟨g1, g2⟩ := shows hproper e2 e3 e4
  obtain ⟨f1, f2⟩ := st.host (by omega)
  refine ⟨m.board, e1, ?_, ?_, fun i => ?_⟩
  · rw [pressed, f1]; exact g1
  · rw [pressedConsumer, f2]; exact g2
  · have hset := settles (count := count) (k := k) (by omega) hlv hraw
    obtain ⟨b1, b2⟩ := held_scans (layout := layout) (levels es ++ List.replicate k raw) (List.replicate count Firmware.Key.new) (start c)
      (by simpa using hcount) (heldBy_start c count)
    rw [show (Firmware.scans (List.replicate count Firmware.Key.new) (levels es ++ List.replicate k raw)).2 = moves count (levels es ++ List.replicate k raw) from rfl,
      ← e1] at b1 b2
    have hlen : (Firmware.scans (List.replicate count Firmware.Key.new) (levels es ++ List.replicate k raw)).1.length = count := by
      rw [scans_length, List.length_replicate]
    by_cases hi : i < count
    · have := b1 i (by omega)
      rw [Nat.zero_add] at this
      rw [this]
      have hx : (Firmware.scans (List.replicate count Firmware.Key.new) (levels es ++ List.replicate k raw)).1.map (·.debounced) = raw := hset
      have hy : raw[i]? = some ((Firmware.scans (List.replicate count Firmware.Key.new) (levels es ++ List.replicate k raw)).1[i]'(by omega)).debounced := by
        conv => lhs; rw [← hx]
        rw [List.getElem?_map, List.getElem?_eq_getElem (by omega)]; rfl
      rw [hy, Option.some.injEq]
    · rw [b2 i (by simpa using hi), List.getElem?_eq_none (by omega)]
      exact ⟨fun h => (nomatch h), fun h => (nomatch h)⟩

/-- The hypotheses of `C82_settles`, as one: the switches move in whatever way (`es`), then they do not move for `k` scans; the keyboard has been
configured; there is room for the key events. -/
structure Rests (K : Comp.Keys) (refs : List Comp.Ref) (S : Search) (n : Nat) (c : Comp.Config) (count : Nat) (es : List Device.Event) (raw : List Bool)
    (n1 n2 k : Nat) (d : CDev) : Prop where
  main1 : 121 ≤ n1
  main2 : 121 ≤ n2
  long : 60 ≤ k
  levels : ∀ r ∈ levels es, r.length = count
  size : raw.length = count
  configured : .configure ∈ es
  time : (Device.levels es).length + k < u32Size
  runs : Device.run ⟨Comp.system K, refs, S⟩ (n + 2) (Device.new count (KM.new (Comp.Ctx.fromConfig c))) (es ++ still n1 n2 raw k) = .ok d
  along : Along ⟨Comp.system K, refs, S⟩ (n + 2) (Device.new count (KM.new (Comp.Ctx.fromConfig c))) (es ++ still n1 n2 raw k)
  roomy : Roomy ⟨Comp.system K, refs, S⟩ (n + 2) (Device.new count (KM.new (Comp.Ctx.fromConfig c))) (es ++ still n1 n2 raw k)

theorem held_nil {s : Board.State} (h : ∀ i, s.holds i = false) : s.held = [] := by
  cases hh : s.held with
  | nil => rfl
  | cons p ps =>
    have := h p.1
    simp [Board.State.holds, hh] at this

/-- C82. No key is stuck: when all the switches are open, then the computer takes no key for pressed, whatever was pressed before, and whatever
layers are active. -/
theorem C82_no_stuck_keys {c : Comp.Config} (hp : Comp.Plain K refs c layout) (hpr : ∀ e ∈ layout, ∀ o, Has e (.out o) → Proper o)
    {count n1 n2 k : Nat} (hcount : count ≤ layout.length) {es : List Device.Event} {d : CDev}
    (h : Rests K refs S n c count es (List.replicate count false) n1 n2 k d) :
    (∃ r, pressed d.usb = some r ∧ ∀ p u, 1 ≤ u → ¬ On r (p, u)) ∧ ∃ r, pressedConsumer d.usb = some r ∧ ∀ p u, 1 ≤ u → ¬ On r (p, u) := by
  obtain ⟨s, _, ⟨r, h1, h2⟩, ⟨r', h3, h4⟩, h5⟩ := C82_settles hp hpr h.main1 h.main2 h.long h.levels h.size hcount h.configured h.time h.runs h.along h.roomy
  have hnil : s.outputs = [] := by
    rw [Board.State.outputs, held_nil]; rfl
    intro i
    have := h5 i
    cases hs : s.holds i with
    | false => rfl
    | true =>
      have := this.1 hs
      rw [List.getElem?_replicate] at this
      split at this <;> simp at this
  rw [hnil] at h2 h4
  refine ⟨⟨r, h1, fun p u hu ho => ?_⟩, r', h3, fun p u hu ho => ?_⟩
  · obtain ⟨rfl, hx | hx⟩ := h2.only p u ho
    · have := (h2.keys (BitVec.ofNat 8 u) (fun h0 => by have := congrArg BitVec.toNat h0; simp at this; omega) (by simp; omega)).1
        (by rw [BitVec.toNat_ofNat, Nat.mod_eq_of_lt (by omega)]; exact ho)
      simp [codes] at this
    · obtain ⟨o, ho, _⟩ := (h2.modifiers (u - 0xE0) (by omega)).1 (by rw [show 0xE0 + (u - 0xE0) = u by omega]; exact ho)
      cases ho
  · obtain ⟨_, k, hk, _⟩ := (h4 p u hu).1 ho
    simp [consumer] at hk

theorem held_count {raw : List Bool} {s : Board.State} (hn : (s.held.map (·.1)).Nodup) (hs : ∀ i, s.holds i = true → raw[i]? = some true) :
    s.held.length ≤ raw.count true := by
  have hclosed : ∀ (raw : List Bool) (i : Nat), raw.count true = ((List.range' i raw.length).filter fun j => raw[j - i]? == some true).length := by
    intro raw
    induction raw with
    | nil => intro i; rfl
    | cons b raw ih =>
      intro i
      rw [List.length_cons, List.range'_succ, List.filter_cons]
      have hf : (List.range' (i + 1) raw.length).filter (fun j => (b :: raw)[j - i]? == some true) =
          (List.range' (i + 1) raw.length).filter fun j => raw[j - (i + 1)]? == some true := by
        apply List.filter_congr
        intro j hj
        have := List.mem_range'_1.1 hj
        rw [show j - i = (j - (i + 1)) + 1 by omega, List.getElem?_cons_succ]
      rw [hf, List.count_cons, ih (i + 1)]
      cases b <;> simp
  rw [hclosed raw 0, ← List.length_map (f := (·.1)) (as := s.held)]
  refine Chorded.nodup_length_le hn fun i hi => ?_
  obtain ⟨p, hp, rfl⟩ := List.mem_map.1 hi
  have hh : s.holds p.1 = true := by
    rw [Board.State.holds, List.any_eq_true]; exact ⟨p, hp, by simp⟩
  have := hs _ hh
  rw [List.mem_filter]
  exact ⟨List.mem_range'_1.2 ⟨by omega, by have := (List.getElem?_eq_some_iff.1 this).1; omega⟩, by simp [this]⟩

/-- The outputs of the held keys of a keymap without layers. -/
theorem outputs_cells {s : Board.State} {raw : List Bool} (hc : ∀ e ∈ layout, ∃ c, e = .cell c) (hok : HeldOk layout s)
    (hs : ∀ i, s.holds i = true ↔ raw[i]? = some true) (hraw : raw.length ≤ layout.length) (o : KeyOutput) :
    o ∈ s.outputs ↔ ∃ i : Nat, raw[i]? = some true ∧ layout[i]? = some (Entry.cell (.out o)) := by
  constructor
  · intro ho
    obtain ⟨⟨i, x⟩, hp1, hp2⟩ := List.mem_filterMap.1 ho
    obtain ⟨e, he, hh⟩ := hok.has _ hp1
    obtain ⟨x', rfl⟩ := hc e (List.mem_of_getElem? he)
    cases hh
    refine ⟨i, (hs i).1 (by rw [Board.State.holds, List.any_eq_true]; exact ⟨_, hp1, by simp⟩), ?_⟩
    cases x <;> simp only [Cell.output, Option.some.injEq, reduceCtorEq] at hp2
    subst hp2
    exact he
  · rintro ⟨i, h1, h2⟩
    have := (hs i).2 h1
    rw [Board.State.holds, List.any_eq_true] at this
    obtain ⟨⟨j, x⟩, hp, hj⟩ := this
    simp only [beq_iff_eq] at hj
    subst hj
    obtain ⟨e, he, hh⟩ := hok.has _ hp
    simp only at he
    rw [h2] at he
    cases he
    cases hh
    exact List.mem_filterMap.2 ⟨_, hp, rfl⟩

/-- C82. On a keymap without layers, if at most six switches are closed: the computer takes a key for pressed exactly if the switch of a position with
this key is closed, and a modifier exactly if the switch of a position with this modifier is closed. -/
theorem C82_keys {c : Comp.Config} (hp : Comp.Plain K refs c layout) (hpr : ∀ e ∈ layout, ∀ o, Has e (.out o) → Proper o)
    (hc : ∀ e ∈ layout, ∃ c, e = .cell c)
    {count n1 n2 k : Nat} (hcount : count ≤ layout.length) {es : List Device.Event} {raw : List Bool} (h6 : raw.count true ≤ 6) {d : CDev}
    (h : Rests K refs S n c count es raw n1 n2 k d) :
    ∃ r, pressed d.usb = some r ∧
      (∀ u, 1 ≤ u → u ≤ 145 → (On r (keyPage, u) ↔ ∃ (i : Nat) (o : KeyOutput), raw[i]? = some true ∧ layout[i]? = some (Entry.cell (.out o)) ∧ o.usage = .keyboard (BitVec.ofNat 8 u))) ∧
      (∀ j, j < 8 → (On r (keyPage, 0xE0 + j) ↔ ∃ (i : Nat) (o : KeyOutput), raw[i]? = some true ∧ layout[i]? = some (Entry.cell (.out o)) ∧ o.mods.getLsbD j = true)) := by
  obtain ⟨s, h0, ⟨r, h1, h2⟩, _, h5⟩ := C82_settles hp hpr h.main1 h.main2 h.long h.levels h.size hcount h.configured h.time h.runs h.along h.roomy
  have hok : HeldOk layout s := by rw [h0]; exact heldOk_foldl _ (heldOk_start c)
  have hout := outputs_cells hc hok h5 (by rw [h.size]; exact hcount)
  have hlen : (codes s.outputs).length ≤ 6 :=
    Nat.le_trans (List.length_filterMap_le _ _) (Nat.le_trans (List.length_filterMap_le _ _) (Nat.le_trans (held_count hok.nodup fun i hi => (h5 i).1 hi) h6))
  refine ⟨r, h1, fun u hu1 hu2 => ?_, fun j hj => (h2.modifiers j hj).trans ⟨?_, ?_⟩⟩
  · have hne : BitVec.ofNat 8 u ≠ 0 := fun h0 => by have := congrArg BitVec.toNat h0; simp at this; omega
    have hv : (BitVec.ofNat 8 u).toNat = u := by rw [BitVec.toNat_ofNat, Nat.mod_eq_of_lt (by omega)]
    have := h2.keys (BitVec.ofNat 8 u) hne (by rw [hv]; exact hu2)
    rw [hv, List.take_of_length_le hlen] at this
    rw [this, codes, List.mem_filterMap]
    constructor
    · rintro ⟨o, ho, hx⟩
      obtain ⟨i, a1, a2⟩ := (hout o).1 ho
      refine ⟨i, o, a1, a2, ?_⟩
      split at hx
      · next k he =>
        split at hx
        · cases hx
        · rw [he]; cases hx; rfl
      · cases hx
    · rintro ⟨i, o, a1, a2, a3⟩
      refine ⟨o, (hout o).2 ⟨i, a1, a2⟩, ?_⟩
      rw [a3]
      simp only
      rw [if_neg hne]
  · rintro ⟨o, ho, hx⟩
    obtain ⟨i, a1, a2⟩ := (hout o).1 ho
    exact ⟨i, o, a1, a2, hx⟩
  · rintro ⟨i, o, a1, a2, hx⟩
    exact ⟨o, (hout o).2 ⟨i, a1, a2⟩, hx⟩

/-! ## It does run -/

/-- The event is of one of the first `count` keys. -/
def Within (count : Nat) (e : InputEvent) : Prop := ∃ i, i < count ∧ (e = .press i ∨ e = .release i)

theorem scanFrom_within (count i : Nat) (ks : List Firmware.Key) (raw : List Bool) (h : i + ks.length ≤ count) :
    ∀ e ∈ (Firmware.scanFrom i ks raw).2, Within count e := by
  induction ks generalizing i raw with
  | nil => intro e he; cases raw <;> cases he
  | cons k ks ih =>
    simp only [List.length_cons] at h
    cases raw with
    | nil => intro e he; cases he
    | cons r rs =>
      intro e he
      simp only [Firmware.scanFrom, List.mem_append] at he
      rcases he with he | he
      · cases hs : (k.scan r).2 with
        | none => rw [hs] at he; cases he
        | some b =>
          rw [hs] at he
          simp only [Option.map_some, Option.toList_some, List.mem_singleton] at he
          subst he
          exact ⟨i, by omega, by cases b <;> simp [Firmware.stateChanged]⟩
      · exact ih _ _ (by omega) e he

/-- The held keys are among the first `count`. -/
theorem held_within {count : Nat} (evs : List InputEvent) (he : ∀ e ∈ evs, Within count e) {s : Board.State} (h : ∀ p ∈ s.held, p.1 < count) :
    ∀ p ∈ (evs.foldl (Board.State.input layout) s).held, p.1 < count := by
  induction evs generalizing s with
  | nil => exact h
  | cons e es ih =>
    refine ih (fun e h => he e (by simp [h])) ?_
    obtain ⟨i, hi, rfl | rfl⟩ := he e (by simp)
    · simp only [Board.State.input]
      split
      · exact h
      · split
        · intro p hp
          rw [press_same] at hp
          rcases List.mem_append.1 hp with hp | hp
          · exact h p hp
          · simp only [List.mem_singleton] at hp; subst hp; exact hi
        · exact h
    · simp only [Board.State.input]
      split
      · intro p hp
        rw [release_same] at hp
        exact h p (List.mem_filter.1 hp).1
      · exact h

theorem AtMostSixteen.first {b : Board.State} {xs ys : List InputEvent} (h : AtMostSixteen layout b (xs ++ ys)) : AtMostSixteen layout b xs :=
  fun first hf => h first (hf.trans (List.prefix_append _ _))

/-- A keyboard with at most sixteen keys. -/
theorem atMostSixteen_few {count : Nat} (h16 : count ≤ 16) (c : Comp.Config) {evs : List InputEvent} (hw : ∀ e ∈ evs, Within count e) :
    AtMostSixteen layout (start c) evs := by
  intro first hf
  have hok : HeldOk layout (first.foldl (Board.State.input layout) (start c)) := heldOk_foldl _ (heldOk_start c)
  have hin := held_within (layout := layout) first (fun e he => hw e (hf.subset he)) (s := start c) (fun p hp => nomatch hp)
  have := Chorded.nodup_length_le (s := List.range count) hok.nodup (by
    intro x hx
    obtain ⟨p, hp, rfl⟩ := List.mem_map.1 hx
    exact List.mem_range.2 (hin p hp))
  simp only [List.length_map, List.length_range] at this
  omega

theorem Follows.takes {c : Comp.Config} {count : Nat} (hcount : count ≤ layout.length) {km : Comp.CKM} {t : Nat} {m : Queued}
    {evs rest xs : List InputEvent} {x : InputEvent} (h : Follows K layout c.layerCount (start c) km t m evs) (h16 : AtMostSixteen layout (start c) (evs ++ rest))
    (hx : m.queue ++ rest = x :: xs) (he : Within count x) : m.board.takes layout x = true := by
  obtain ⟨tk, h1, h2⟩ := h.taken
  obtain ⟨i, hi, rfl | rfl⟩ := he
  · cases hh : m.board.holds i with
    | true => simp [Board.State.takes, hh]
    | false =>
      have := h16 (tk ++ [.press i]) ⟨xs, by rw [← h2, List.append_assoc, List.append_assoc, hx]; rfl⟩
      rw [List.foldl_append, ← h1] at this
      simp only [List.foldl_cons, List.foldl_nil, Board.State.input, hh, Bool.false_eq_true, if_false] at this
      rw [List.getElem?_eq_getElem (by omega)] at this
      simp only [press_same, List.length_append, List.length_singleton] at this
      simp [Board.State.takes, hh]
      omega
  · rfl

theorem Follows.queue_within {c : Comp.Config} {count : Nat} {km : Comp.CKM} {t : Nat} {m : Queued}
    {evs : List InputEvent} (h : Follows K layout c.layerCount (start c) km t m evs) (hw : ∀ e ∈ evs, Within count e) : ∀ e ∈ m.queue, Within count e := by
  obtain ⟨tk, h1, h2⟩ := h.taken
  exact fun e he => hw e (by rw [← h2]; simp [he])

theorem Follows.register_ok {c : Comp.Config} (hp : Comp.Plain K refs c layout) {count : Nat} (hcount : count ≤ layout.length)
    {t : Nat} {es : List InputEvent} (hes : ∀ e ∈ es, Within count e) {km : Comp.CKM} {m : Queued} {evs : List InputEvent}
    (h16 : AtMostSixteen layout (start c) (evs ++ es))
    (h : Follows K layout c.layerCount (start c) km t m evs) (hw : ∀ e ∈ evs, Within count e) (hl : m.queue.length + es.length ≤ 31) :
    ∃ km', Device.register ⟨Comp.system K, refs, S⟩ (n + 2) km es = .ok km' := by
  induction es generalizing km m evs with
  | nil => exact ⟨km, rfl⟩
  | cons e es ih =>
    simp only [List.length_cons] at hl
    have hw1 := hes e (by simp)
    have hphys : Comp.isPhysical e = true := by obtain ⟨i, _, rfl | rfl⟩ := hw1 <;> rfl
    have key := h.sim.input (S := S) (n := n) hp.layoutEq hp.fits hp.size hphys
    have hsome : ∃ m1, m.input layout e = some m1 := by
      simp only [Queued.input]
      rw [if_neg (by omega)]
      split
      · cases hq : m.queue ++ [e] with
        | nil => simp at hq
        | cons x xs =>
          have hx : x ∈ m.queue ++ [e] := by rw [hq]; simp
          have hxw : Within count x := by
            rcases List.mem_append.1 hx with hx | hx
            · exact h.queue_within hw x hx
            · simp only [List.mem_singleton] at hx; subst hx; exact hw1
          simp only [Queued.take]
          rw [if_pos (h.takes hcount (rest := [e]) (AtMostSixteen.first (ys := es) (by simpa using h16)) hq hxw)]
          exact ⟨_, rfl⟩
      · exact ⟨_, rfl⟩
    obtain ⟨m1, hm⟩ := hsome
    obtain ⟨km1, k1, k2⟩ := key.1 m1 hm
    obtain ⟨t1, t2, t3⟩ := h.taken.input (by omega) h.delay hm
    have k1' : handleInput ⟨Comp.system K, refs, S⟩ (n + 2) km e = .ok km1 := k1
    have hrep := (handleInput_clock (qinv h.sim) k1').2.2.2.1
    obtain ⟨km', g⟩ := ih (fun e he => hes e (by simp [he])) (km := km1) (m := m1) (evs := evs ++ [e]) (by simpa using h16) ⟨k2, t1, by omega, t3, by rw [hrep]; exact h.rep⟩
      (by
        intro x hx
        rcases List.mem_append.1 hx with hx | hx
        · exact hw x hx
        · simp only [List.mem_singleton] at hx; subst hx; exact hw1) (by omega)
    exact ⟨km', by simp only [Device.register, k1', Res.ok_bind]; exact g⟩

/-- The report can be updated. -/
theorem update_ok {outs : List KeyOutput} (hp : ∀ o ∈ outs, Proper o) (hl : outs.length ≤ 16) {old : CApi.HidReport} (ho : Device.Sizes old) :
    ∃ rep, old.update outs = .ok rep := by
  have := C05_c_report (outs.map req) (by simpa [maxPressedKeys] using hl) old ho.1
  rw [map_req hp] at this
  exact ⟨_, this⟩

theorem Follows.proper {c : Comp.Config} (hpr : ∀ e ∈ layout, ∀ o, Has e (.out o) → Proper o) {km : Comp.CKM} {t : Nat} {m : Queued} {evs : List InputEvent}
    (h : Follows K layout c.layerCount (start c) km t m evs) : ∀ o ∈ m.board.outputs, Proper o := by
  obtain ⟨tk, h1, h2⟩ := h.taken
  have hok : HeldOk layout m.board := by rw [h1]; exact heldOk_foldl _ (heldOk_start c)
  intro o ho
  obtain ⟨p, hp1, hp2⟩ := List.mem_filterMap.1 ho
  obtain ⟨e, he, hh⟩ := hok.has p hp1
  refine hpr e (List.mem_of_getElem? he) o ?_
  obtain ⟨i, x⟩ := p
  cases x <;> simp only [Cell.output, Option.some.injEq, reduceCtorEq] at hp2
  subst hp2
  exact hh

theorem Follows.timer_runs {c : Comp.Config} (hp : Comp.Plain K refs c layout) (hpr : ∀ e ∈ layout, ∀ o, Has e (.out o) → Proper o)
    {count : Nat} (hcount : count ≤ layout.length)
    {d : CDev} {t : Nat} {m : Queued} {evs : List InputEvent} {raw : List Bool} (h16 : AtMostSixteen layout (start c) (evs ++ (Firmware.scan d.keys raw).2)) (h : Follows K layout c.layerCount (start c) d.km t m evs) (ht : t + 1 < u32Size)
    (hw : ∀ e ∈ evs, Within count e) (hk : d.keys.length = count) (hz : Device.Sizes d.report)
    (hl : d.km.inq.length + (Firmware.scan d.keys raw).2.length ≤ 31) :
    ∃ d', Device.timer ⟨Comp.system K, refs, S⟩ (n + 2) d raw = .ok d' := by
  have hsw := scanFrom_within count 0 d.keys raw (by omega)
  have hl' : m.queue.length + (Firmware.scan d.keys raw).2.length ≤ 31 := by rw [← h.sim.inq]; exact hl
  obtain ⟨km, g1⟩ := Follows.register_ok (S := S) (n := n) (es := (Firmware.scan d.keys raw).2) hp hcount hsw h16 h hw hl'
  obtain ⟨m1, f1, f2, f3⟩ := h.register (es := (Firmware.scan d.keys raw).2) hp (scanFrom_physical 0 _ _) hl' g1
  have hw' : ∀ e ∈ evs ++ (Firmware.scan d.keys raw).2, Within count e := fun e he => (List.mem_append.1 he).elim (hw e) (hsw e)
  unfold Device.timer
  simp only
  rw [g1, Res.ok_bind]
  split
  · have key := f1.sim.tick (S := S) (n := n) hp.layoutEq hp.fits hp.size ht
    have hsome : ∃ m2, m1.tick layout = some m2 := by
      simp only [Queued.tick]
      split
      · next hc =>
        cases hq : m1.queue with
        | nil => exact absurd hq hc.2
        | cons x xs =>
          simp only [Queued.take]
          rw [if_pos (f1.takes hcount (rest := []) (by simpa using h16) (by simpa using hq) (f1.queue_within hw' x (by rw [hq]; simp)))]
          exact ⟨_, rfl⟩
      · exact ⟨_, rfl⟩
    obtain ⟨m2, hm⟩ := hsome
    obtain ⟨km2, k1, k2⟩ := key.1 m2 hm
    have hos : km2.pressedKeys ⟨Comp.system K, refs, S⟩ = .ok m2.board.outputs := Comp.pressedOutputs_held k2.sim.held
    obtain ⟨t1, t2, t3, t4, t5⟩ := f1.taken.tick f1.delay hm
    have f4 : Follows K layout c.layerCount (start c) { km2 with rep := ⟨[], 1⟩ } (t + 1) m2 (evs ++ (Firmware.scan d.keys raw).2) :=
      ⟨simq_rep k2 _, t1, by have := f1.room; omega, by omega, Nat.le_refl _⟩
    have hol : m2.board.outputs.length ≤ 16 := Nat.le_trans (List.length_filterMap_le _ _) k2.sim.len
    have hout : ∀ (r : Reporter), (r.report m2.board.outputs).2 = m2.board.outputs.take (r.report m2.board.outputs).1.num := fun r => by
      simp [Reporter.report, Reporter.reportable]
    obtain ⟨rep, hrep⟩ := update_ok (outs := (km2.rep.report m2.board.outputs).2) (old := d.report)
      (fun o ho => f4.proper hpr o (by rw [hout] at ho; exact List.mem_of_mem_take ho))
      (by rw [hout, List.length_take]; omega) hz
    have k1' : tick ⟨Comp.system K, refs, S⟩ (n + 2) km = .ok km2 := k1
    have hkt : CApi.keymapTick ⟨Comp.system K, refs, S⟩ (n + 2) km d.report = .ok ({ km2 with rep := (km2.rep.report m2.board.outputs).1 }, rep) := by
      unfold CApi.keymapTick reportOutput
      rw [k1', Res.ok_bind, hos, Res.ok_bind]
      show (d.report.update (km2.rep.report m2.board.outputs).2).bind (fun r => Res.ok ({ km2 with rep := (km2.rep.report m2.board.outputs).1 }, r)) = _
      rw [hrep]
      rfl
    rw [hkt, Res.ok_bind]
    exact ⟨_, rfl⟩
  · exact ⟨_, rfl⟩

/-- C82. A keyboard never stops, whatever its switches and the computer do, as long as no more than sixteen keys are held at a time and there is room for the key
events. -/
theorem C82_runs {c : Comp.Config} (hp : Comp.Plain K refs c layout) (hpr : ∀ e ∈ layout, ∀ o, Has e (.out o) → Proper o)
    {count : Nat} (hcount : count ≤ layout.length) {es : List Device.Event} (h16 : AtMostSixteen layout (start c) (moves count (levels es)))
    (ht : (levels es).length < u32Size)
    (hro : Roomy ⟨Comp.system K, refs, S⟩ (n + 2) (Device.new count (KM.new (Comp.Ctx.fromConfig c))) es) :
    ∃ d, Device.run ⟨Comp.system K, refs, S⟩ (n + 2) (Device.new count (KM.new (Comp.Ctx.fromConfig c))) es = .ok d := by
  suffices H : ∀ (es : List Device.Event) (d : CDev) (t : Nat) (m : Queued) (evs : List InputEvent),
      Follows K layout c.layerCount (start c) d.km t m evs → t + (levels es).length < u32Size → (∀ e ∈ evs, Within count e) → d.keys.length = count →
      Device.Sizes d.report → AtMostSixteen layout (start c) (evs ++ (Firmware.scans d.keys (levels es)).2) → Roomy ⟨Comp.system K, refs, S⟩ (n + 2) d es → ∃ d', Device.run ⟨Comp.system K, refs, S⟩ (n + 2) d es = .ok d' from
    H es _ 0 _ [] (follows_new hp) (by omega) (by simp) (by simp [Device.new]) ⟨rfl, rfl⟩ (by simpa [moves, Device.new] using h16) hro
  intro es
  induction es with
  | nil => exact fun d _ _ _ _ _ _ _ _ _ _ => ⟨d, rfl⟩
  | cons e es ih =>
    intro d t m evs h ht hw hk hz h16 hro
    by_cases he : ∃ raw, e = .timer raw
    · obtain ⟨raw, rfl⟩ := he
      simp only [levels, List.length_cons] at ht
      simp only [levels, Firmware.scans] at h16
      rw [← List.append_assoc] at h16
      obtain ⟨d1, g⟩ := Follows.timer_runs (S := S) (n := n) hp hpr hcount h16.first h (by omega) hw hk hz (hro.1 raw rfl)
      have g' : Device.step ⟨Comp.system K, refs, S⟩ (n + 2) d (.timer raw) = .ok d1 := g
      obtain ⟨t1, m1, m2, f1, f2, _, _, _, f3, _⟩ := h.timer hp (by omega) (hro.1 raw rfl) g
      obtain ⟨d', hd⟩ := ih d1 t1 m2 _ f2 (by omega)
        (fun e he => (List.mem_append.1 he).elim (hw e) (scanFrom_within count 0 d.keys raw (by omega) e))
        (by rw [f3, Firmware.scan, scanFrom_length, hk]) (Device.step_sizes g' hz) (by rw [f3]; exact h16) (hro.2 d1 g')
      exact ⟨d', by simp only [Device.run, g', Res.ok_bind]; exact hd⟩
    · have hst : ∃ d1, Device.step ⟨Comp.system K, refs, S⟩ (n + 2) d e = .ok d1 := by
        cases e with
        | timer raw => exact absurd ⟨raw, rfl⟩ he
        | _ => exact ⟨_, rfl⟩
      obtain ⟨d1, g⟩ := hst
      obtain ⟨a1, a2, a3, _⟩ := quiet_step (fun raw h => he ⟨raw, h⟩) g
      have hlv : levels (e :: es) = levels es := by
        cases e with
        | timer raw => exact absurd ⟨raw, rfl⟩ he
        | _ => rfl
      rw [hlv] at ht h16
      rw [← a1] at h
      obtain ⟨d', hd⟩ := ih d1 t m evs h ht hw (by rw [a2, hk]) (Device.step_sizes g hz) (by rw [a2]; exact h16) (hro.2 d1 g)
      exact ⟨d', by simp only [Device.run, g, Res.ok_bind]; exact hd⟩

/-- C82. So does one with at most sixteen keys. -/
theorem C82_runs_few {c : Comp.Config} (hp : Comp.Plain K refs c layout) (hpr : ∀ e ∈ layout, ∀ o, Has e (.out o) → Proper o)
    {count : Nat} (h16 : count ≤ 16) (hcount : count ≤ layout.length) {es : List Device.Event} (ht : (levels es).length < u32Size)
    (hro : Roomy ⟨Comp.system K, refs, S⟩ (n + 2) (Device.new count (KM.new (Comp.Ctx.fromConfig c))) es) :
    ∃ d, Device.run ⟨Comp.system K, refs, S⟩ (n + 2) (Device.new count (KM.new (Comp.Ctx.fromConfig c))) es = .ok d := by
  refine C82_runs hp hpr hcount (atMostSixteen_few h16 c ?_) ht hro
  suffices H : ∀ (raws : List (List Bool)) (ks : List Firmware.Key), ks.length = count → ∀ e ∈ (Firmware.scans ks raws).2, Within count e from
    H _ _ (by simp)
  intro raws
  induction raws with
  | nil => intro ks _ e he; cases he
  | cons raw raws ih =>
    intro ks hk e he
    simp only [Firmware.scans] at he
    rcases List.mem_append.1 he with he | he
    · exact scanFrom_within count 0 ks raw (by omega) e he
    · exact ih _ (by rw [Firmware.scan, scanFrom_length, hk]) e he

/-! ## Keymap files -/

theorem leaf_proper {l : Codegen.Leaf} {x : Cell} (h : Codegen.LeafCell l x) {o : KeyOutput} (ho : x = .out o) : Proper o := by
  cases h <;> cases ho <;> intro k hk <;> cases hk
  · assumption
  · left; decide
  · left; decide
  · assumption

/-- C82. A compiled keymap without chords, of plain keys and layer keys, is one for which C82 holds. -/
theorem C82_compiled {s : Codegen.Src} {c : Codegen.Compiled} (h : Codegen.compile s = some c) (hr : s.ReadsPlain layout)
    (hf : ∀ e ∈ layout, e.Fits s.count) (hl : layout.length ≤ 65535) :
    Comp.Plain c.keys c.refs c.config layout ∧ ∀ e ∈ layout, ∀ o, Has e (.out o) → Proper o := by
  obtain ⟨h1, h2, h3⟩ := Codegen.read_layout h (Codegen.plainReader c.keys) hr (fun k a r hk hm => Codegen.plain_read hk hm)
    (fun k a hk => by cases hk; rfl)
  rw [← h2] at hf
  refine ⟨⟨h1, hf, hl, .inl h3⟩, fun e he o ho => ?_⟩
  obtain ⟨i, hi⟩ := List.mem_iff_getElem?.1 he
  cases hr.says i e hi with
  | one _ _ hk =>
    cases hk with
    | leaf hk => exact leaf_proper hk ho.symm
  | layered _ _ hk hn hs ha =>
    rcases ho with ho | ho
    · cases hk with
      | leaf hk => exact leaf_proper hk ho.symm
    · obtain ⟨l, hl⟩ := List.mem_iff_getElem?.1 ho
      have := hs l
      rw [hl] at this
      obtain ⟨k, hk⟩ := Option.isSome_iff_exists.1 this.symm
      cases ha l k _ hk hl with
      | leaf hk => exact leaf_proper hk rfl

end

/-! ## A computer which does not ask -/

namespace Demo

/-- Two keys: a and b. -/
def K : Comp.Keys := {}

def refs : List Comp.Ref := [.keyboard (.keyCode 4), .keyboard (.keyCode 5)]

def config : Comp.Config where
  automation := ⟨[], 0⟩
  chorded := ⟨200, [], none, 0, 0⟩
  sticky := .onModifiedKeyRelease
  tapDance := ⟨200⟩
  tapHold := ⟨200, .ignore, none⟩
  layerCount := 0
  maxChords := 0

def layout : List Entry := [.cell (.out ⟨.keyboard 4, 0⟩), .cell (.out ⟨.keyboard 5, 0⟩)]

theorem plain : Comp.Plain K refs config layout where
  layoutEq := by decide +kernel
  fits := by
    intro e he
    simp only [layout, List.mem_cons, List.not_mem_nil, or_false] at he
    rcases he with rfl | rfl <;> simp [Board.Entry.Fits, Board.Cell.Fits]
  size := by decide
  chords := .inl rfl

theorem proper : ∀ e ∈ layout, ∀ o, Has e (.out o) → Proper o := by
  intro e he o ho
  simp only [layout, List.mem_cons, List.not_mem_nil, or_false] at he
  rcases he with rfl | rfl <;> cases ho <;> intro k hk <;> cases hk <;> decide

theorem cells : ∀ e ∈ layout, ∃ c, e = .cell c := by
  intro e he
  simp only [layout, List.mem_cons, List.not_mem_nil, or_false] at he
  rcases he with rfl | rfl <;> exact ⟨_, rfl⟩

theorem still_flatten (n1 n2 : Nat) (raw : List Bool) (k : Nat) : still n1 n2 raw k = (List.replicate k (cycle n1 n2 raw)).flatten := by
  induction k with
  | zero => rfl
  | succ k ih => rw [still, ih, List.replicate_succ', List.flatten_append]; simp

/-- Key a is tapped, `k` times, while b is held. -/
def taps : Nat → List Device.Event
  | 0 => []
  | k + 1 => List.replicate 6 (.timer [true, true]) ++ List.replicate 6 (.timer [false, true]) ++ taps k

/-- The keyboard is configured, but the computer does not ask for reports. Key b is pressed, a is tapped sixteen times, b is released. -/
def away : List Device.Event :=
  [.configure, .timer [false, false]] ++ List.replicate 6 (.timer [false, true]) ++ taps 16 ++ List.replicate 6 (.timer [false, false])

set_option maxRecDepth 100000 in
theorem away_check : check ⟨Comp.system K, refs, Search.std⟩ 2 false (fun d => decide (d.usb.keyboard.host.getLast? = some [0, 0, 5, 0, 0, 0, 0, 0]))
    (Device.new 2 (KM.new (Comp.Ctx.fromConfig config))) (away ++ (List.replicate 60 (cycle 121 121 [false, false])).flatten) = true := by decide +kernel

set_option maxRecDepth 100000 in
theorem held_check : check ⟨Comp.system K, refs, Search.std⟩ 2 true (fun _ => true)
    (Device.new 2 (KM.new (Comp.Ctx.fromConfig config)))
      ([.configure, .timer [false, true], .main] ++ (List.replicate 60 (cycle 121 121 [true, false])).flatten) = true := by decide +kernel

/-- Key a is held: the computer takes it for pressed, and b not. -/
example : ∃ d r, Rests K refs Search.std 0 config 2 [.configure, .timer [false, true], .main] [true, false] 121 121 60 d ∧
    pressed d.usb = some r ∧ On r (keyPage, 4) ∧ ¬ On r (keyPage, 5) := by
  obtain ⟨⟨d, h1, _⟩, h2, h3⟩ := check_sound held_check
  rw [← still_flatten] at h1 h2 h3
  have hrest : Rests K refs Search.std 0 config 2 [.configure, .timer [false, true], .main] [true, false] 121 121 60 d :=
    ⟨by decide, by decide, by decide, by decide, rfl, by decide, by decide, h1, h2, h3 rfl⟩
  obtain ⟨r, a1, a2, _⟩ := C82_keys plain proper cells (by decide) (by decide) hrest
  refine ⟨d, r, hrest, a1, (a2 4 (by decide) (by decide)).2 ⟨0, _, rfl, rfl, rfl⟩, fun ho => ?_⟩
  obtain ⟨i, o, b1, b2, b3⟩ := (a2 5 (by decide) (by decide)).1 ho
  rcases i with _ | _ | i
  · cases b2; cases b3
  · cases b1
  · simp at b1

end Demo

/-- C82, without room for the events: while the computer does not ask for reports (it sleeps, or starts), the keymap takes no events. When 31 wait,
events are lost, and a key whose release is lost is taken for pressed, long after all the switches are open and the computer asks again. -/
theorem C82_stuck_refuted : ∃ d r, Device.run ⟨Comp.system Demo.K, Demo.refs, Search.std⟩ 2 (Device.new 2 (KM.new (Comp.Ctx.fromConfig Demo.config)))
      (Demo.away ++ still 121 121 [false, false] 60) = .ok d ∧
    Along ⟨Comp.system Demo.K, Demo.refs, Search.std⟩ 2 (Device.new 2 (KM.new (Comp.Ctx.fromConfig Demo.config)))
      (Demo.away ++ still 121 121 [false, false] 60) ∧
    pressed d.usb = some r ∧ On r (keyPage, 5) := by
  obtain ⟨⟨d, h1, h3⟩, h2, _⟩ := check_sound Demo.away_check
  rw [← Demo.still_flatten] at h1 h2
  have h4 := of_decide_eq_true h3
  refine ⟨d, Hid.readMods 0 ++ Hid.readArray 7 145 [5, 0, 0, 0, 0, 0], h1, h2, ?_, ?_⟩
  · rw [pressed, List.getLastD_eq_getLast?, h4]
    exact Hid.reading_usbKeyboard 0 0 [5, 0, 0, 0, 0, 0] rfl
  · exact (Hid.on_keys (k := 5) (by decide) (by decide)).2 (by decide)

end Verif.Keyboard
