import Verif.Props.Words

/-!
# C65: typing on a keymap written as text
-/

namespace Verif.Codegen

open Comp (Ref Keys toOp eventsIn ticksIn fresh system)
open KeymapOutput (asBootReport)

/-! ## The board of a keymap written as text -/

/-- A source without chords whose keys are all of these kinds has a layout. -/
theorem exists_layout {s : Src} {c : Compiled} (h : compile s = some c) (hch : s.chords = [])
    (hk : ∀ l i k, s.at l i = some k → ∃ a, VirtKey k a ∧ a.Fits s.count) :
    ∃ layout : List Virt.Pos, s.ReadsVirt layout ∧ (∀ e ∈ layout, e.Fits s.count) ∧ layout.length = c.refs.length := by
  obtain ⟨⟨base, hb, hlen⟩, hpos⟩ := C58_faithful h
  obtain ⟨upper, hl⟩ : ∃ upper, s.layers = base :: upper := by
    cases hs : s.layers with
    | nil => rw [hs] at hb; cases hb
    | cons b u => rw [hs] at hb; cases hb; exact ⟨u, rfl⟩
  obtain ⟨g, hg⟩ : ∃ g : NKey → Virt.Act, ∀ k, (∃ a, VirtKey k a ∧ a.Fits s.count) → VirtKey k (g k) ∧ (g k).Fits s.count := by
    refine Classical.axiomOfChoice (r := fun k a => (∃ a, VirtKey k a ∧ a.Fits s.count) → VirtKey k a ∧ a.Fits s.count) fun k => ?_
    by_cases hx : ∃ a, VirtKey k a ∧ a.Fits s.count
    · obtain ⟨a, ha⟩ := hx
      exact ⟨a, fun _ => ha⟩
    · exact ⟨.capsWord, fun hy => absurd hy hx⟩
  have hbase : ∀ i, i < base.length → ∃ k, s.at 0 i = some k := by
    intro i hi
    obtain ⟨r, hr⟩ : ∃ r, c.refs[i]? = some r := ⟨_, List.getElem?_eq_getElem (by omega)⟩
    have hst : ∀ {r}, Stacks c.keys c.config.automation.instructions s i r → ∃ k, s.at 0 i = some k := by
      intro r hst
      cases hst with
      | base h0 => exact ⟨_, h0⟩
      | layered h0 => exact ⟨_, h0⟩
    cases hpos i r hr with
    | alone _ hs => exact hst hs
    | first _ hs => exact hst hs
    | member _ _ _ hs => exact hst hs
  have hgat : ∀ l i k, s.at l i = some k → VirtKey k (g k) ∧ (g k).Fits s.count := fun l i k hx => hg k (hk l i k hx)
  let tall (i : Nat) : Bool := (List.range upper.length).any fun l => (s.at (l + 1) i).isSome
  let pos (i : Nat) : Virt.Pos :=
    let b := ((s.at 0 i).map g).getD .capsWord
    if tall i then .layered b ((List.range upper.length).map fun l => (s.at (l + 1) i).map g) else .act b
  have hout : ∀ l i, upper.length ≤ l → s.at (l + 1) i = none := by
    intro l i hle
    simp [Src.at, hl, List.getElem?_eq_none hle]
  have htall : ∀ i, tall i = true ↔ ∃ l, 0 < l ∧ (s.at l i).isSome := by
    intro i
    simp only [tall, List.any_eq_true, List.mem_range]
    constructor
    · rintro ⟨l, _, h2⟩
      exact ⟨l + 1, by omega, h2⟩
    · rintro ⟨l, h1, h2⟩
      obtain ⟨l, rfl⟩ : ∃ l', l = l' + 1 := ⟨l - 1, by omega⟩
      by_cases hle : upper.length ≤ l
      · rw [hout l i hle] at h2; cases h2
      · exact ⟨l, by omega, h2⟩
  have hcol : ∀ i (l : Nat), ((List.range upper.length).map fun l => (s.at (l + 1) i).map g)[l]? =
      if l < upper.length then some ((s.at (l + 1) i).map g) else none := by
    intro i l
    by_cases hlt : l < upper.length
    · simp [hlt]
    · rw [if_neg hlt, List.getElem?_eq_none (by simp; omega)]
  refine ⟨(List.range base.length).map pos, ⟨hch, ⟨base, hb, by simp⟩, ?_⟩, ?_, by simp [hlen]⟩
  · intro i p hp
    rw [List.getElem?_map, Option.map_eq_some_iff] at hp
    obtain ⟨j, hj, rfl⟩ := hp
    obtain ⟨hlt, hji⟩ := List.getElem?_eq_some_iff.1 hj
    rw [List.getElem_range] at hji
    subst hji
    rw [List.length_range] at hlt
    obtain ⟨k, hk0⟩ := hbase i hlt
    simp only [pos, hk0, Option.map_some, Option.getD_some]
    split
    · rename_i ht
      refine .layered hk0 ((htall i).1 ht) (hgat 0 i k hk0).1 (by simp [hl]) ?_ ?_
      · intro l
        rw [hcol]
        split
        · simp
        · rename_i hn
          rw [hout l i (by omega)]
          rfl
      · intro l k' a hk' ha
        rw [hcol, hk'] at ha
        split at ha
        · cases ha
          exact (hgat _ _ _ hk').1
        · cases ha
    · rename_i ht
      refine .one hk0 ?_ (hgat 0 i k hk0).1
      intro l hl0
      cases hx : s.at l i with
      | none => rfl
      | some k' => exact absurd ((htall i).2 ⟨l, hl0, by rw [hx]; rfl⟩) ht
  · intro e he
    obtain ⟨i, hi, rfl⟩ := List.mem_map.1 he
    have hlt := List.mem_range.1 hi
    obtain ⟨k, hk0⟩ := hbase i hlt
    simp only [pos, hk0, Option.map_some, Option.getD_some]
    split
    · rename_i ht
      refine ⟨(hgat 0 i k hk0).2, ?_, ?_⟩
      · rw [List.length_map, List.length_range]
        unfold Src.count
        rw [hl]
        simp only
        rw [if_pos]
        simp only [tall, List.any_eq_true, List.mem_range] at ht
        obtain ⟨l, hl1, hl2⟩ := ht
        rw [List.any_eq_true]
        refine ⟨upper[l], List.getElem_mem _, ?_⟩
        rw [List.any_eq_true]
        obtain ⟨k', hk'⟩ := Option.isSome_iff_exists.1 hl2
        have : upper[l][i]? = some (some k') := by
          simp only [Src.at, hl, List.getElem?_cons_succ, List.getElem?_eq_getElem hl1, Option.bind_some] at hk'
          exact Option.join_eq_some_iff.1 hk'
        refine ⟨some k', ?_, rfl⟩
        refine List.mem_of_getElem? (i := i) ?_
        rw [List.getElem?_take, if_pos hlt, this]
      · intro a ha
        obtain ⟨l, _, hla⟩ := List.mem_map.1 ha
        obtain ⟨k', hk', rfl⟩ := Option.map_eq_some_iff.1 hla
        exact (hgat _ _ _ hk').2
    · exact (hgat 0 i k hk0).2

/-- C65: a keymap that compiles, written as text, without chords, stands for a keyboard of the kind C60 is about. Its own names are of plain keys,
layer keys for existing layers, sticky modifiers, caps word or strings. -/
theorem C65_board {t : TextSrc} {s : Src} {c : Compiled} (h : t.toSrc = some s) (hc : compile s = some c) (hch : t.chords = [])
    (htext : ∀ l ∈ t.layers, ∃ text, l = .text text)
    (hown : ∀ p ∈ t.custom, ∀ k, p.2 = some k → ∃ a, VirtKey k a ∧ a.Fits s.count) :
    ∃ layout : List Virt.Pos, s.ReadsVirt layout ∧ (∀ e ∈ layout, e.Fits s.count) ∧ layout.length = c.refs.length := by
  obtain ⟨h1, h2, _, h3, _⟩ := C65_layer h
  refine exists_layout hc (by rw [h2, hch]) fun l i k hk => ?_
  unfold Src.at at hk
  obtain ⟨ks, hks, hki⟩ := Option.bind_eq_some_iff.1 (Option.join_eq_some_iff.1 hk)
  have hlt : l < t.layers.length := by rw [← h1]; exact lt_of_get hks
  obtain ⟨text, ht⟩ := htext _ (List.getElem_mem hlt)
  obtain ⟨ws, hws⟩ := Splits.exists text.toList
  obtain ⟨ks', e1, e2, e3⟩ := h3 l text ws (by rw [List.getElem?_eq_getElem hlt, ht]) hws
  rw [hks] at e1
  cases e1
  have hiw : i < ws.length := by rw [← e2]; exact lt_of_get hki
  obtain ⟨k', e4, e5⟩ := e3 i _ (List.getElem?_eq_getElem hiw)
  rw [hki] at e5
  cases e5
  rcases List.mem_append.1 (lookup_mem e4) with hm | hm
  · have := List.all_eq_true.1 names_act _ hm
    simp only at this
    obtain ⟨a, ha⟩ := Option.isSome_iff_exists.1 this
    exact ⟨a, (actOf_reads ha).1, (actOf_reads ha).2.1 _⟩
  · exact hown _ hm _ rfl

/-! ## The reports of a sequence of calls of the C library -/

/-- Calls of the C library: `keymap_register_input_keypress`, `keymap_register_input_keyrelease`, `keymap_tick`. -/
inductive CCall where
  | press (i : Nat)
  | release (i : Nat)
  | tick

section

variable {R Ev Ctx PKS KS : Type}

/-- The reports of the calls of `keymap_tick`. -/
def listen (C : Cfg R Ev Ctx PKS KS) (n : Nat) (km : KM R Ev Ctx PKS KS) (r : CApi.HidReport) : List CCall → Res (List CApi.HidReport)
  | [] => .ok []
  | .press i :: cs => do
    let km ← CApi.registerKeypress C n km i
    listen C n km r cs
  | .release i :: cs => do
    let km ← CApi.registerKeyrelease C n km i
    listen C n km r cs
  | .tick :: cs => do
    let (km, r) ← CApi.keymapTick C n km r
    let rs ← listen C n km r cs
    pure (r :: rs)

/-- What the keymap does. -/
def CCall.calls : CCall → List Board.Call
  | .press i => [.input (.press i)]
  | .release i => [.input (.release i)]
  | .tick => [.tick, .report]

end

section

variable {s : Src} {c : Compiled} {S : Search} {n ms : Nat} {layout : List Virt.Pos}

/-- The outputs of the board after each tick. -/
def heard (S : Search) (d ms : Nat) (layout : List Virt.Pos) (mode : Virt.Mode) (m : _root_.Verif.Macro.Queued) : List CCall → Option (List (List KeyOutput))
  | [] => some []
  | .press i :: cs => (m.step S d ms layout mode (.input (.press i))).bind fun m => heard S d ms layout mode m cs
  | .release i :: cs => (m.step S d ms layout mode (.input (.release i))).bind fun m => heard S d ms layout mode m cs
  | .tick :: cs => (m.step S d ms layout mode .tick).bind fun m => (heard S d ms layout mode m cs).map (m.state.board.outputs :: ·)

/-- The number of ticks. -/
def tickCount (cs : List CCall) : Nat := (cs.filter fun c => match c with | .tick => true | _ => false).length

theorem listen_heard (h : compile s = some c) (hr : s.ReadsVirt layout) (hf : ∀ e ∈ layout, e.Fits s.count)
    (hl : layout.length ≤ 65535) (hI : c.config.automation.instructions.length ≤ 65535) (pre : List Board.Call)
    (hev : ∀ e ∈ eventsIn pre, Comp.isPhysical e = true) {m : _root_.Verif.Macro.Queued}
    (hm : (_root_.Verif.Macro.Queued.new s.count).run S s.options.instructionDuration ms layout (Comp.modeOf s.options.sticky) pre = some m)
    (ccs : List CCall) {oss : List (List KeyOutput)}
    (hh : heard S s.options.instructionDuration ms layout (Comp.modeOf s.options.sticky) m ccs = some oss) (hone : ∀ os ∈ oss, os.length ≤ 1)
    (ht : (ticksIn pre + tickCount ccs) * ms + s.options.instructionDuration < u32Size)
    {km : KM Comp.Ref Comp.Ev Comp.Ctx Comp.PKS Comp.KS} (hkm : run ⟨system c.keys, c.refs, S⟩ (n + 8) (fresh c.config ms) (pre.map toOp) = .ok km)
    (r : CApi.HidReport) (hr8 : r.keyboard.length = 8) :
    ∃ rs, listen ⟨system c.keys, c.refs, S⟩ (n + 8) km r ccs = .ok rs ∧ rs.map (·.keyboard) = oss.map asBootReport := by
  induction ccs generalizing pre m oss km r with
  | nil => cases hh; exact ⟨[], rfl, rfl⟩
  | cons cc ccs ih =>
    have hinput : ∀ e : InputEvent, Comp.isPhysical e = true → ∀ (m' : _root_.Verif.Macro.Queued),
        m.step S s.options.instructionDuration ms layout (Comp.modeOf s.options.sticky) (.input e) = some m' →
        heard S s.options.instructionDuration ms layout (Comp.modeOf s.options.sticky) m' ccs = some oss →
        (ticksIn pre + tickCount ccs) * ms + s.options.instructionDuration < u32Size →
        ∃ km', handleInput ⟨system c.keys, c.refs, S⟩ (n + 8) km e = .ok km' ∧
          ∃ rs, listen ⟨system c.keys, c.refs, S⟩ (n + 8) km' r ccs = .ok rs ∧ rs.map (·.keyboard) = oss.map asBootReport := by
      intro e he m' hm' hh' ht'
      have hrun : (_root_.Verif.Macro.Queued.new s.count).run S s.options.instructionDuration ms layout (Comp.modeOf s.options.sticky) (pre ++ [.input e]) = some m' := by
        rw [_root_.Verif.Macro.run_append, hm]
        simp only [Option.bind_some, _root_.Verif.Macro.Queued.run, hm']
      have hti : ticksIn (pre ++ [Board.Call.input e]) = ticksIn pre := by rw [Comp.ticksIn_append]; rfl
      have hev' : ∀ x ∈ eventsIn (pre ++ [Board.Call.input e]), Comp.isPhysical x = true := by
        rw [Comp.eventsIn_append]
        intro x hx
        rcases List.mem_append.1 hx with hx | hx
        · exact hev x hx
        · cases hx with
          | head => exact he
          | tail _ hx => cases hx
      have hle : ticksIn pre * ms ≤ (ticksIn pre + tickCount ccs) * ms := Nat.mul_le_mul_right _ (by omega)
      obtain ⟨km', h1, _, _⟩ := C60_typing (n := n) h hr hf hl hI (pre ++ [.input e]) hev' (by rw [hti]; omega) hrun
      rw [List.map_append] at h1
      obtain ⟨km1, h2, h3⟩ := run_split h1
      rw [hkm] at h2
      cases h2
      obtain ⟨km2, h4, h5⟩ := Res.bind_eq_ok.1 h3
      cases h5
      refine ⟨km', h4, ?_⟩
      exact ih (pre ++ [.input e]) hev' hrun hh' hone (by rw [hti]; exact ht') (by rw [List.map_append]; exact h1) r hr8
    cases cc with
    | press i =>
      obtain ⟨m', hm', hh'⟩ := Option.bind_eq_some_iff.1 hh
      obtain ⟨km', h1, rs, h2, h3⟩ := hinput (.press i) rfl m' hm' hh' ht
      refine ⟨rs, ?_, h3⟩
      simp only [listen, (C05_c_keys _ _ _ _).1, h1, Res.ok_bind, h2]
    | release i =>
      obtain ⟨m', hm', hh'⟩ := Option.bind_eq_some_iff.1 hh
      obtain ⟨km', h1, rs, h2, h3⟩ := hinput (.release i) rfl m' hm' hh' ht
      refine ⟨rs, ?_, h3⟩
      simp only [listen, (C05_c_keys _ _ _ _).2, h1, Res.ok_bind, h2]
    | tick =>
      obtain ⟨m', hm', hh'⟩ := Option.bind_eq_some_iff.1 hh
      obtain ⟨oss', hh2, rfl⟩ := Option.map_eq_some_iff.1 hh'
      have hrun : (_root_.Verif.Macro.Queued.new s.count).run S s.options.instructionDuration ms layout (Comp.modeOf s.options.sticky) (pre ++ [.tick]) = some m' := by
        rw [_root_.Verif.Macro.run_append, hm]
        simp only [Option.bind_some, _root_.Verif.Macro.Queued.run, hm']
      have hti : ticksIn (pre ++ [Board.Call.tick]) = ticksIn pre + 1 := by rw [Comp.ticksIn_append]; rfl
      have hev' : ∀ x ∈ eventsIn (pre ++ [Board.Call.tick]), Comp.isPhysical x = true := by
        rw [Comp.eventsIn_append]
        intro x hx
        rcases List.mem_append.1 hx with hx | hx
        · exact hev x hx
        · cases hx
      have hcount : tickCount (.tick :: ccs) = tickCount ccs + 1 := rfl
      have hle : (ticksIn pre + 1) * ms ≤ (ticksIn pre + tickCount (.tick :: ccs)) * ms := Nat.mul_le_mul_right _ (by omega)
      obtain ⟨b, h1, ho, _⟩ := C60_typing (n := n) h hr hf hl hI (pre ++ [.tick]) hev' (by rw [hti]; omega) hrun
      obtain ⟨_, hn⟩ := run_rep (pre ++ [.tick]) (by refine ⟨?_, ?_, ?_⟩ <;> intro _ h <;> cases h) (Nat.le_refl 1) h1
      have h1' := h1
      rw [List.map_append] at h1
      obtain ⟨km1, h2, h3⟩ := run_split h1
      rw [hkm] at h2
      cases h2
      obtain ⟨km2, h4, h5⟩ := Res.bind_eq_ok.1 h3
      cases h5
      have hos := hone _ (List.mem_cons_self ..)
      have hout : reportOutput ⟨system c.keys, c.refs, S⟩ b = .ok ({ b with rep := (b.rep.report m'.state.board.outputs).1 }, m'.state.board.outputs) := by
        unfold reportOutput
        rw [ho]
        simp only [Res.ok_bind, Res.pure_eq, report_one hos hn]
      obtain ⟨r', hr', hk'⟩ := update_small r hr8 (out := m'.state.board.outputs) (Nat.le_trans hos (by decide))
      have hkt : CApi.keymapTick ⟨system c.keys, c.refs, S⟩ (n + 8) km r = .ok ({ b with rep := (b.rep.report m'.state.board.outputs).1 }, r') := by
        unfold CApi.keymapTick
        rw [show tick ⟨system c.keys, c.refs, S⟩ (n + 8) km = .ok b from h4]
        simp only [Res.ok_bind, hout, hr', Res.pure_eq]
      have hrun' : (_root_.Verif.Macro.Queued.new s.count).run S s.options.instructionDuration ms layout (Comp.modeOf s.options.sticky) (pre ++ [.tick] ++ [.report]) = some m' := by
        rw [_root_.Verif.Macro.run_append, hrun]
        rfl
      have hnext : run ⟨system c.keys, c.refs, S⟩ (n + 8) (fresh c.config ms) ((pre ++ [Board.Call.tick] ++ [Board.Call.report]).map toOp) =
          .ok { b with rep := (b.rep.report m'.state.board.outputs).1 } := by
        rw [List.map_append]
        refine Comp.run_then h1' ?_
        simp only [List.map_cons, List.map_nil, toOp, run, step, hout, Res.map_ok, Res.ok_bind]
      have hti' : ticksIn (pre ++ [Board.Call.tick] ++ [Board.Call.report]) = ticksIn pre + 1 := by rw [Comp.ticksIn_append, hti]; rfl
      obtain ⟨rs, h6, h7⟩ := ih (pre ++ [.tick] ++ [.report]) (by
          rw [Comp.eventsIn_append]
          intro x hx
          rcases List.mem_append.1 hx with hx | hx
          · exact hev' x hx
          · cases hx) hrun' hh2 (fun os ho => hone os (List.mem_cons_of_mem _ ho))
        (by rw [hti', show ticksIn pre + 1 + tickCount ccs = ticksIn pre + tickCount (.tick :: ccs) by omega]; exact ht) hnext r'
        (by rw [hk', length_boot])
      refine ⟨r' :: rs, ?_, ?_⟩
      · simp only [listen, hkt, Res.ok_bind, h6, Res.pure_eq]
      · rw [List.map_cons, h7, List.map_cons, hk']

/-! ## Tapping keys one after the other -/

/-- Pressing and releasing a key. -/
def tap (i : Nat) : List CCall := [.press i, .tick, .release i, .tick]

/-- Nothing has been pressed, or everything was released again. -/
def idleAt (N k : Nat) : _root_.Verif.Macro.Queued := ⟨{ _root_.Verif.Macro.State.new N with clock := k }, [], 0⟩

theorem heard_tap {S : Search} {d : Nat} {mode : Virt.Mode} {N k i : Nat} {p : Virt.Pos} {ko : KeyOutput} (hp : layout[i]? = some p)
    (hpick : p.pick (Virt.State.new N) = .cell (.out ko)) (cs : List CCall) :
    heard S d ms layout mode (idleAt N k) (tap i ++ cs) = (heard S d ms layout mode (idleAt N (k + ms + ms)) cs).map fun oss => [ko] :: [] :: oss := by
  have h1 : (idleAt N k).step S d ms layout mode (.input (.press i)) =
      some ⟨{ _root_.Verif.Macro.State.new N with clock := k, board := { Virt.State.new N with held := [.key i (.cell (.out ko)) false] } }, [], 1⟩ := by
    simp [idleAt, Macro.Queued.step, Macro.Queued.input, Macro.Queued.take, Macro.State.input, Macro.State.press, Macro.State.asks,
      Macro.State.new, Virt.State.holds, Virt.State.new, hp, Virt.State.press, Virt.State.start, Virt.State.type,
      show p.pick ⟨[], List.replicate N false, none, false, [], none⟩ = .cell (.out ko) from hpick]
  have h2 : (⟨{ _root_.Verif.Macro.State.new N with clock := k, board := { Virt.State.new N with held := [.key i (.cell (.out ko)) false] } }, [], 1⟩ :
      _root_.Verif.Macro.Queued).step S d ms layout mode .tick =
      some ⟨{ _root_.Verif.Macro.State.new N with clock := k + ms, board := { Virt.State.new N with held := [.key i (.cell (.out ko)) false] } }, [], 0⟩ := by
    simp [Macro.Queued.step, Macro.Queued.tick, Macro.Queued.taken, Macro.State.advance, Macro.State.new]
  have h3 : (⟨{ _root_.Verif.Macro.State.new N with clock := k + ms, board := { Virt.State.new N with held := [.key i (.cell (.out ko)) false] } }, [], 0⟩ :
      _root_.Verif.Macro.Queued).step S d ms layout mode (.input (.release i)) =
      some ⟨{ _root_.Verif.Macro.State.new N with clock := k + ms }, [], 1⟩ := by
    simp [Macro.Queued.step, Macro.Queued.input, Macro.Queued.take, Macro.State.input, Macro.State.new, Virt.State.release, Virt.State.new,
      Virt.Slot.index, Virt.Slot.finish, Virt.State.releaseLayers, Board.Cell.release, Virt.letGo]
  have h4 : (⟨{ _root_.Verif.Macro.State.new N with clock := k + ms }, [], 1⟩ :
      _root_.Verif.Macro.Queued).step S d ms layout mode .tick = some (idleAt N (k + ms + ms)) := by
    simp [idleAt, Macro.Queued.step, Macro.Queued.tick, Macro.Queued.taken, Macro.State.advance, Macro.State.new]
  simp only [tap, List.cons_append, List.nil_append, heard, h1, h2, h3, h4, Option.bind_some, Option.map_map]
  rfl

theorem nodup_pair {α β : Type} : ∀ {l : List (α × β)} {a : α} {b b' : β}, (l.map (·.1)).Nodup → (a, b) ∈ l → (a, b') ∈ l → b = b'
  | x :: l, a, b, b', hn, h, h' => by
    rw [List.map_cons, List.nodup_cons] at hn
    rcases List.mem_cons.1 h with rfl | h1
    · rcases List.mem_cons.1 h' with h2 | h2
      · cases h2; rfl
      · exact absurd (List.mem_map.2 ⟨_, h2, rfl⟩) hn.1
    · rcases List.mem_cons.1 h' with rfl | h2
      · exact absurd (List.mem_map.2 ⟨_, h1, rfl⟩) hn.1
      · exact nodup_pair hn.2 h1 h2

theorem highest_off {α : Type} : ∀ (n : Nat) (cs : List (Option α)), Board.highest (List.replicate n false) cs = none
  | 0, cs => by cases cs <;> rfl
  | n + 1, [] => rfl
  | n + 1, c :: cs => by
    rw [List.replicate_succ]
    simp only [Board.highest]
    rw [highest_off n cs]
    rfl

theorem LeafCell.out {l : Leaf} {ko : KeyOutput} {x : Board.Cell} (h : LeafCell l (.out ko)) (h' : LeafCell l x) : x = .out ko := by
  cases h with
  | keyCode h1 =>
    cases h' with
    | keyCode _ => rfl
    | modCode j h2 h3 => omega
  | modCode j h1 h2 =>
    cases h' with
    | keyCode _ => omega
    | modCode j' h3 h4 => rw [show j' = j by omega]
  | modifiers h1 => cases h' with | modifiers h2 => rw [h1.unique h2]
  | keyCodeModifiers _ h1 => cases h' with | keyCodeModifiers _ h2 => rw [h1.unique h2]
  | mouse h1 =>
    cases h' with
    | mouse h2 =>
      rw [h1] at h2
      cases h2
      rfl
  | consumer _ => cases h'; rfl
  | custom _ => cases h'; rfl

theorem VirtKey.out {k : NKey} {ko : KeyOutput} {a : Virt.Act} (h : VirtKey k (.cell (.out ko))) (h' : VirtKey k a) : a = .cell (.out ko) := by
  cases h with
  | leaf h =>
    cases h' with
    | leaf h' => rw [h.out h']
    | sticky _ => cases h
    | capsWord => cases h
    | string _ => cases h

theorem read_tap (ko : KeyOutput) (rs : List (List Byte)) : Host.read [] (asBootReport [ko] :: asBootReport [] :: rs) = readAs ko ++ Host.read [] rs := by
  have h : Host.read (Host.keys (asBootReport [ko])) (asBootReport [] :: rs) = Host.read [] rs := by
    rw [read_cons_same (by rw [keys_nil]; intro b hb; cases hb), keys_nil]
  rw [read_cons_nil, h]
  rfl

/-- C65: on a keymap that compiles, written as text, without chords: tapping keys one after the other, where each of them is named by one character on
the base layer, types those characters on a computer with a US keyboard (the small letters), in their order, each of them once. -/
theorem C65_typed {t : TextSrc} {s : Src} {c : Compiled} (h : t.toSrc = some s) (hc : compile s = some c) (hch : t.chords = [])
    (htext : ∀ l ∈ t.layers, ∃ text, l = .text text)
    (hown : ∀ p ∈ t.custom, ∀ k, p.2 = some k → ∃ a, VirtKey k a ∧ a.Fits s.count)
    {text : String} {ws : List (List Char)} (h0 : t.layers[0]? = some (.text text)) (hws : Splits text.toList ws) (hlen : ws.length ≤ 65535)
    (hI : c.config.automation.instructions.length ≤ 65535)
    (taps : List (Nat × Char)) (hname : ∀ p ∈ taps, ws[p.1]? = some [p.2] ∧ ' ' < p.2 ∧ p.2 ≤ '~' ∧ ¬('a' ≤ p.2 ∧ p.2 ≤ 'z'))
    (ht : 2 * taps.length * ms + s.options.instructionDuration < u32Size) (r : CApi.HidReport) (hr8 : r.keyboard.length = 8) :
    ∃ rs, listen ⟨system c.keys, c.refs, S⟩ (n + 8) (fresh c.config ms) r (taps.flatMap fun p => tap p.1) = .ok rs ∧
      Host.read [] (rs.map (·.keyboard)) = taps.map fun p => some (small p.2) := by
  obtain ⟨layout, hr, hf, hll⟩ := C65_board h hc hch htext hown
  obtain ⟨_, _, _, h3, _⟩ := C65_layer h
  obtain ⟨ks, hks, hkl, hkn⟩ := h3 0 text ws h0 hws
  obtain ⟨base, hb, hbl⟩ := hr.length
  rw [hks] at hb
  cases hb
  have hkey : ∀ p ∈ taps, ∃ q ko, layout[p.1]? = some q ∧ q.pick (Virt.State.new s.count) = .cell (.out ko) ∧ readAs ko = [some (small p.2)] := by
    intro p hp
    obtain ⟨e1, e2, e3, e4⟩ := hname p hp
    obtain ⟨k, e5, e6⟩ := hkn _ _ e1
    obtain ⟨k0, e7⟩ := C65_letters.2 p.2 e2 e3 e4
    have e8 : k = k0 ∧ (String.singleton p.2, k) ∈ keyNames := by
      have hnd := names_nodup
      have hs : String.ofList [p.2] = String.singleton p.2 := rfl
      rw [TextSrc.named, hs, List.lookup_append] at e5
      cases hlk : keyNames.lookup (String.singleton p.2) with
      | none =>
        rw [List.lookup_eq_none_iff] at hlk
        have := hlk _ e7
        simp at this
      | some k1 =>
        rw [hlk] at e5
        simp only [Option.some_or, Option.some.injEq] at e5
        subst e5
        exact ⟨nodup_pair hnd (lookup_mem hlk) e7, lookup_mem hlk⟩
    obtain ⟨rfl, e8⟩ := e8
    obtain ⟨k', ko, rfl, e9, e10⟩ := C65_letters.1 _ _ e8
    have hi : p.1 < layout.length := by rw [hbl, hkl]; exact lt_of_get e1
    have hq := List.getElem?_eq_getElem hi
    refine ⟨_, ko, hq, ?_, e10⟩
    have hs := hr.says p.1 _ hq
    have hat : s.at 0 p.1 = some k' := by
      unfold Src.at
      rw [hks, Option.bind_some, e6]
      rfl
    generalize layout[p.1] = q at hs
    cases hs with
    | one g1 _ g2 =>
      rw [hat] at g1
      cases g1
      exact e9.out g2
    | layered g1 _ g2 =>
      rw [hat] at g1
      cases g1
      simp only [Virt.Pos.pick, Virt.State.new, Board.lookup, highest_off, Option.bind_none, Option.join_none, Option.getD_none]
      exact e9.out g2
  have hheard : ∀ (taps : List (Nat × Char)) (k : Nat), (∀ p ∈ taps, ∃ q ko, layout[p.1]? = some q ∧ q.pick (Virt.State.new s.count) = .cell (.out ko) ∧
      readAs ko = [some (small p.2)]) → ∃ oss, heard S s.options.instructionDuration ms layout (Comp.modeOf s.options.sticky) (idleAt s.count k)
        (taps.flatMap fun p => tap p.1) = some oss ∧ (∀ os ∈ oss, os.length ≤ 1) ∧
      Host.read [] (oss.map asBootReport) = taps.map fun p => some (small p.2) := by
    intro taps
    induction taps with
    | nil => intro k _; exact ⟨[], rfl, (fun os hos => by cases hos), rfl⟩
    | cons p taps ih =>
      intro k hk
      obtain ⟨q, ko, g1, g2, g3⟩ := hk p (List.mem_cons_self ..)
      obtain ⟨oss, g4, g5, g6⟩ := ih (k + ms + ms) fun p hp => hk p (List.mem_cons_of_mem _ hp)
      refine ⟨[ko] :: [] :: oss, ?_, ?_, ?_⟩
      · rw [List.flatMap_cons, heard_tap g1 g2, g4]
        rfl
      · intro os hos
        simp only [List.mem_cons] at hos
        rcases hos with rfl | rfl | hos
        · simp
        · simp
        · exact g5 os hos
      · simp only [List.map_cons]
        rw [read_tap, g3, g6]
        rfl
  obtain ⟨oss, g1, g2, g3⟩ := hheard taps 0 hkey
  have hcount : ∀ taps : List (Nat × Char), tickCount (taps.flatMap fun p => tap p.1) = 2 * taps.length := by
    intro taps
    induction taps with
    | nil => rfl
    | cons p taps ih =>
      unfold tickCount at ih ⊢
      rw [List.flatMap_cons, List.filter_append, List.length_append, ih, List.length_cons]
      simp only [tap, List.filter, List.length_cons, List.length_nil]
      omega
  obtain ⟨rs, g4, g5⟩ := listen_heard (n := n) hc hr hf (by rw [hbl, hkl]; exact hlen) hI [] (fun e he => by cases he) (m := idleAt s.count 0) rfl
    (taps.flatMap fun p => tap p.1) g1 g2 (by rw [hcount]; simpa [ticksIn] using ht) rfl r hr8
  exact ⟨rs, g4, by rw [g5, g3]⟩

end

/-! ## Example -/

namespace TypistDemo

/-- Two layers over two lines each, with a name of the user's for the layer key. -/
def text : TextSrc where
  layers := [.text "  Q W\n E\tFN  ", .text "TTTT ! \n LeftShift TTTT"]
  custom := [("FN", some (.leaf (.layerModifier (.hold 1))))]

def resolved : Src where
  layers := [[some (.leaf (.keyCode 0x14)), some (.leaf (.keyCode 0x1A)), some (.leaf (.keyCode 0x08)), some (.leaf (.layerModifier (.hold 1)))],
    [none, some (.leaf (.keyCodeModifiers 0x1E { leftShift := true })), some (.leaf (.modifiers { leftShift := true })), none]]

set_option maxRecDepth 20000 in
theorem resolves : text.toSrc = some resolved := by rfl

theorem words : Splits "  Q W\n E\tFN  ".toList [['Q'], ['W'], ['E'], ['F', 'N']] := (C65_words _ _).1 (by decide +kernel)

/-- Tapping the keys `W`, `E`, `E` types `wee`. -/
example (r : CApi.HidReport) (hr : r.keyboard.length = 8) : ∃ c rs, compile resolved = some c ∧
    listen ⟨system c.keys, c.refs, Search.std⟩ 8 (fresh c.config 1) r (tap 1 ++ tap 2 ++ tap 2) = .ok rs ∧
    Host.read [] (rs.map (·.keyboard)) = [some 'w', some 'e', some 'e'] := by
  obtain ⟨c, hc⟩ : ∃ c, compile resolved = some c := ⟨_, rfl⟩
  obtain ⟨rs, h1, h2⟩ := C65_typed (n := 0) (S := Search.std) (ms := 1) resolves hc rfl
    (by intro l hl
        simp only [text, List.mem_cons, List.not_mem_nil, or_false] at hl
        rcases hl with rfl | rfl <;> exact ⟨_, rfl⟩)
    (by intro p hp k hk
        simp only [text, List.mem_cons, List.not_mem_nil, or_false] at hp
        subst hp
        cases hk
        exact ⟨.cell (.hold 1), .leaf (.hold 1), by decide, by decide⟩)
    (text := "  Q W\n E\tFN  ") rfl words (by decide) (by cases hc; decide) [(1, 'W'), (2, 'E'), (2, 'E')] (by decide) (by decide) r hr
  exact ⟨c, rs, hc, h1, h2⟩

/-- A word that is not a name. -/
example : ({ layers := [.text "Q w"] } : TextSrc).toSrc = none :=
  (C65_unknown _).2 ⟨"Q w", [['Q'], ['w']], ['w'], List.mem_cons_self .., (C65_words _ _).1 (by decide +kernel), by decide, by decide +kernel⟩

end TypistDemo

end Verif.Codegen
