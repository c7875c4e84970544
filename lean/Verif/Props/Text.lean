import Verif.Names
import Verif.Spec.Host
import Verif.CApi
import Verif.Props.Codegen
import Verif.Props.CInput
import Verif.Props.CApi
import Verif.Lemmas.Reporter

/-!
# C64: string macros type their text

A string macro is compiled into one instruction for each character, and a computer with a US keyboard that reads the reports gets the
characters of the text, in their order, each of them once.
-/

namespace Verif.Codegen

open Comp (Ref Keys toOp eventsIn ticksIn fresh system Typing)
open _root_.Verif.Macro (shown)
open KeymapOutput (asBootReport)

/-! ## Every character has a key that types it -/

/-- What a computer reads when this output is pressed, and nothing else. -/
def readAs (ko : KeyOutput) : List (Option Char) := Host.read [] [asBootReport [ko]]

/-- The printable characters of ASCII. -/
def printable : List Char := (List.range 95).map fun i => Char.ofNat (32 + i)

def tapOf : Automation.Instruction → Option KeyOutput
  | .tap ko => some ko
  | _ => none

theorem printable_table : printable.all (fun c => (((charInstruction c).bind tapOf).map readAs) = some [some c]) = true := by decide +kernel

theorem printable_mem {c : Char} (h : ' ' ≤ c) (h' : c ≤ '~') : c ∈ printable := by
  have h1 : 32 ≤ c.toNat := h
  have h2 : c.toNat ≤ 126 := h'
  refine List.mem_map.2 ⟨c.toNat - 32, List.mem_range.2 (by omega), ?_⟩
  rw [show 32 + (c.toNat - 32) = c.toNat by omega]
  exact Char.ofNat_toNat c

theorem charInstruction_printable {c : Char} (h : ' ' ≤ c) (h' : c ≤ '~') : ∃ ko, charInstruction c = some (.tap ko) ∧ readAs ko = [some c] := by
  have := List.all_eq_true.1 printable_table c (printable_mem h h')
  simp only [decide_eq_true_eq] at this
  cases hc : charInstruction c with
  | none => rw [hc] at this; cases this
  | some i =>
    rw [hc] at this
    cases i with
    | tap ko => exact ⟨ko, rfl, by simpa [tapOf] using this⟩
    | _ => cases this

/-- C64: a text of printable characters can be written as a string macro: it has one instruction for each character, which taps an output
that a computer with a US keyboard reads as that character. -/
theorem C64_characters (text : List Char) (h : ∀ c ∈ text, ' ' ≤ c ∧ c ≤ '~') :
    ∃ kos : List KeyOutput, stringInstructions text = some (kos.map .tap) ∧ kos.map readAs = text.map fun c => [some c] := by
  induction text with
  | nil => exact ⟨[], rfl, rfl⟩
  | cons c cs ih =>
    obtain ⟨kos, h1, h2⟩ := ih fun d hd => h d (List.mem_cons_of_mem _ hd)
    obtain ⟨ko, h3, h4⟩ := charInstruction_printable (h c (List.mem_cons_self ..)).1 (h c (List.mem_cons_self ..)).2
    exact ⟨ko :: kos, by simp [stringInstructions, h1, h3], by simp [h2, h4]⟩

theorem names_printable : keyNames.all (fun p => match p.1.toList with | [c] => decide (' ' ≤ c ∧ c ≤ '~') | _ => true) = true := by decide +kernel

theorem lookup_mem {α β : Type} [BEq α] [LawfulBEq α] {a : α} {b : β} : ∀ {l : List (α × β)}, l.lookup a = some b → (a, b) ∈ l
  | (x, y) :: l, h => by
    rw [List.lookup_cons] at h
    split at h
    · rename_i he
      cases h
      rw [eq_of_beq he]
      exact List.mem_cons_self ..
    · exact List.mem_cons_of_mem _ (lookup_mem h)

theorem stringInstructions_each {text : List Char} {is : List Automation.Instruction} (h : stringInstructions text = some is) :
    ∀ c ∈ text, (charInstruction c).isSome := by
  induction text generalizing is with
  | nil => intro c hc; cases hc
  | cons d ds ih =>
    simp only [stringInstructions, Option.bind_eq_bind, Option.bind_eq_some_iff] at h
    obtain ⟨i, h1, is', h2, _⟩ := h
    intro c hc
    cases hc with
    | head => rw [h1]; rfl
    | tail _ hc => exact ih h2 c hc

/-- C64: and no other text can: the compilation fails (`null`, an error of the tool) if a character is not printable. -/
theorem C64_only {text : List Char} {is : List Automation.Instruction} (h : stringInstructions text = some is) :
    ∀ c ∈ text, ' ' ≤ c ∧ c ≤ '~' := by
  intro c hc
  have h1 := stringInstructions_each h c hc
  unfold charInstruction at h1
  cases hl : keyNames.lookup (String.singleton (upper c)) with
  | none => rw [hl] at h1; cases h1
  | some k =>
    have h2 := List.all_eq_true.1 names_printable _ (lookup_mem hl)
    simp only [String.toList_singleton, decide_eq_true_eq] at h2
    unfold upper at h2
    split at h2
    · rename_i hz
      exact ⟨Char.le_trans (by decide) hz.1, Char.le_trans hz.2 (by decide)⟩
    · exact h2

/-! ## What a computer reads of a string that is being typed -/

theorem keys_nil : Host.keys (asBootReport []) = [] := by decide

/-- The keys down in the report `t` ticks after the press. -/
def downAt (D : Nat) (kos : List KeyOutput) (t : Nat) : List Byte := Host.keys (asBootReport (shown D kos t))

theorem read_cons_same {down : List Byte} {r : List Byte} {rs : List (List Byte)} (h : ∀ b ∈ Host.keys r, b ∈ down) :
    Host.read down (r :: rs) = Host.read (Host.keys r) rs := by
  simp only [Host.read]
  rw [List.filter_eq_nil_iff.2 (by intro b hb; simpa using h b hb)]
  rfl

theorem read_cons_nil (r : List Byte) (rs : List (List Byte)) : Host.read [] (r :: rs) = Host.read [] [r] ++ Host.read (Host.keys r) rs := by
  simp [Host.read]

theorem drop_take_step {α : Type} (l : List α) {q Q : Nat} (h : q ≤ Q) :
    (l.take (Q + 1)).drop q = (l[q]?).toList ++ (l.take (Q + 1)).drop (q + 1) := by
  by_cases hq : q < l.length
  · have hlt : q < (l.take (Q + 1)).length := by rw [List.length_take]; omega
    rw [List.drop_eq_getElem_cons hlt, List.getElem?_eq_getElem hq, List.getElem_take]
    rfl
  · rw [List.getElem?_eq_none (by omega), List.drop_eq_nil_of_le (by rw [List.length_take]; omega),
      List.drop_eq_nil_of_le (by rw [List.length_take]; omega)]
    rfl

theorem div_step {D t : Nat} : (t % (D + 1) = D ∧ (t + 1) / (D + 1) = t / (D + 1) + 1 ∧ (t + 1) % (D + 1) = 0) ∨
    (t % (D + 1) < D ∧ (t + 1) / (D + 1) = t / (D + 1) ∧ (t + 1) % (D + 1) = t % (D + 1) + 1) := by
  have hlt := Nat.mod_lt t (show 0 < D + 1 by omega)
  have hda := Nat.div_add_mod t (D + 1)
  by_cases h : t % (D + 1) = D
  · refine .inl ⟨h, ?_, ?_⟩
    · rw [Nat.div_eq_of_lt_le] <;> grind
    · rw [show t + 1 = (D + 1) * (t / (D + 1) + 1) by grind]
      exact Nat.mul_mod_right ..
  · have h' : t % (D + 1) + 1 < D + 1 := by omega
    refine .inr ⟨by omega, ?_, ?_⟩
    · conv => lhs; rw [← hda, Nat.add_assoc, Nat.mul_add_div (by omega), Nat.div_eq_of_lt h']
      rfl
    · conv => lhs; rw [← hda, Nat.add_assoc, Nat.mul_add_mod, Nat.mod_eq_of_lt h']

theorem read_shown {D : Nat} (hD : 0 < D) (kos : List KeyOutput) (n t : Nat) :
    Host.read (downAt D kos t) ((List.range' (t + 1) n).map fun j => asBootReport (shown D kos j)) =
      ((kos.take ((t + n) / (D + 1) + 1)).drop (t / (D + 1) + 1)).flatMap readAs := by
  induction n generalizing t with
  | zero =>
    rw [List.drop_eq_nil_of_le (by rw [List.length_take]; simp only [Nat.add_zero]; omega)]
    rfl
  | succ n ih =>
    rw [List.range'_succ, List.map_cons]
    have ih := ih (t + 1)
    rw [show t + 1 + n = t + (n + 1) by omega] at ih
    rcases div_step (D := D) (t := t) with ⟨h1, h2, h3⟩ | ⟨h1, h2, h3⟩
    · have hd : downAt D kos t = [] := by
        unfold downAt shown
        rw [if_neg (by omega), keys_nil]
      have hs : shown D kos (t + 1) = (kos[t / (D + 1) + 1]?).toList := by
        unfold shown
        rw [if_pos (by omega), h2]
      rw [hd, read_cons_nil, show Host.keys (asBootReport (shown D kos (t + 1))) = downAt D kos (t + 1) from rfl, ih, h2]
      have hle : t / (D + 1) + 1 ≤ (t + (n + 1)) / (D + 1) := by
        rw [← h2]; exact Nat.div_le_div_right (by omega)
      rw [drop_take_step kos hle, List.flatMap_append]
      congr 1
      rw [hs]
      cases kos[t / (D + 1) + 1]? with
      | none => simp [Host.read, keys_nil]
      | some ko => simp [readAs]
    · rw [read_cons_same, show Host.keys (asBootReport (shown D kos (t + 1))) = downAt D kos (t + 1) from rfl, ih, h2]
      intro b hb
      unfold downAt
      unfold shown at hb ⊢
      rw [if_pos h1]
      rw [h2] at hb
      split at hb
      · exact hb
      · rw [keys_nil] at hb; cases hb

/-- All that is read from the first report on. -/
theorem read_all {D : Nat} (hD : 1 < D) (kos : List KeyOutput) {k : Nat} (hk : (kos.length - 1) * (D + 1) < k) :
    Host.read [] ((List.range' 1 k).map fun j => asBootReport (shown D kos j)) = kos.flatMap readAs := by
  cases k with
  | zero => omega
  | succ k =>
    have h1 : 1 / (D + 1) = 0 := Nat.div_eq_of_lt (by omega)
    have hs : shown D kos 1 = (kos[0]?).toList := by
      unfold shown
      rw [Nat.mod_eq_of_lt (by omega), if_pos hD, h1]
    rw [List.range'_succ, List.map_cons, read_cons_nil, show Host.keys (asBootReport (shown D kos 1)) = downAt D kos 1 from rfl,
      read_shown (by omega), h1, hs]
    cases kos with
    | nil => simp [Host.read, keys_nil]
    | cons ko kos =>
      have hle : kos.length ≤ (1 + k) / (D + 1) := by
        rw [Nat.le_div_iff_mul_le (by omega)]
        simp only [List.length_cons, Nat.add_sub_cancel] at hk
        omega
      rw [List.take_of_length_le (by simp only [List.length_cons]; omega)]
      simp [readAs]

/-! ## The reports of the firmware -/

section

variable {R Ev Ctx PKS KS : Type} {C : Cfg R Ev Ctx PKS KS} {n : Nat}

/-- The reports of `k` calls of `keymap_tick`, one after the other. -/
def reports (C : Cfg R Ev Ctx PKS KS) (n : Nat) (km : KM R Ev Ctx PKS KS) (r : CApi.HidReport) : Nat → Res (List CApi.HidReport)
  | 0 => .ok []
  | k + 1 => do
    let (km, r) ← CApi.keymapTick C n km r
    let rs ← reports C n km r k
    pure (r :: rs)

theorem run_split {a c : KM R Ev Ctx PKS KS} : ∀ {xs ys : List Op}, run C n a (xs ++ ys) = .ok c → ∃ b, run C n a xs = .ok b ∧ run C n b ys = .ok c
  | [], _, h => ⟨a, rfl, h⟩
  | x :: xs, ys, h => by
    obtain ⟨a', h1, h2⟩ := Res.bind_eq_ok.1 h
    obtain ⟨b, h3, h4⟩ := run_split (xs := xs) h2
    exact ⟨b, Res.bind_eq_ok.2 ⟨a', h1, h3⟩, h4⟩

theorem report_one {r : Reporter} {os : List KeyOutput} (h : os.length ≤ 1) (h1 : 1 ≤ r.num) : (r.report os).2 = os := by
  have h2 : 1 ≤ (r.update os).reportSent.num := Reporter.reportSent_pos _ (Reporter.update_pos _ _ h1)
  have h3 : (r.update os).reportSent.outputs = os := by
    unfold Reporter.reportSent
    split <;> rfl
  simp only [Reporter.report, Reporter.reportable]
  rw [h3, List.take_of_length_le (by omega)]

theorem run_rep : ∀ (cs : List Board.Call) {a b : KM R Ev Ctx PKS KS}, QInv (fun _ => True) a → 1 ≤ a.rep.num →
    run C n a (cs.map toOp) = .ok b → QInv (fun _ => True) b ∧ 1 ≤ b.rep.num
  | [], a, b, hq, hr, h => by cases h; exact ⟨hq, hr⟩
  | c :: cs, a, b, hq, hr, h => by
    obtain ⟨a', h1, h2⟩ := Res.bind_eq_ok.1 h
    have hq' : QInv (fun _ => True) a' := ((qinv_api _ (Emits.trivial C)).step (op := toOp c) ⟨hq, hq⟩ h1).1
    refine run_rep cs hq' ?_ h2
    cases c with
    | input e => rw [(handleInput_clock hq h1).2.2.2.1]; exact hr
    | tick => rw [(tick_clock hq h1).2.2.2.1]; exact hr
    | report =>
      simp only [toOp, step, reportOutput] at h1
      cases ho : a.pressedKeys C with
      | ok os =>
        rw [ho] at h1
        simp only [Res.ok_bind, Res.map_ok, Res.pure_eq, Res.ok.injEq] at h1
        rw [← h1]
        exact Reporter.reportSent_pos _ (Reporter.update_pos _ _ hr)
      | panic _ => rw [ho] at h1; cases h1
      | fuel => rw [ho] at h1; cases h1

theorem length_boot (out : List KeyOutput) : (asBootReport out).length = 8 := by
  rw [asBootReport_eq]
  simp only [List.length_cons, Spec.padTo, List.length_append, List.length_take, List.length_replicate]
  omega

theorem update_small (old : CApi.HidReport) (hk : old.keyboard.length = 8) {out : List KeyOutput} (h : out.length ≤ maxPressedKeys) :
    ∃ r, old.update out = .ok r ∧ r.keyboard = asBootReport out := by
  have l1 : (out.filterMap KeyOutput.consumerCode?).length ≤ out.length := List.length_filterMap_le _ _
  have l2 : (out.filterMap KeyOutput.customCode?).length ≤ out.length := List.length_filterMap_le _ _
  have hb : CApi.copyInto old.keyboard (asBootReport out) = asBootReport out := by
    unfold CApi.copyInto
    rw [length_boot, List.drop_eq_nil_of_le (by omega), List.append_nil]
  unfold maxPressedKeys at h
  simp only [CApi.HidReport.update, KeymapOutput.pressedCustomCodes, KeymapOutput.pressedConsumerCodes, extendCap_eq]
  rw [if_pos (by simp only [List.length_nil]; omega), if_pos (by simp only [List.length_nil]; omega)]
  exact ⟨_, rfl, hb⟩

/-- A tick and a report, `t` times. -/
def rounds : Nat → List Board.Call
  | 0 => []
  | t + 1 => rounds t ++ [.tick, .report]

theorem rounds_events (t : Nat) : eventsIn (rounds t) = [] := by
  induction t with
  | zero => rfl
  | succ t ih => rw [rounds, Comp.eventsIn_append, ih]; rfl

theorem rounds_ticks (t : Nat) : ticksIn (rounds t) = t := by
  induction t with
  | zero => rfl
  | succ t ih => rw [rounds, Comp.ticksIn_append, ih]; rfl

/-- The reports of `keymap_tick`, if what is pressed after each tick is known, and is one output at most. -/
theorem reports_of {km0 : KM R Ev Ctx PKS KS} (hq : QInv (fun _ => True) km0) (h0 : 1 ≤ km0.rep.num) (pre : List Board.Call) (os : Nat → List KeyOutput) {k : Nat}
    (hos : ∀ t, (os t).length ≤ 1)
    (h : ∀ t, t < k → ∃ km, run C n km0 ((pre ++ (rounds t ++ [Board.Call.tick])).map toOp) = .ok km ∧ km.pressedKeys C = .ok (os (t + 1)))
    (j t : Nat) (hj : t + j = k) {a : KM R Ev Ctx PKS KS} (ha : run C n km0 ((pre ++ rounds t).map toOp) = .ok a) (r : CApi.HidReport)
    (hr : r.keyboard.length = 8) :
    ∃ rs, reports C n a r j = .ok rs ∧ rs.map (·.keyboard) = (List.range' (t + 1) j).map fun i => asBootReport (os i) := by
  induction j generalizing t a r with
  | zero => exact ⟨[], rfl, rfl⟩
  | succ j ih =>
    obtain ⟨b, hb, ho⟩ := h t (by omega)
    rw [← List.append_assoc, List.map_append] at hb
    obtain ⟨a', ha', hb'⟩ := run_split hb
    rw [ha] at ha'
    cases ha'
    obtain ⟨b', ht, hb'⟩ := Res.bind_eq_ok.1 hb'
    cases hb'
    obtain ⟨_, hn⟩ := run_rep (pre ++ rounds t ++ [Board.Call.tick]) hq h0 (by rw [List.map_append]; exact hb)
    have hout : reportOutput C b = .ok ({ b with rep := (b.rep.report (os (t + 1))).1 }, os (t + 1)) := by
      unfold reportOutput
      rw [ho]
      simp only [Res.ok_bind, Res.pure_eq, report_one (hos (t + 1)) hn]
    obtain ⟨r', hr', hk'⟩ := update_small r hr (out := os (t + 1)) (Nat.le_trans (hos _) (by decide))
    have hkt : CApi.keymapTick C n a r = .ok ({ b with rep := (b.rep.report (os (t + 1))).1 }, r') := by
      unfold CApi.keymapTick
      rw [show tick C n a = .ok b from ht]
      simp only [Res.ok_bind, hout, hr', Res.pure_eq]
    have hnext : run C n km0 ((pre ++ rounds (t + 1)).map toOp) = .ok { b with rep := (b.rep.report (os (t + 1))).1 } := by
      rw [rounds, show pre ++ (rounds t ++ [Board.Call.tick, .report]) = (pre ++ rounds t ++ [Board.Call.tick]) ++ [.report] by simp, List.map_append]
      refine Comp.run_then (b := b) (by rw [List.map_append]; exact hb) ?_
      simp only [List.map_cons, List.map_nil, toOp, run, step, hout, Res.map_ok, Res.ok_bind]
    obtain ⟨rs, h1, h2⟩ := ih (t + 1) (by omega) hnext r' (by rw [hk', length_boot])
    refine ⟨r' :: rs, ?_, ?_⟩
    · simp only [reports, hkt, Res.ok_bind, h1, Res.pure_eq]
    · rw [List.map_cons, h2, List.range'_succ, List.map_cons, hk']

end

/-! ## From the text of the source to the text the computer gets -/

section

variable {s : Src} {c : Compiled} {S : Search} {n ms : Nat} {layout : List Virt.Pos}

theorem flatten_single : ∀ (l : List Char), (l.map fun c => [some c]).flatten = l.map some
  | [] => rfl
  | c :: l => by simp only [List.map_cons, List.flatten_cons, flatten_single l, List.cons_append, List.nil_append]

/-- C64: a source that compiles, of plain keys, layer keys, sticky modifiers, caps word and string macros; ticks shorter than the duration of an
instruction. When no output is pressed, and nothing is being typed or waits to be, the key with the string macro of a text is pressed. A computer
with a US keyboard that reads the reports of `keymap_tick` from then on gets the text: its characters, in their order, each of them once; from `N`
ticks on, nothing else. -/
theorem C64_typed (h : compile s = some c) (hr : s.ReadsVirt layout) (hf : ∀ e ∈ layout, e.Fits s.count)
    (hl : layout.length ≤ 65535) (hI : c.config.automation.instructions.length ≤ 65535) (calls : List Board.Call)
    (hev : ∀ e ∈ eventsIn calls, Comp.isPhysical e = true) {m : _root_.Verif.Macro.Queued}
    (hm : (_root_.Verif.Macro.Queued.new s.count).run S s.options.instructionDuration ms layout (Comp.modeOf s.options.sticky) calls = some m)
    (hq : m.queue = []) (hdl : m.delay = 0) (hti : m.state.timers = []) (hmod : m.state.board.modified = none)
    (hout : m.state.board.outputs = []) (hroom : m.state.board.held.length ≤ 14)
    {i : Nat} {kos : List KeyOutput} {text : String} (hasks : m.state.asks layout i = some kos)
    (htext : stringMacro text = some (.leaf (.automation { onPress := kos.map .tap })))
    (hms : 0 < ms) (hd : ms < s.options.instructionDuration)
    {N : Nat} (hN : (text.toList.length - 1) * ((s.options.instructionDuration + ms - 1) / ms + 1) < N)
    (ht : (ticksIn calls + N) * ms + s.options.instructionDuration < u32Size)
    (r : CApi.HidReport) (hr8 : r.keyboard.length = 8) :
    ∃ km rs, run ⟨system c.keys, c.refs, S⟩ (n + 8) (fresh c.config ms) ((calls ++ [Board.Call.input (.press i)]).map toOp) = .ok km ∧
      reports ⟨system c.keys, c.refs, S⟩ (n + 8) km r N = .ok rs ∧ Host.read [] (rs.map (·.keyboard)) = text.toList.map some := by
  obtain ⟨h1, h2, h3⟩ := read_layout h (virtReader c.keys c.config.automation) hr (fun k a r hk hm => virt_read hk hm)
    (fun k a hk => by cases hk <;> rfl)
  obtain ⟨h5, _, _, _, h4, _, _⟩ := C58_settings h
  rw [← h2] at hf hm
  rw [← h4] at hm
  rw [← h5] at hm ht hN hd
  have hp : Typing c.keys c.refs c.config layout := ⟨h1, hf, hl, .inl h3, hI⟩
  obtain ⟨D, hD⟩ : ∃ D, D = (c.config.automation.duration + ms - 1) / ms := ⟨_, rfl⟩
  rw [← hD] at hN
  have hD1 : 1 < D := by
    rw [hD]
    show 2 ≤ _
    rw [Nat.le_div_iff_mul_le hms]
    omega
  have hfresh : ∀ k ∈ kos, Virt.Slot.virt k ∉ m.state.board.held := by
    intro k _ hk
    have : k ∈ m.state.board.outputs := List.mem_filterMap.2 ⟨_, hk, rfl⟩
    rw [hout] at this
    cases this
  have halone := fun w hw ht => Comp.C36_alone (S := S) (n := n) hp hms (by omega) calls hev hm hq hdl hti hmod hasks hroom hfresh w hw ht
  rw [← hD, hout] at halone
  obtain ⟨km, hkm, _⟩ := halone [] rfl (by simp only [ticksIn]; have := Nat.mul_le_mul_right ms (show ticksIn calls + 0 ≤ ticksIn calls + N by omega); omega)
  have hall : ∀ t, t < N → ∃ km, run ⟨system c.keys, c.refs, S⟩ (n + 8) (fresh c.config ms)
      (((calls ++ [Board.Call.input (.press i)]) ++ (rounds t ++ [Board.Call.tick])).map toOp) = .ok km ∧
      km.pressedKeys ⟨system c.keys, c.refs, S⟩ = .ok (shown D kos (t + 1)) := by
    intro t hlt
    have hticks : ticksIn (rounds t ++ [Board.Call.tick]) = t + 1 := by rw [Comp.ticksIn_append, rounds_ticks]; rfl
    obtain ⟨km, ha, hb⟩ := halone (rounds t ++ [.tick]) (by rw [Comp.eventsIn_append, rounds_events]; rfl)
      (by rw [hticks]; have := Nat.mul_le_mul_right ms (show ticksIn calls + (t + 1) ≤ ticksIn calls + N by omega); omega)
    rw [hticks] at hb
    exact ⟨km, by simpa using ha, by simpa using hb⟩
  have hshort : ∀ t, (shown D kos t).length ≤ 1 := by
    intro t
    unfold shown
    split
    · cases kos[t / (D + 1)]? <;> simp
    · simp
  obtain ⟨rs, hrs, hk⟩ := reports_of (C := ⟨system c.keys, c.refs, S⟩) (n := n + 8) (km0 := fresh c.config ms)
    (by refine ⟨?_, ?_, ?_⟩ <;> intro _ h <;> cases h) (Nat.le_refl 1) (calls ++ [Board.Call.input (.press i)]) (shown D kos) hshort hall N 0 (by omega)
    (by simpa [rounds] using hkm) r hr8
  refine ⟨km, rs, by simpa using hkm, hrs, ?_⟩
  simp only [stringMacro, Option.bind_eq_bind, Option.bind_eq_some_iff, Option.pure_def, Option.some.injEq, NKey.leaf.injEq, Leaf.automation.injEq,
    Macro.mk.injEq] at htext
  obtain ⟨is, hi1, hi2, _⟩ := htext
  obtain ⟨kos', hk1, hk2⟩ := C64_characters text.toList (C64_only hi1)
  rw [hi1, hi2] at hk1
  have hkk : kos = kos' := by
    have := congrArg (List.filterMap tapOf) (Option.some.inj hk1)
    simpa [List.filterMap_map, Function.comp_def, tapOf] using this
  subst hkk
  have hlen : kos.length = text.toList.length := by simpa using congrArg List.length hk2
  rw [hk, show 0 + 1 = 1 from rfl, read_all hD1 kos (by rw [hlen]; exact hN), List.flatMap_def, hk2]
  exact flatten_single text.toList

/-- C64: the same for the key of a position that has the string macro on the base layer, and nothing on the layers. -/
theorem C64_key (h : compile s = some c) (hr : s.ReadsVirt layout) (hf : ∀ e ∈ layout, e.Fits s.count)
    (hl : layout.length ≤ 65535) (hI : c.config.automation.instructions.length ≤ 65535)
    {i : Nat} {text : String} {k : NKey} (hk : stringMacro text = some k) (h0 : s.at 0 i = some k) (hup : ∀ l, 0 < l → s.at l i = none)
    (calls : List Board.Call)
    (hev : ∀ e ∈ eventsIn calls, Comp.isPhysical e = true) {m : _root_.Verif.Macro.Queued}
    (hm : (_root_.Verif.Macro.Queued.new s.count).run S s.options.instructionDuration ms layout (Comp.modeOf s.options.sticky) calls = some m)
    (hq : m.queue = []) (hdl : m.delay = 0) (hti : m.state.timers = []) (hmod : m.state.board.modified = none)
    (hout : m.state.board.outputs = []) (hroom : m.state.board.held.length ≤ 14) (hnot : m.state.board.holds i = false)
    (hms : 0 < ms) (hd : ms < s.options.instructionDuration)
    {N : Nat} (hN : (text.toList.length - 1) * ((s.options.instructionDuration + ms - 1) / ms + 1) < N)
    (ht : (ticksIn calls + N) * ms + s.options.instructionDuration < u32Size)
    (r : CApi.HidReport) (hr8 : r.keyboard.length = 8) :
    ∃ km rs, run ⟨system c.keys, c.refs, S⟩ (n + 8) (fresh c.config ms) ((calls ++ [Board.Call.input (.press i)]).map toOp) = .ok km ∧
      reports ⟨system c.keys, c.refs, S⟩ (n + 8) km r N = .ok rs ∧ Host.read [] (rs.map (·.keyboard)) = text.toList.map some := by
  obtain ⟨base, hb, hlen⟩ := hr.length
  have hi : i < layout.length := by
    rw [hlen]
    unfold Src.at at h0
    rw [hb] at h0
    simp only [Option.bind_some] at h0
    exact lt_of_get (Option.join_eq_some_iff.1 h0)
  have hp := List.getElem?_eq_getElem hi
  have hkos : ∃ kos : List KeyOutput, k = .leaf (.automation { onPress := kos.map .tap }) := by
    simp only [stringMacro, Option.bind_eq_bind, Option.bind_eq_some_iff, Option.pure_def, Option.some.injEq] at hk
    obtain ⟨is, h1, rfl⟩ := hk
    obtain ⟨kos, h2, _⟩ := C64_characters text.toList (C64_only h1)
    rw [h1] at h2
    exact ⟨kos, by rw [Option.some.inj h2]⟩
  obtain ⟨kos, rfl⟩ := hkos
  have hasks : m.state.asks layout i = some kos := by
    unfold Macro.State.asks
    rw [hnot, hp]
    have hs := hr.says i _ hp
    generalize layout[i] = p at hs
    cases hs with
    | one h1 _ h2 =>
      rw [h0] at h1
      cases h1
      generalize hx : (NKey.leaf (.automation { onPress := kos.map .tap })) = x at h2
      cases h2 with
      | string _ =>
        rename_i kos' _
        simp only [NKey.leaf.injEq, Leaf.automation.injEq, Macro.mk.injEq, and_true] at hx
        have : kos = kos' := by
          have := congrArg (List.filterMap tapOf) hx
          simpa [List.filterMap_map, Function.comp_def, tapOf] using this
        rw [this]
        rfl
      | leaf h2 => cases hx; cases h2
      | _ => cases hx
    | layered _ h1 =>
      obtain ⟨l, h1, h2⟩ := h1
      rw [hup l h1] at h2
      cases h2
  exact C64_typed h hr hf hl hI calls hev hm hq hdl hti hmod hout hroom hasks hk hms hd hN ht r hr8

end

/-! ## Examples -/

namespace TextDemo

/-- `Too!` as outputs: shift and t, o, o again, shift and 1. -/
def kos : List KeyOutput :=
  [.fromUsageWithModifiers (.keyboard 0x17) 2, .fromKeyCode 0x12, .fromKeyCode 0x12, .fromUsageWithModifiers (.keyboard 0x1E) 2]

theorem too : stringMacro "Too!" = some (.leaf (.automation { onPress := kos.map .tap })) := by
  have : stringInstructions "Too!".toList = some (kos.map .tap) := by decide +kernel
  unfold stringMacro
  rw [this]
  rfl

/-- A key that types `Too!`, a plain key and a key for the layer, where the plain key is another one. -/
def src : Src where
  layers := [[some (.leaf (.automation { onPress := kos.map .tap })), some (.leaf (.keyCode 4)), some (.leaf (.layerModifier (.hold 1)))],
    [none, some (.leaf (.keyCode 5)), none]]

def layout : List Virt.Pos :=
  [.act (.string kos), .layered (.cell (.out (.fromKeyCode 4))) [some (.cell (.out (.fromKeyCode 5)))], .act (.cell (.hold 1))]

theorem reads : src.ReadsVirt layout where
  chords := rfl
  length := ⟨_, rfl, rfl⟩
  says := by
    intro i p hp
    match i, hp with
    | 0, hp =>
      cases hp
      refine .one rfl ?_ (.string (by decide))
      intro l hl
      match l, hl with
      | 1, _ => rfl
      | l + 2, _ => rfl
    | 1, hp =>
      cases hp
      refine .layered rfl ⟨1, by decide, rfl⟩ (.leaf (.keyCode (.inl (by decide)))) rfl ?_ ?_
      · intro l
        match l with
        | 0 => rfl
        | l + 1 => rfl
      · intro l k a hk ha
        match l, hk, ha with
        | 0, hk, ha => cases hk; cases ha; exact .leaf (.keyCode (.inl (by decide)))
        | l + 1, hk, ha => cases ha
    | 2, hp =>
      cases hp
      refine .one rfl ?_ (.leaf (.hold _))
      intro l hl
      match l, hl with
      | 1, _ => rfl
      | l + 2, _ => rfl
    | i + 3, hp => cases hp

/-- Pressing the layer key, typing the other key there, and then the text; 3 ms a tick. -/
def before : List Board.Call := [.input (.press 2), .tick, .tick, .input (.press 1), .tick, .tick, .input (.release 1), .tick, .tick, .report]

/-- The computer gets `Too!`. -/
example (r : CApi.HidReport) (hr : r.keyboard.length = 8) : ∃ c km rs, compile src = some c ∧
    run ⟨system c.keys, c.refs, Search.std⟩ 8 (fresh c.config 3) ((before ++ [Board.Call.input (.press 0)]).map toOp) = .ok km ∧
    reports ⟨system c.keys, c.refs, Search.std⟩ 8 km r 40 = .ok rs ∧
    Host.read [] (rs.map (·.keyboard)) = [some 'T', some 'o', some 'o', some '!'] := by
  obtain ⟨c, hc⟩ : ∃ c, compile src = some c := ⟨_, rfl⟩
  obtain ⟨m, hm⟩ : ∃ m, m = (⟨{ _root_.Verif.Macro.State.new 1 with
    board := { Virt.State.new 1 with held := [.key 2 (.cell (.hold 1)) false], on := [true] }, clock := 18 }, [], 0⟩ : _root_.Verif.Macro.Queued) := ⟨_, rfl⟩
  obtain ⟨km, rs, h1, h2, h3⟩ := C64_key (n := 0) (S := Search.std) (ms := 3) (m := m) (text := "Too!") (i := 0) (N := 40) hc reads
    (by intro e he
        simp only [layout, List.mem_cons, List.not_mem_nil, or_false] at he
        rcases he with rfl | rfl | rfl <;> simp [Virt.Pos.Fits, Virt.Act.Fits, Board.Cell.Fits, Src.count, src])
    (by decide) (by cases hc; decide) too rfl (by intro l hl; match l, hl with | 1, _ => rfl | l + 2, _ => rfl)
    before (by decide) (by subst hm; decide +kernel) (by subst hm; rfl) (by subst hm; rfl) (by subst hm; rfl) (by subst hm; rfl) (by subst hm; rfl)
    (by subst hm; decide) (by subst hm; rfl) (by decide) (by decide) (by decide) (by decide) r hr
  exact ⟨c, km, rs, hc, h1, h2, h3⟩

/-- C64: ticks must be shorter than an instruction: with the default duration of 10 ms and ticks of 10 ms, the first character is released before
it is ever reported. -/
theorem C64_needed : ∃ c, compile src = some c ∧ c.config.automation.duration = 10 ∧
    ((do
      let km ← run ⟨system c.keys, c.refs, Search.std⟩ 8 (fresh c.config 10) [.input (.press 0)]
      let rs ← reports ⟨system c.keys, c.refs, Search.std⟩ 8 km ⟨List.replicate 8 0, List.replicate 6 0, List.replicate 4 0, MouseOutput.none⟩ 40
      pure (Host.read [] (rs.map (·.keyboard)))) : Res (List (Option Char))) = .ok [some 'o', some 'o', some '!'] :=
  ⟨_, rfl, rfl, by decide +kernel⟩

end TextDemo

end Verif.Codegen
