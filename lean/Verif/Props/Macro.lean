import Verif.Lemmas.MacroInv
import Verif.StdSearch

/-!
# C34, C36: string macros, end to end

The firmware, with all of its queues, contexts and key states, does what the keyboard of `Spec/Macro.lean`
does, for every layout of plain keys, layer keys, sticky modifiers, caps word keys and keys that type a
string, and every history of key events, ticks and reports; and what follows for the letters that are typed.
-/

namespace Verif.Comp

open Virt (Pos Slot Mode)
open Macro (shown)

/-- The keymap data: as in `Virtual` (`Props/Virt.lean`), with keys that type a string; at most 65535 macro
instructions. -/
structure Typing (K : Keys) (refs : List Ref) (c : Config) (layout : List Pos) : Prop where
  layoutEq : virtLayoutOf K c.automation refs = some layout
  fits : ∀ p ∈ layout, p.Fits c.layerCount
  size : layout.length ≤ 65535
  chords : c.chorded.maxPressed = 0 ∨ 16 ≤ c.chorded.maxPressed
  instructions : c.automation.instructions.length ≤ 65535

/-! ## No string is empty -/

theorem kindOf_string {K : Keys} {A : Automation.Config} {r : Ref} {kos : List KeyOutput} (h : kindOf K A r = some (.string kos)) : kos ≠ [] := by
  cases r with
  | automation i =>
    simp only [kindOf] at h
    split at h
    · split at h
      · simp only [Option.map_eq_some_iff, Virt.Act.string.injEq] at h
        obtain ⟨a, h1, rfl⟩ := h
        exact (Automation.stringOf_ne h1).1
      · cases h
    · cases h
  | sticky i => simp [kindOf] at h
  | capsWord => cases h
  | _ =>
    simp only [kindOf, Option.map_eq_some_iff] at h
    obtain ⟨_, _, h⟩ := h
    cases h

theorem kindsOf_string {K : Keys} {A : Automation.Config} {rs : List (Option Ref)} {as : List (Option Virt.Act)} {kos : List KeyOutput}
    (h : kindsOf K A rs = some as) (hm : some (.string kos) ∈ as) : kos ≠ [] := by
  induction rs generalizing as with
  | nil => cases h; cases hm
  | cons r rs ih =>
    cases r with
    | none =>
      simp only [kindsOf, Option.map_eq_some_iff] at h
      obtain ⟨as', h1, rfl⟩ := h
      rcases List.mem_cons.1 hm with hm | hm
      · cases hm
      · exact ih h1 hm
    | some r =>
      simp only [kindsOf] at h
      split at h
      · rename_i a as' h1 h2
        cases h
        rcases List.mem_cons.1 hm with hm | hm
        · cases hm; exact kindOf_string h1
        · exact ih h2 hm
      · cases h

theorem highest_mem {α : Type} {on : List Bool} {as : List (Option α)} {a : α} (h : Board.highest on as = some a) : some a ∈ as := by
  induction as generalizing on with
  | nil => cases on <;> simp [Board.highest] at h
  | cons x as ih =>
    cases on with
    | nil => simp [Board.highest] at h
    | cons b on =>
      simp only [Board.highest] at h
      split at h
      · rename_i c hc
        cases h
        exact List.mem_cons_of_mem _ (ih hc)
      · split at h
        · rw [h]; exact List.mem_cons_self
        · cases h

theorem lookup_mem {α : Type} (on : List Bool) (dflt : Option Nat) (b : α) (as : List (Option α)) :
    Board.lookup on dflt b as = b ∨ some (Board.lookup on dflt b as) ∈ as := by
  unfold Board.lookup
  split
  · rename_i c hc
    exact .inr (highest_mem hc)
  · cases dflt with
    | none => exact .inl rfl
    | some l =>
      simp only [Option.bind_some]
      cases hl : as[l - 1]? with
      | none => exact .inl rfl
      | some x =>
        cases x with
        | none => exact .inl rfl
        | some a => exact .inr (List.mem_of_getElem? hl)

theorem layout_strings {K : Keys} {A : Automation.Config} {refs : List Ref} {layout : List Pos} (h : virtLayoutOf K A refs = some layout) :
    Macro.NoEmpty layout := by
  intro p hp s kos hpk
  obtain ⟨i, hi⟩ := List.getElem?_of_mem hp
  have hg := virtLayoutOf_get h i
  rw [hi] at hg
  cases hr : refs[i]? with
  | none => rw [hr] at hg; cases hg
  | some r =>
    rw [hr] at hg
    simp only [Option.map_some, Option.some.injEq] at hg
    have plain : (kindOf K A r).map Pos.act = some p → kos ≠ [] := by
      intro hm
      simp only [Option.map_eq_some_iff] at hm
      obtain ⟨a, ha, rfl⟩ := hm
      simp only [Pos.pick] at hpk
      subst hpk
      exact kindOf_string ha
    cases r with
    | layered l =>
      cases l with
      | layered j =>
        simp only [placeOf] at hg
        split at hg
        · split at hg
          · rename_i b as hb has
            cases hg
            simp only [Pos.pick] at hpk
            rcases lookup_mem s.on s.dflt b as with h1 | h1
            · rw [h1] at hpk
              subst hpk
              exact kindOf_string hb
            · rw [hpk] at h1
              exact kindsOf_string has h1
          · cases hg
        · cases hg
      | modifier j => exact plain hg
    | _ => exact plain hg

section

variable {K : Keys} {refs : List Ref} {S : Search} {layout : List Pos} {n ms : Nat}

/-- The keymap at the beginning, with ticks of `ms` milliseconds. -/
def fresh (c : Config) (ms : Nat) : CKM := (KM.new (Ctx.fromConfig c)).setMsPerTick ms

/-- C34, C36: as long as the keyboard is not overloaded, no call of the firmware panics, the pressed outputs
are the outputs of the held things in the order they came, and the same events wait. -/
theorem C36_refines {c : Config} (hp : Typing K refs c layout) (calls : List Board.Call) (hev : ∀ e ∈ eventsIn calls, isPhysical e = true)
    (ht : ticksIn calls * ms + c.automation.duration < u32Size) {m : Macro.Queued}
    (hm : (Macro.Queued.new c.layerCount).run S c.automation.duration ms layout (modeOf c.sticky) calls = some m) :
    ∃ km, run ⟨system K, refs, S⟩ (n + 8) (fresh c ms) (calls.map toOp) = .ok km ∧
      km.pressedKeys ⟨system K, refs, S⟩ = .ok m.state.board.outputs ∧ km.inq = m.queue := by
  obtain ⟨km, h1, h2⟩ := (MSimQ.start (K := K) (ms := ms) hp.chords).run (S := S) (n := n) hp.layoutEq hp.fits hp.size hp.instructions calls hev
    (by omega) hm
  exact ⟨km, h1, h2.rel.board.held.outputs, h2.inq⟩

/-- The invariant of every history. -/
theorem macro_inv {c : Config} (hp : Typing K refs c layout) (calls : List Board.Call) {m : Macro.Queued}
    (hm : (Macro.Queued.new c.layerCount).run S c.automation.duration ms layout (modeOf c.sticky) calls = some m) :
    m.state.Inv c.automation.duration := by
  have hne := layout_strings hp.layoutEq
  refine Macro.Queued.run_inv (P := fun _ _ => true) (I := fun s => s.Inv c.automation.duration) (fun s e s' h _ hi => h.input hne hi)
    (fun s s' h ha => h.advance ha) calls ?_ (Macro.State.Inv.new _) hm
  generalize Macro.Queued.new c.layerCount = q
  clear hm
  induction calls generalizing q with
  | nil => trivial
  | cons c cs ih => exact ⟨fun _ _ => rfl, fun m' _ => ih m'⟩

/-- The invariant of histories without a fifth sticky modifier. -/
theorem macro_board {c : Config} (hp : Typing K refs c layout) (calls : List Board.Call) {m : Macro.Queued}
    (hm : (Macro.Queued.new c.layerCount).run S c.automation.duration ms layout (modeOf c.sticky) calls = some m)
    (h4 : (Macro.Queued.new c.layerCount).AtMostFour S c.automation.duration ms layout (modeOf c.sticky) calls) :
    m.state.board.InvL m.state.letters := by
  have hne := layout_strings hp.layoutEq
  exact (Macro.Queued.run_inv (I := fun s => s.Inv c.automation.duration ∧ s.board.InvL s.letters)
    (fun s e s' h hf hi => ⟨h.1.input hne hi, Macro.input_board hne h.1 h.2 (by simpa using hf) hi⟩)
    (fun s s' h ha => ⟨h.1.advance ha, Macro.advance_board h.1 h.2 ha⟩) calls h4 ⟨Macro.State.Inv.new _, Virt.State.InvL.new _⟩ hm).2

/-- The invariant of histories without overlapping strings. -/
theorem macro_seq {c : Config} (hp : Typing K refs c layout) (hd : 0 < c.automation.duration) (calls : List Board.Call) {m : Macro.Queued}
    (hm : (Macro.Queued.new c.layerCount).run S c.automation.duration ms layout (modeOf c.sticky) calls = some m)
    (hsep : (Macro.Queued.new c.layerCount).Separate S c.automation.duration ms layout (modeOf c.sticky) calls) :
    m.state.Seq c.automation.duration := by
  have hne := layout_strings hp.layoutEq
  refine (Macro.Queued.run_inv (I := fun s => s.Inv c.automation.duration ∧ s.Seq c.automation.duration)
    (fun s e s' h hf hi => ⟨h.1.input hne hi, h.2.input hne hd h.1 (by simpa using hf) hi⟩)
    (fun s s' h ha => ⟨h.1.advance ha, ?_⟩) calls hsep ⟨Macro.State.Inv.new _, ?_⟩ hm).2
  · rcases h.2.advance hd h.1 ha with ⟨_, h2, _⟩ | ⟨k, _, h2, _⟩ | ⟨k, _, h2, _⟩ | ⟨k, _, h2, _⟩
    · exact .inl h2
    · exact .inr ⟨k, h2⟩
    · exact .inr ⟨k, h2⟩
    · exact .inl h2
  · exact .inl ⟨by simp [Macro.Queued.new, Macro.State.new], by simp [Macro.Queued.new, Macro.State.new]⟩

/-- C34: whatever is typed, whenever: the letters pressed so far, followed by those still queued, are those
asked for, in the order they were asked for. None is lost, none is typed twice, and strings do not mix. -/
theorem C34_letters {c : Config} (hp : Typing K refs c layout) (calls : List Board.Call) (hev : ∀ e ∈ eventsIn calls, isPhysical e = true)
    (ht : ticksIn calls * ms + c.automation.duration < u32Size) {m : Macro.Queued}
    (hm : (Macro.Queued.new c.layerCount).run S c.automation.duration ms layout (modeOf c.sticky) calls = some m) :
    ∃ km, run ⟨system K, refs, S⟩ (n + 8) (fresh c ms) (calls.map toOp) = .ok km ∧
      km.pressedKeys ⟨system K, refs, S⟩ = .ok m.state.board.outputs ∧ m.state.typed ++ m.state.strings.flatten = m.state.asked := by
  obtain ⟨km, h1, h2, _⟩ := C36_refines (n := n) hp calls hev ht hm
  exact ⟨km, h1, h2, (macro_inv hp calls hm).order⟩

/-- C36: what the firmware holds is the letters that are down, the modifiers of the tapped sticky keys that
wait for the key they modify, and the shift of caps word if it is on: nothing else. Provided that a sticky
modifier is never tapped while four are waiting (`C30_fifth_refuted`). -/
theorem C36_held_partial {c : Config} (hp : Typing K refs c layout) (calls : List Board.Call) (hev : ∀ e ∈ eventsIn calls, isPhysical e = true)
    (ht : ticksIn calls * ms + c.automation.duration < u32Size) {m : Macro.Queued}
    (hm : (Macro.Queued.new c.layerCount).run S c.automation.duration ms layout (modeOf c.sticky) calls = some m)
    (h4 : (Macro.Queued.new c.layerCount).AtMostFour S c.automation.duration ms layout (modeOf c.sticky) calls) :
    ∃ km, run ⟨system K, refs, S⟩ (n + 8) (fresh c ms) (calls.map toOp) = .ok km ∧
      km.pressedKeys ⟨system K, refs, S⟩ = .ok m.state.board.outputs ∧ m.state.Balanced := by
  obtain ⟨km, h1, h2, _⟩ := C36_refines (n := n) hp calls hev ht hm
  exact ⟨km, h1, h2, (macro_board hp calls hm h4).balanced⟩

/-- Some ticks. -/
def waits (k : Nat) : List Board.Call := List.replicate k .tick

theorem ticksIn_waits (k : Nat) : ticksIn (waits k) = k := by
  induction k with
  | zero => rfl
  | succ k ih => simp only [waits, List.replicate_succ, ticksIn] at ih ⊢; rw [ih]

theorem eventsIn_waits (k : Nat) : eventsIn (waits k) = [] := by
  induction k with
  | zero => rfl
  | succ k ih => simp only [waits, List.replicate_succ, eventsIn] at ih ⊢; rw [ih]

theorem ticksIn_append (xs ys : List Board.Call) : ticksIn (xs ++ ys) = ticksIn xs + ticksIn ys := by
  induction xs with
  | nil => simp [ticksIn]
  | cons x xs ih => cases x <;> simp only [List.cons_append, ticksIn, ih] <;> omega

theorem eventsIn_append (xs ys : List Board.Call) : eventsIn (xs ++ ys) = eventsIn xs ++ eventsIn ys := by
  induction xs with
  | nil => rfl
  | cons x xs ih => cases x <;> simp [eventsIn, ih]

/-- C34: when key events stop, everything asked for is typed, and every letter released, after at most so
many ticks; it is then what was asked for, in order. -/
theorem C34_finishes {c : Config} (hp : Typing K refs c layout) (hms : 0 < ms) (calls : List Board.Call) (hev : ∀ e ∈ eventsIn calls, isPhysical e = true)
    {m : Macro.Queued} (hm : (Macro.Queued.new c.layerCount).run S c.automation.duration ms layout (modeOf c.sticky) calls = some m)
    (hq : m.queue = []) {k : Nat} (hk : 3 * (1 + c.automation.duration / ms) * (m.state.strings.flatten.length + m.state.timers.length) ≤ k)
    (ht : (ticksIn calls + k) * ms + c.automation.duration < u32Size) {m' : Macro.Queued}
    (hm' : m.run S c.automation.duration ms layout (modeOf c.sticky) (waits k) = some m') :
    ∃ km, run ⟨system K, refs, S⟩ (n + 8) (fresh c ms) ((calls ++ waits k).map toOp) = .ok km ∧
      km.pressedKeys ⟨system K, refs, S⟩ = .ok m'.state.board.outputs ∧
      m'.state.typed = m.state.asked ∧ m'.state.letters = [] ∧ m'.state.strings = [] := by
  have hrun : (Macro.Queued.new c.layerCount).run S c.automation.duration ms layout (modeOf c.sticky) (calls ++ waits k) = some m' := by
    rw [Macro.run_append, hm]; exact hm'
  obtain ⟨km, h1, h2, _⟩ := C36_refines (n := n) hp (calls ++ waits k) (by rw [eventsIn_append, eventsIn_waits, List.append_nil]; exact hev)
    (by rw [ticksIn_append, ticksIn_waits]; exact ht) hrun
  have hinv := macro_inv hp calls hm
  rw [waits, Macro.run_ticks hq] at hm'
  simp only [Option.map_eq_some_iff] at hm'
  obtain ⟨s', hs', rfl⟩ := hm'
  obtain ⟨h3, h4⟩ := Macro.ticks_timers hms hinv (Nat.le_trans (Macro.State.left_le hinv) hk) hs'
  obtain ⟨h5, h6⟩ := h4.rest h3
  exact ⟨km, h1, h2, h6.trans (Macro.ticks_asked hinv hs'), by simp only [Macro.State.letters, h3, List.filterMap_nil], h5⟩

/-- C34: and the keyboard is not overloaded meanwhile, if at most fifteen things are held besides the letter
that is down, and no string was started while the last letter of the previous one was still down. -/
theorem C34_room_partial {c : Config} (hp : Typing K refs c layout) (hd : 0 < c.automation.duration) (calls : List Board.Call)
    {m : Macro.Queued} (hm : (Macro.Queued.new c.layerCount).run S c.automation.duration ms layout (modeOf c.sticky) calls = some m)
    (h4 : (Macro.Queued.new c.layerCount).AtMostFour S c.automation.duration ms layout (modeOf c.sticky) calls)
    (hsep : (Macro.Queued.new c.layerCount).Separate S c.automation.duration ms layout (modeOf c.sticky) calls)
    (hq : m.queue = []) (hroom : m.state.board.held.length ≤ 15 + m.state.letters.length) (k : Nat) :
    ∃ m', m.run S c.automation.duration ms layout (modeOf c.sticky) (waits k) = some m' := by
  obtain ⟨s', hs'⟩ := Macro.ticks_ok (S := S) (ms := ms) k hd (macro_inv hp calls hm) (macro_seq hp hd calls hm hsep) (macro_board hp calls hm h4) hroom
  exact ⟨_, by rw [waits, Macro.run_ticks hq, hs']; rfl⟩

/-- C36: call by call, the letter that is down stays; or the next letter asked for is pressed, when none is
down; or the letter that is down is released. So the host, which may look after every call, sees each letter
pressed and released before the next one is pressed. Provided that no string is started while the last
letter of the previous one is still down (`C36_overlap_refuted`), and that an instruction takes longer than a tick
(`C36_unseen_refuted`). -/
theorem C36_each_letter_partial {c : Config} (hp : Typing K refs c layout) (hd : ms < c.automation.duration) (calls : List Board.Call) (call : Board.Call)
    (hev : ∀ e ∈ eventsIn (calls ++ [call]), isPhysical e = true)
    (ht : ticksIn (calls ++ [call]) * ms + c.automation.duration < u32Size) {m m' : Macro.Queued}
    (hm : (Macro.Queued.new c.layerCount).run S c.automation.duration ms layout (modeOf c.sticky) calls = some m)
    (hm' : m.step S c.automation.duration ms layout (modeOf c.sticky) call = some m')
    (hsep : (Macro.Queued.new c.layerCount).Separate S c.automation.duration ms layout (modeOf c.sticky) (calls ++ [call])) :
    (∃ km, run ⟨system K, refs, S⟩ (n + 8) (fresh c ms) ((calls ++ [call]).map toOp) = .ok km ∧
      km.pressedKeys ⟨system K, refs, S⟩ = .ok m'.state.board.outputs) ∧
    ((m'.state.letters = m.state.letters ∧ m'.state.typed = m.state.typed) ∨
     (∃ k, m.state.letters = [] ∧ m'.state.letters = [k] ∧ m'.state.typed = m.state.typed ++ [k]) ∨
     (∃ k, m.state.letters = [k] ∧ m'.state.letters = [] ∧ m'.state.typed = m.state.typed)) := by
  have hrun : (Macro.Queued.new c.layerCount).run S c.automation.duration ms layout (modeOf c.sticky) (calls ++ [call]) = some m' := by
    rw [Macro.run_append, hm]
    simp only [Option.bind_some, Macro.Queued.run, hm']
  obtain ⟨km, h1, h2, _⟩ := C36_refines (n := n) hp (calls ++ [call]) hev ht hrun
  obtain ⟨hs1, hs2⟩ := Macro.always_append hsep hm
  exact ⟨⟨km, h1, h2⟩, Macro.State.Seq.step (layout_strings hp.layoutEq) hd (macro_inv hp calls hm) (macro_seq hp (by omega) calls hm hs1)
    (fun e he => by simpa using hs2.1 e he) hm'⟩

/-- Calls without events do what their ticks do. -/
theorem run_quiet {d : Nat} {mode : Virt.Mode} {m : Macro.Queued} : ∀ (w : List Board.Call), eventsIn w = [] →
    m.run S d ms layout mode w = m.run S d ms layout mode (waits (ticksIn w))
  | [], _ => rfl
  | .report :: w, h => by
    simp only [Macro.Queued.run, Macro.Queued.step, Option.bind_some, ticksIn]
    exact run_quiet w h
  | .tick :: w, h => by
    simp only [ticksIn, waits, List.replicate_succ, Macro.Queued.run, Macro.Queued.step]
    cases m.tick S d ms layout mode with
    | none => rfl
    | some m => exact run_quiet (m := m) w h
  | .input _ :: w, h => by cases h

/-- C36: a string typed when nothing else is being typed: with a duration of `d` ms and ticks of `ms` ms,
each letter is shown from the tick it is pressed for `D = ⌈d / ms⌉` ticks, after what is already held, and
nothing is shown for one tick after it. Reports may be taken at any time meanwhile (`w`: ticks and reports). -/
theorem C36_alone {c : Config} (hp : Typing K refs c layout) (hms : 0 < ms) (hd : 0 < c.automation.duration) (calls : List Board.Call)
    (hev : ∀ e ∈ eventsIn calls, isPhysical e = true)
    {m : Macro.Queued} (hm : (Macro.Queued.new c.layerCount).run S c.automation.duration ms layout (modeOf c.sticky) calls = some m)
    (hq : m.queue = []) (hdl : m.delay = 0) (hti : m.state.timers = []) (hmod : m.state.board.modified = none) {i : Nat} {kos : List KeyOutput}
    (hasks : m.state.asks layout i = some kos) (hroom : m.state.board.held.length ≤ 14) (hfresh : ∀ k ∈ kos, Slot.virt k ∉ m.state.board.held)
    (w : List Board.Call) (hw : eventsIn w = []) (ht : (ticksIn calls + ticksIn w) * ms + c.automation.duration < u32Size) :
    ∃ km, run ⟨system K, refs, S⟩ (n + 8) (fresh c ms) ((calls ++ Board.Call.input (.press i) :: w).map toOp) = .ok km ∧
      km.pressedKeys ⟨system K, refs, S⟩ =
        .ok (m.state.board.outputs ++ shown ((c.automation.duration + ms - 1) / ms) kos (ticksIn w)) := by
  have hst := ((macro_inv hp calls hm).rest hti).1
  obtain ⟨hnh, p, hpi, hpk⟩ := Macro.asks_some hasks
  have hne := layout_strings hp.layoutEq p (List.mem_of_getElem? hpi) _ _ hpk
  cases kos with
  | nil => exact absurd rfl hne
  | cons k ks =>
    obtain ⟨s0, hs0⟩ : ∃ s0 : Macro.State, s0 = { m.state with
      board := { m.state.board with held := m.state.board.held ++ [Slot.key i (.string (k :: ks)) false] }
      strings := [k :: ks], asked := m.state.asked ++ (k :: ks) } := ⟨_, rfl⟩
    have h0len : s0.board.held.length < 16 := by
      rw [hs0]
      simp only [List.length_append, List.length_cons, List.length_nil]
      omega
    obtain ⟨s1, h1⟩ := Macro.letter_ok (S := S) (d := c.automation.duration) (s := s0) (i := i) (by rw [hs0]; simp [hti]) h0len
    have hst0 : s0.strings = (k :: ks) :: [] := by rw [hs0]
    have ht0 : s0.timers = [] := by rw [hs0]; exact hti
    obtain ⟨e1, _, e3, e4, _, _, _, _⟩ := Macro.letter_some hst0 h1
    obtain ⟨tail, f1, f2, f3, _⟩ := Macro.letter_seq hst0 hd (by rw [ht0]; simp) (by rw [ht0]; simp) h1
    have hin : m.step S c.automation.duration ms layout (modeOf c.sticky) (.input (.press i)) = some ⟨s1, [], 1⟩ := by
      simp only [Macro.Queued.step, Macro.Queued.input, hq, List.length_nil, hdl, if_true, List.nil_append]
      rw [if_neg (by omega)]
      simp only [Macro.Queued.take, Macro.State.input, Macro.State.press, hasks]
      rw [if_pos (by omega)]
      rw [if_neg (by rw [hmod]; simp)]
      unfold Macro.State.request
      rw [if_pos hst]
      rw [hs0] at h1
      exact congrArg (Option.map fun s => (⟨s, [], 1⟩ : Macro.Queued)) h1
    have hD1 : c.automation.duration ≤ (c.automation.duration + ms - 1) / ms * ms := by
      have := Nat.lt_div_mul_add (a := c.automation.duration + ms - 1) hms
      omega
    have hD2 : ∀ t, t < (c.automation.duration + ms - 1) / ms → t * ms < c.automation.duration := by
      intro t ht
      have h1 : t + 1 ≤ (c.automation.duration + ms - 1) / ms := ht
      rw [Nat.le_div_iff_mul_le hms, Nat.add_mul] at h1
      omega
    obtain ⟨s', g1, g2⟩ := Macro.ticks_alone (S := S) hD1 hD2 hd (h0 := s0.board.held) h0len (i := i) ks (k := k) (s := s1) (by
        intro x hx
        have := hfresh x hx
        rw [hs0]
        simp only [List.mem_append, List.mem_cons, List.not_mem_nil, or_false, not_or, reduceCtorEq, not_false_eq_true, and_true]
        exact this) (by rw [e1]) e3 (by
        rw [f1, ht0, e4]
        simp only [List.nil_append]
        by_cases hk : ks = []
        · rw [f3 hk rfl, if_pos hk]
        · rw [f2 hk, if_neg hk]) (ticksIn w)
    have hrun : (Macro.Queued.new c.layerCount).run S c.automation.duration ms layout (modeOf c.sticky) (calls ++ Board.Call.input (.press i) :: w) =
        some ⟨s', [], 1 - ticksIn w⟩ := by
      rw [Macro.run_append, hm]
      simp only [Option.bind_some, Macro.Queued.run, hin]
      rw [run_quiet w hw, waits, Macro.run_ticks rfl]
      simp only
      rw [g1]
      rfl
    obtain ⟨km, q1, q2, _⟩ := C36_refines (n := n) hp _ (by
      rw [eventsIn_append]
      simp only [eventsIn, hw, List.mem_append, List.mem_cons, List.not_mem_nil, or_false]
      rintro e (he | rfl)
      · exact hev e he
      · rfl) (by rw [ticksIn_append]; simp only [ticksIn]; exact ht) hrun
    refine ⟨km, q1, ?_⟩
    rw [q2]
    simp only
    rw [g2, e1, hs0]
    simp only [Virt.State.outputs, List.filterMap_append, List.filterMap_cons, List.filterMap_nil, Slot.output, List.append_nil]
    congr 2
    generalize shown _ _ _ = l
    induction l with
    | nil => rfl
    | cons x l ih => simp only [List.map_cons, List.filterMap_cons, Slot.output, ih]

end

/-! ## Examples -/

namespace MDemo

/-- A plain key, the strings `20 20 21` and `22`, and a sticky modifier. -/
def K : Keys where
  sticky := [0x02]
  automation := [⟨⟨0, 3⟩, ⟨0, 0⟩, ⟨0, 0⟩⟩, ⟨⟨3, 1⟩, ⟨0, 0⟩, ⟨0, 0⟩⟩]

def refs : List Ref := [.keyboard (.keyCode 4), .automation 0, .automation 1, .sticky 0]

/-- A key code, as an output. -/
def kc (b : Byte) : KeyOutput := KeyOutput.fromKeyCode b

/-- An instruction takes `d` milliseconds. -/
def config (d : Nat) : Config where
  automation := ⟨[.tap (kc 20), .tap (kc 20), .tap (kc 21), .tap (kc 22)], d⟩
  chorded := ⟨200, [], none, 0, 0⟩
  sticky := .onModifiedKeyRelease
  tapDance := ⟨200⟩
  tapHold := ⟨200, .ignore, none⟩
  layerCount := 0
  maxChords := 0

def layout : List Pos := [.act (.cell (.out (kc 4))), .act (.string [kc 20, kc 20, kc 21]), .act (.string [kc 22]), .act (.sticky 2)]

theorem typing (d : Nat) : Typing K refs (config d) layout where
  layoutEq := rfl
  fits := by
    intro e he
    simp only [layout, List.mem_cons, List.not_mem_nil, or_false] at he
    rcases he with rfl | rfl | rfl | rfl <;> simp [Pos.Fits, Virt.Act.Fits, Board.Cell.Fits]
  size := by decide
  chords := .inl rfl
  instructions := by simp [config]

/-- The pressed outputs after some calls, with ticks of `ms` milliseconds. -/
def out (d ms : Nat) (calls : List Board.Call) : Res (List KeyOutput) :=
  run ⟨system K, refs, Search.std⟩ 8 (fresh (config d) ms) (calls.map toOp) >>= fun km => km.pressedKeys ⟨system K, refs, Search.std⟩

/-- Pressing and releasing a key, 3 ticks apart. -/
def tap (i : Nat) : List Board.Call := [.input (.press i)] ++ waits 3 ++ [.input (.release i)]

/-- The default duration of 10 ms and ticks of 1 ms: after a plain key, held, the letters
of the first string, one after the other. -/
example (t : Nat) (ht : t < 1000000) : ∃ km, run ⟨system K, refs, Search.std⟩ 8 (fresh (config 10) 1)
      ((([.input (.press 0), .tick] : List Board.Call) ++ Board.Call.input (.press 1) :: waits t).map toOp) = .ok km ∧
    km.pressedKeys ⟨system K, refs, Search.std⟩ = .ok (kc 4 :: shown 10 [kc 20, kc 20, kc 21] t) := by
  have h := C36_alone (S := Search.std) (n := 0) (ms := 1) (typing 10) (by omega) (by decide) [.input (.press 0), .tick] (by decide)
    (m := ⟨{ Macro.State.new 0 with board := { Virt.State.new 0 with held := [.key 0 (.cell (.out (kc 4))) false] }, clock := 1 }, [], 0⟩) rfl rfl rfl rfl rfl
    (i := 1) (kos := [kc 20, kc 20, kc 21]) rfl (by decide) (by decide) (waits t) (eventsIn_waits t)
    (by rw [ticksIn_waits]; simp only [ticksIn, config, u32Size]; omega)
  obtain ⟨km, h1, h2⟩ := h
  rw [ticksIn_waits] at h2
  rw [show ((config 10).automation.duration + 1 - 1) / 1 = 10 from by simp [config]] at h2
  exact ⟨km, h1, h2⟩

/-- `shown`: ten ticks of the first letter, a tick of nothing, ten ticks of the second, and so on. -/
example : (List.range 34).map (shown 10 [kc 20, kc 20, kc 21]) =
    List.replicate 10 [kc 20] ++ [[]] ++ List.replicate 10 [kc 20] ++ [[]] ++ List.replicate 10 [kc 21] ++ [[]] ++ [[]] := by decide +kernel

/-- The provisos of the theorems, for two strings asked for one after the other, the second one while the
first is being typed. -/
example : (Macro.Queued.new 0).Separate Search.std 10 1 layout .onRelease (tap 1 ++ waits 2 ++ tap 2 ++ waits 50 ++ tap 2) ∧
    (Macro.Queued.new 0).AtMostFour Search.std 10 1 layout .onRelease (tap 1 ++ waits 2 ++ tap 2 ++ waits 50 ++ tap 2) :=
  ⟨Macro.always_of_alwaysB (by decide +kernel), Macro.always_of_alwaysB (by decide +kernel)⟩

/-- After that, everything was typed. -/
example : ((Macro.Queued.new 0).run Search.std 10 1 layout .onRelease (tap 1 ++ waits 2 ++ tap 2 ++ waits 50)).map
      (fun m => (m.state.typed, m.state.timers)) = some ([kc 20, kc 20, kc 21, kc 22], []) := by decide +kernel

end MDemo

/-- C36, full claim, is false: tapping a key that types one letter twice within 10 ms presses the letter
again before it is released, and the host sees it once only. -/
theorem C36_overlap_refuted :
    (List.range 20).map (fun t => MDemo.out 10 1 (MDemo.tap 2 ++ waits 3 ++ [.input (.press 2)] ++ waits t)) =
      List.replicate 4 (.ok [MDemo.kc 22, MDemo.kc 22]) ++ List.replicate 6 (.ok [MDemo.kc 22]) ++ List.replicate 10 (.ok []) := by decide +kernel

/-- C36, full claim, is false if an instruction takes no longer than a tick: the string `20 20 21` asked for
by an event that waited in the queue: the host never sees its first letter. -/
theorem C36_unseen_refuted :
    (List.range 10).map (fun t => MDemo.out 10 10 ([.input (.press 0), .input (.press 1)] ++ waits t)) =
      ([[4], [4], [4], [4, 20], [4], [4, 21], [4], [4], [4], [4]].map fun l => .ok (l.map MDemo.kc)) := by decide +kernel

end Verif.Comp
