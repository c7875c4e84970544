import Verif.Lemmas.RticUnstuck
import Verif.Props.Embassy
import Verif.Props.Nothing
import Verif.Props.Unstuck

/-! # C96: when all switches are open, before long the last report of the Rust firmwares is the one of no key -/

namespace Verif.Rtic

open Comp
open _root_.Verif.Spec (evDown opDown keyDown)

section

variable {K : Keys} {refs : List Ref} {S : Search} {c : Comp.Config} {n rows cols : Nat} {indices : List (List (Option Nat))}

/-- The keymap at power on. -/
abbrev km0 (c : Comp.Config) : KM Ref Comp.Ev Comp.Ctx PKS KS := KM.new (Ctx.fromConfig c)

/-- Nothing but the shift of caps-word. -/
def Idle (s : CCore) : Prop :=
  s.success = true ∧ s.made.getLast? = some s.backend.out ∧
    (s.backend.out = [] ∨ (s.backend.km.ctx.capsWord.active = true ∧ s.backend.out = [CapsWord.shift]))

theorem core_rest {count : Nat} (hl : Laid rows cols count indices) (hN : Down.NoNesting K refs) (hk : K.sticky = [])
    (hm : (∀ i ∈ c.automation.instructions, Nothing.waits i = true) ∨
      ((∀ i ∈ c.automation.instructions, Nothing.taps i = true) ∧ ∀ r ∈ refs, Decided K r))
    {xs : List (Levels × Bool)} (hxs : ∀ x ∈ xs, Size rows cols x.1) {k : Nat} (hle : 27 ≤ k) {s : CCore}
    (hrun : (Core.new rows cols (km0 c)).run (cfg K refs S) n indices (xs ++ opens rows cols k) = .ok s)
    (hh : Hears (cfg K refs S) n indices (Core.new rows cols (km0 c)) (xs ++ opens rows cols k)) (hs : s.backend.km.hasScheduledEvents = false) : Idle s := by
  obtain ⟨j, rfl⟩ : ∃ j, k = 26 + j := ⟨k - 26, by omega⟩
  have hrun' := hrun
  rw [opens, ← List.replicate_append_replicate, ← List.append_assoc] at hrun'
  obtain ⟨s0, h0, _⟩ := coreRun_split hrun'
  have hcalm := Calm.all h0 j hrun
  obtain ⟨ops, said⟩ := Said.run_all (Said.new _) hh hrun
  have hup : ∀ i, keyDown i ops = false := by
    intro i
    rw [said.down i, List.nil_append, List.map_append, List.map_replicate]
    exact all_up hl (by omega) (fun m hm => by obtain ⟨y, hy, rfl⟩ := List.mem_map.1 hm; exact hxs y hy) c i
  obtain ⟨outs, m, p1, p2, p3⟩ := hcalm.report (by omega)
  refine ⟨hcalm.success, p3, ?_⟩
  rw [p2]
  rcases Nothing.C93_nothing_pressed_partial hN hk hm said.keys said.heard said.run hs hup with h | ⟨h1, h2⟩
  · rw [p1] at h; cases Res.ok.inj h; exact .inl (by simp)
  · rw [p1] at h2; cases Res.ok.inj h2
    cases m with
    | zero => exact .inl rfl
    | succ m => exact .inr ⟨h1, by simp⟩

theorem core_rests (hK : Acyclic K) (hw : ∀ k ∈ K.automation, k.whilePressed.length = 0) (xs : List (Levels × Bool)) :
    ∃ N, 27 ≤ N ∧ ∀ k, N ≤ k → ∀ s : CCore, (Core.new rows cols (km0 c)).run (cfg K refs S) n indices (xs ++ opens rows cols k) = .ok s →
      Hears (cfg K refs S) n indices (Core.new rows cols (km0 c)) (xs ++ opens rows cols k) → s.backend.km.hasScheduledEvents = false := by
  by_cases hex : ∃ s0, (Core.new rows cols (km0 c)).run (cfg K refs S) n indices (xs ++ opens rows cols 26) = .ok s0
  · obtain ⟨s0, h0⟩ := hex
    have hT := Resting.tires (M := Resting.delays (Ctx.fromConfig c)) hK hw refs S
    refine ⟨26 + (1 + (Rest.pot (Resting.wt (Resting.delays (Ctx.fromConfig c))) (Resting.bound K (Resting.delays (Ctx.fromConfig c)) + 1) K.nested.length (rank K)
      (Resting.cpot (Resting.delays (Ctx.fromConfig c))) s0.backend.km + s0.backend.km.delay)), by omega, fun k hle s hrun hh => ?_⟩
    obtain ⟨j, rfl⟩ : ∃ j, k = 26 + j := ⟨k - 26, by omega⟩
    have hcalm := Calm.all h0 j hrun
    rw [opens, ← List.replicate_append_replicate, ← List.append_assoc] at hh
    obtain ⟨ops0, said⟩ := Said.run_all (Said.new _) (hears_append h0 hh) h0
    have hi : Rest.Inv (Resting.Good (Resting.delays (Ctx.fromConfig c))) s0.backend.km := (Rest.inv_api hT).of_reachable
      ⟨⟨by simp [KM.new], (qinv_api NonPhys (emits_nonPhys K refs S)).of_reachable (QInv.new _ _) ⟨0, [], rfl⟩⟩,
        Resting.good_delays _, fun p hp => by simp [KM.new] at hp⟩ ⟨n, ops0, said.run⟩
    have hms : s0.backend.km.msPerTick = 1 := Unstuck.ms_run (QInv.new _ _) said.plain said.run
    exact hcalm.paced.rests hT hi (by rw [hms]; decide) (by omega)
  · refine ⟨27, Nat.le_refl _, fun k hle s hrun _ => absurd ?_ hex⟩
    obtain ⟨j, rfl⟩ : ∃ j, k = 26 + j := ⟨k - 26, by omega⟩
    rw [opens, ← List.replicate_append_replicate, ← List.append_assoc] at hrun
    obtain ⟨s0, h0, _⟩ := coreRun_split hrun
    exact ⟨s0, h0⟩

/-! ## RTIC -/

/-- The switches move in whatever way, in `ms`, and the driver answers whatever it likes. Then, in `still`, all the switches are open and the keyboard reports
do not wait. No key event is dropped. -/
structure Released {Rep : Type} (make : List Byte → Rep) (K : Keys) (refs : List Ref) (S : Search) (n : Nat) (c : Comp.Config) (rows cols : Nat)
    (indices : List (List (Option Nat))) (ms still : List Milli) (s : CBoard) : Prop where
  levels : ∀ m ∈ ms, Size rows cols m.raw
  rest : ∀ m ∈ still, m.raw = allOpen rows cols ∧ m.keyboard ≠ .wouldBlock
  runs : (fresh rows cols c).run (cfg K refs S) n indices (ms ++ still) = .ok s
  lawful : Lawful (cfg K refs S) n indices make (fresh rows cols c) (ms ++ still)
  hears : Hears (cfg K refs S) n indices (fresh rows cols c).toCore ((ms ++ still).map Milli.turn)

/-- The last keyboard report the driver has accepted is the one of no key, or of left shift (0xE1; the code 0 is that of no key) while caps-word is active; and if it takes consumer reports, the last
one of these is of no key. -/
def Free {Rep : Type} (make : List Byte → Rep) (still : List Milli) (s : CBoard) : Prop :=
  (s.sent.getLast?.map make = some (make []) ∨ (s.backend.km.ctx.capsWord.active = true ∧ s.sent.getLast?.map make = some (make [0xE1, 0]))) ∧
    ((∃ m, still.getLast? = some m ∧ m.consumer ≠ .wouldBlock) → s.consumers.getLastD [0, 0, 0, 0] = [0, 0, 0, 0])

theorem still_opens {still : List Milli} (h : ∀ m ∈ still, m.raw = allOpen rows cols ∧ m.keyboard ≠ .wouldBlock) :
    still.map Milli.turn = opens rows cols still.length := by
  rw [List.eq_replicate_iff]
  refine ⟨by simp, fun x hx => ?_⟩
  obtain ⟨m, hm, rfl⟩ := List.mem_map.1 hx
  obtain ⟨h1, h2⟩ := h m hm
  rw [Milli.turn, h1]
  simp [h2]

theorem free {Rep : Type} [DecidableEq Rep] {make : List Byte → Rep} {ms still : List Milli} {s : CBoard}
    (h : Released make K refs S n c rows cols indices ms still s) (hi : Idle s.toCore) : Free make still s := by
  obtain ⟨e5, e4, e3⟩ := hi
  have hcodes : ∃ codes, KeymapOutput.pressedKeyCodes s.backend.out = .ok codes ∧ KeymapOutput.pressedConsumerCodes s.backend.out = .ok [] ∧
      (codes = [] ∨ (s.backend.km.ctx.capsWord.active = true ∧ codes = [0xE1, 0])) := by
    rcases e3 with e3 | ⟨e2, e3⟩
    · rw [e3]; exact ⟨[], rfl, rfl, .inl rfl⟩
    · rw [e3]; exact ⟨[0xE1, 0], by decide, by decide, .inr ⟨e2, rfl⟩⟩
  obtain ⟨codes, c1, c2, c3⟩ := hcodes
  have hlast : s.sent.getLast?.map make = some (make codes) := by
    obtain ⟨rs, i1, i2, i3⟩ := (InOrder.new make rows cols _).run h.lawful h.runs
    rw [e5, if_pos rfl] at i3
    have hlast : (s.made.map KeymapOutput.pressedKeyCodes).getLast? = some (.ok codes) := by
      rw [List.getLast?_map, e4, ← c1]; rfl
    rw [i1, List.getLast?_map] at hlast
    cases hg : rs.getLast? with
    | none => rw [hg] at hlast; cases hlast
    | some codes' =>
      rw [hg, Option.map_some, Option.some.injEq] at hlast
      cases hlast
      rw [← List.getLast?_map, ← once_getLast, i3, once_getLast, List.getLast?_map, hg]; rfl
  refine ⟨?_, ?_⟩
  · rw [hlast]
    rcases c3 with rfl | ⟨a, rfl⟩
    · exact .inl rfl
    · exact .inr ⟨a, rfl⟩
  · rintro ⟨m, hm, hc⟩
    have hsplit : still = still.dropLast ++ [m] := by
      obtain ⟨ys, hy⟩ := List.getLast?_eq_some_iff.1 hm
      rw [hy]; simp
    have hr := h.runs
    rw [hsplit, ← List.append_assoc] at hr
    obtain ⟨cs, d1, d2⟩ := C87_current hr hc
    rw [c2] at d1
    cases d1
    exact d2

/-- C96, the RTIC firmwares, at rest. Also with tap-hold keys, tap-dances, chords, layers and macros: when all the switches have been open for 27 ms and the keymap
has nothing scheduled, the last keyboard report the driver has accepted is the one of no key, or of the left shift key while caps-word is active; and the last
consumer report is the one of no key, if the driver takes consumer reports.

In keymaps without sticky modifiers, in which undecided keys do not become undecided keys, and in which macros tap keys and wait (or only wait, if some key
may have to wait for a decision): for the others the claim is false of the keymap already, see C93. -/
theorem C96_rtic_at_rest_partial {Rep : Type} [DecidableEq Rep] {make : List Byte → Rep} {count : Nat} (hl : Laid rows cols count indices)
    (hN : Down.NoNesting K refs) (hk : K.sticky = [])
    (hm : (∀ i ∈ c.automation.instructions, Nothing.waits i = true) ∨
      ((∀ i ∈ c.automation.instructions, Nothing.taps i = true) ∧ ∀ r ∈ refs, Decided K r))
    {ms still : List Milli} {s : CBoard} (hle : 27 ≤ still.length) (h : Released make K refs S n c rows cols indices ms still s)
    (hs : s.backend.km.hasScheduledEvents = false) : Free make still s := by
  have hrun := board_run h.runs
  have hh := h.hears
  rw [List.map_append, still_opens h.rest] at hrun hh
  exact free h (core_rest hl hN hk hm (fun x hx => by obtain ⟨y, hy, rfl⟩ := List.mem_map.1 hx; exact h.levels y hy) hle hrun hh hs)

/-- C96, the RTIC firmwares. No key is stuck, also with tap-hold keys, tap-dances, chords, layers and macros: whatever was done with the keyboard before, when all
the switches are open then after some time the last keyboard report the driver has accepted is the one of no key, or of the left shift key while caps-word is active.

In keymaps without sticky modifiers, in which no key refers back to itself, undecided keys do not become undecided keys, no macro is repeated, and the macros
tap keys and wait (or only wait, if some key may have to wait for a decision). -/
theorem C96_rtic_no_stuck_keys_partial {Rep : Type} [DecidableEq Rep] {make : List Byte → Rep} {count : Nat} (hl : Laid rows cols count indices)
    (hK : Acyclic K) (hw : ∀ k ∈ K.automation, k.whilePressed.length = 0) (hN : Down.NoNesting K refs) (hk : K.sticky = [])
    (hm : (∀ i ∈ c.automation.instructions, Nothing.waits i = true) ∨
      ((∀ i ∈ c.automation.instructions, Nothing.taps i = true) ∧ ∀ r ∈ refs, Decided K r)) (ms : List Milli) :
    ∃ N, ∀ still s, N ≤ still.length → Released make K refs S n c rows cols indices ms still s → Free make still s := by
  obtain ⟨N, h27, hN'⟩ := core_rests (refs := refs) (S := S) (c := c) (n := n) (rows := rows) (cols := cols) (indices := indices) hK hw (ms.map Milli.turn)
  refine ⟨N, fun still s hle h => C96_rtic_at_rest_partial hl hN hk hm (by omega) h ?_⟩
  have hrun := board_run h.runs
  have hh := h.hears
  rw [List.map_append, still_opens h.rest] at hrun hh
  exact hN' _ hle _ hrun hh

/-! ## Embassy -/

/-- The same for the loop of the embassy firmware: in `still` all the switches are open and the keyboard reports are written. -/
structure Unheld (K : Keys) (refs : List Ref) (S : Search) (n : Nat) (c : Comp.Config) (rows cols : Nat) (indices : List (List (Option Nat)))
    (ms still : List Turn) (s : CLoop) : Prop where
  levels : ∀ m ∈ ms, Size rows cols m.raw
  rest : ∀ m ∈ still, m.raw = allOpen rows cols ∧ m.keyboard = true
  runs : (Loop.new rows cols (km0 c)).run (cfg K refs S) n indices (ms ++ still) = .ok s
  hears : Hears (cfg K refs S) n indices (Core.new rows cols (km0 c)) ((ms ++ still).map Turn.turn)

/-- The last keyboard report is the one of no key, or of left shift while caps-word is active; and those of consumer keys and of the mouse are of no key, no button
and no movement, if they are written. -/
def Blank (still : List Turn) (s : CLoop) : Prop :=
  (s.keyboards.getLast? = some [0, 0, 0, 0, 0, 0, 0, 0] ∨
      (s.backend.km.ctx.capsWord.active = true ∧ s.keyboards.getLast? = some [2, 0, 0, 0, 0, 0, 0, 0])) ∧
    ((∃ m, still.getLast? = some m ∧ m.consumer = true) → s.consumers.getLastD [0, 0] = [0, 0]) ∧
    ((∃ m, still.getLast? = some m ∧ m.mouse = true) → s.mice.getLastD [0, 0, 0, 0, 0] = [0, 0, 0, 0, 0])

theorem turns_opens {still : List Turn} (h : ∀ m ∈ still, m.raw = allOpen rows cols ∧ m.keyboard = true) :
    still.map Turn.turn = opens rows cols still.length := by
  rw [List.eq_replicate_iff]
  refine ⟨by simp, fun x hx => ?_⟩
  obtain ⟨m, hm, rfl⟩ := List.mem_map.1 hx
  obtain ⟨h1, h2⟩ := h m hm
  rw [Turn.turn, h1, h2]

theorem blank {ms still : List Turn} {s : CLoop} (h : Unheld K refs S n c rows cols indices ms still s) (hi : Idle s.toCore) : Blank still s := by
  obtain ⟨e5, e4, e3⟩ := hi
  have hk : s.keyboards.getLast? = some (KeymapOutput.asBootReport s.backend.out) := by
    rw [C90_keyboard h.runs, e5, if_pos rfl, List.getLast?_map, e4]; rfl
  have hcons : firstConsumer s.backend.out = 0 := by
    rcases e3 with e3 | ⟨_, e3⟩ <;> rw [e3] <;> decide
  have hmouse : s.backend.out.pressedMouseOutput = noMouse := by
    rcases e3 with e3 | ⟨_, e3⟩ <;> rw [e3] <;> decide
  have hsplit : ∀ m, still.getLast? = some m → (Loop.new rows cols (km0 c)).run (cfg K refs S) n indices ((ms ++ still.dropLast) ++ [m]) = .ok s := by
    intro m hm
    obtain ⟨ys, hy⟩ := List.getLast?_eq_some_iff.1 hm
    rw [List.append_assoc, show still.dropLast ++ [m] = still by rw [hy]; simp]
    exact h.runs
  refine ⟨?_, ?_, ?_⟩
  · rw [hk]
    rcases e3 with e3 | ⟨e2, e3⟩
    · rw [e3]; exact .inl (by decide)
    · rw [e3]; exact .inr ⟨e2, by decide⟩
  · rintro ⟨m, hm, hc⟩
    have := C90_consumer_current (hsplit m hm) hc
    rw [hcons] at this
    exact this
  · rintro ⟨m, hm, hc⟩
    have := C90_mouse_current (hsplit m hm) hc
    rw [hmouse] at this
    exact this

/-- C96, the embassy firmware, at rest: when all the switches have been open for 27 turns and the keymap has nothing scheduled, the last reports are of no key. -/
theorem C96_embassy_at_rest_partial {count : Nat} (hl : Laid rows cols count indices) (hN : Down.NoNesting K refs) (hk : K.sticky = [])
    (hm : (∀ i ∈ c.automation.instructions, Nothing.waits i = true) ∨
      ((∀ i ∈ c.automation.instructions, Nothing.taps i = true) ∧ ∀ r ∈ refs, Decided K r))
    {ms still : List Turn} {s : CLoop} (hle : 27 ≤ still.length) (h : Unheld K refs S n c rows cols indices ms still s)
    (hs : s.backend.km.hasScheduledEvents = false) : Blank still s := by
  have hrun := loop_run h.runs
  have hh := h.hears
  rw [List.map_append, turns_opens h.rest] at hrun hh
  exact blank h (core_rest hl hN hk hm (fun x hx => by obtain ⟨y, hy, rfl⟩ := List.mem_map.1 hx; exact h.levels y hy) hle hrun hh hs)

/-- C96, the embassy firmware: no key is stuck. Whatever was done with the keyboard before, when all the switches are open then after some time the last reports are
of no key. -/
theorem C96_embassy_no_stuck_keys_partial {count : Nat} (hl : Laid rows cols count indices)
    (hK : Acyclic K) (hw : ∀ k ∈ K.automation, k.whilePressed.length = 0) (hN : Down.NoNesting K refs) (hk : K.sticky = [])
    (hm : (∀ i ∈ c.automation.instructions, Nothing.waits i = true) ∨
      ((∀ i ∈ c.automation.instructions, Nothing.taps i = true) ∧ ∀ r ∈ refs, Decided K r)) (ms : List Turn) :
    ∃ N, ∀ still s, N ≤ still.length → Unheld K refs S n c rows cols indices ms still s → Blank still s := by
  obtain ⟨N, h27, hN'⟩ := core_rests (refs := refs) (S := S) (c := c) (n := n) (rows := rows) (cols := cols) (indices := indices) hK hw (ms.map Turn.turn)
  refine ⟨N, fun still s hle h => C96_embassy_at_rest_partial hl hN hk hm (by omega) h ?_⟩
  have hrun := loop_run h.runs
  have hh := h.hears
  rw [List.map_append, turns_opens h.rest] at hrun hh
  exact hN' _ hle _ hrun hh

end

/-! ## A keyboard with caps-word and a tap-hold key -/

namespace UnstuckDemo

open Nothing.Demo (K refs)
open _root_.Verif.Unstuck.Demo (quick acyclic)

abbrev C : Cfg Ref Comp.Ev Comp.Ctx PKS KS := cfg K refs Search.std

/-- Two rows of two keys: caps-word, A, the tap-hold key (a digit, or left shift), enter. -/
def indices : List (List (Option Nat)) := [[some 0, some 1], [some 2, some 3]]

theorem laid : Laid 2 2 4 indices where
  size := ⟨rfl, by decide⟩
  within := by
    intro r c i h
    rcases r with _ | _ | r <;> rcases c with _ | _ | c <;> simp [KeyAt, entry, indices] at h <;> omega
  different := by
    intro r c r' c' i h h'
    rcases r with _ | _ | r <;> rcases c with _ | _ | c <;> simp [KeyAt, entry, indices] at h <;>
      rcases r' with _ | _ | r' <;> rcases c' with _ | _ | c' <;> simp [KeyAt, entry, indices] at h' <;> first | (exact ⟨rfl, rfl⟩) | omega

/-- For `k` ms. -/
def during (k : Nat) (a b c d : Bool) : List (Levels × Bool) := List.replicate k ([[a, b], [c, d]], true)

/-- The caps-word key is tapped; then the tap-hold key is, while A bounces. -/
def typing : List (Levels × Bool) :=
  during 30 true false false false ++ during 30 false false false false ++ during 26 false false true false ++ during 3 false true true false

/-- The tap-hold key is held; writing fails for a while; and A is typed. -/
def holding : List (Levels × Bool) :=
  during 60 false false true false ++ List.replicate 8 ([[false, false], [true, false]], false) ++ during 30 false true true false

/-- A run of the RTIC firmware, if no key event is dropped. -/
def hearsRun (s : CBoard) : List Milli → Option CBoard
  | [] => .some s
  | m :: ms =>
    if heard C 30 s.backend.km (((s.deb.events m.raw).2.filterMap (keyEvent indices)).map .input) then
      match s.step C 30 indices m with
      | .ok s => hearsRun s ms
      | _ => none
    else none

theorem hearsRun_sound : ∀ (ms : List Milli) {s s' : CBoard}, hearsRun s ms = .some s' →
    s.run C 30 indices ms = .ok s' ∧ Hears C 30 indices s.toCore (ms.map Milli.turn)
  | [], s, s', h => by cases h; exact ⟨rfl, trivial⟩
  | m :: ms, s, s', h => by
    rw [hearsRun] at h
    split at h
    · next hr =>
      split at h
      · next s1 hs =>
        obtain ⟨h1, h2⟩ := hearsRun_sound ms h
        exact ⟨Res.bind_eq_ok.2 ⟨s1, hs, h1⟩, hr, fun s' h' => by rw [board_turn hs] at h'; cases h'; exact h2⟩
      · cases h
    · cases h

/-- A run of the embassy firmware, if no key event is dropped. -/
def hearsLoop (s : CLoop) : List Turn → Option CLoop
  | [] => .some s
  | m :: ms =>
    if heard C 30 s.backend.km (((s.deb.events m.raw).2.filterMap (keyEvent indices)).map .input) then
      match s.step C 30 indices m with
      | .ok s => hearsLoop s ms
      | _ => none
    else none

theorem hearsLoop_sound : ∀ (ms : List Turn) {s s' : CLoop}, hearsLoop s ms = .some s' →
    s.run C 30 indices ms = .ok s' ∧ Hears C 30 indices s.toCore (ms.map Turn.turn)
  | [], s, s', h => by cases h; exact ⟨rfl, trivial⟩
  | m :: ms, s, s', h => by
    rw [hearsLoop] at h
    split at h
    · next hr =>
      split at h
      · next s1 hs =>
        obtain ⟨h1, h2⟩ := hearsLoop_sound ms h
        exact ⟨Res.bind_eq_ok.2 ⟨s1, hs, h1⟩, hr, fun s' h' => by rw [loop_turn hs] at h'; cases h'; exact h2⟩
      · cases h
    · cases h

def milli (x : Levels × Bool) : Milli := ⟨x.1, if x.2 then .ok else .wouldBlock, .ok, .ok⟩

def turn (x : Levels × Bool) : Turn := ⟨x.1, x.2, true, true⟩

def rtic (xs : List (Levels × Bool)) : Option CBoard := hearsRun (fresh 2 2 quick) ((xs ++ opens 2 2 100).map milli)

def embassy (xs : List (Levels × Bool)) : Option CLoop := hearsLoop (Loop.new 2 2 (km0 quick)) ((xs ++ opens 2 2 100).map turn)

set_option maxRecDepth 100000 in
theorem rtic_typing : ((rtic typing).map fun s => (s.backend.km.hasScheduledEvents, s.backend.km.ctx.capsWord.active, once s.sent)) =
    some (false, true, [[], [0xE1, 0], [0xE1, 0, 0x1E], [0xE1, 0]]) := by decide +kernel

set_option maxRecDepth 100000 in
theorem rtic_holding : ((rtic holding).map fun s => (s.backend.km.hasScheduledEvents, s.backend.km.ctx.capsWord.active, once s.sent)) =
    some (false, false, [[], [0xE1, 0], [0xE1, 0, 4], [0xE1, 0], []]) := by decide +kernel

set_option maxRecDepth 100000 in
theorem embassy_holding : ((embassy holding).map fun s => (s.backend.km.hasScheduledEvents, once s.keyboards)) =
    some (false, [[0, 0, 0, 0, 0, 0, 0, 0], [2, 0, 0, 0, 0, 0, 0, 0], [2, 0, 4, 0, 0, 0, 0, 0], [2, 0, 0, 0, 0, 0, 0, 0], [0, 0, 0, 0, 0, 0, 0, 0]]) := by
  decide +kernel

theorem released {xs : List (Levels × Bool)} {s : CBoard} (hx : ∀ x ∈ xs, Size 2 2 x.1) (h : rtic xs = some s) :
    Released (id : List Byte → List Byte) K refs Search.std 30 quick 2 2 indices (xs.map milli) ((opens 2 2 100).map milli) s := by
  rw [rtic, List.map_append] at h
  obtain ⟨h1, h2⟩ := hearsRun_sound _ h
  refine ⟨fun m hm => ?_, fun m hm => ?_, h1, Demo.lawful_of _ _ _ fun m hm => ?_, h2⟩
  · obtain ⟨x, hx', rfl⟩ := List.mem_map.1 hm; exact hx x hx'
  · obtain ⟨x, hx', rfl⟩ := List.mem_map.1 hm
    rw [List.eq_of_mem_replicate hx']
    exact ⟨rfl, by simp [milli]⟩
  · rw [← List.map_append] at hm
    obtain ⟨x, _, rfl⟩ := List.mem_map.1 hm
    show (if x.2 = true then Answer.ok else .wouldBlock) ≠ _
    split <;> simp

instance (rows cols : Nat) (m : Levels) : Decidable (Size rows cols m) := inferInstanceAs (Decidable (_ ∧ _))

/-- The hypotheses are met by an RTIC keyboard on which the tap-hold key is held, reports have to wait and A is typed: in the end nothing is pressed. -/
example : ∃ s, Released (id : List Byte → List Byte) K refs Search.std 30 quick 2 2 indices (holding.map milli) ((opens 2 2 100).map milli) s ∧
    s.backend.km.hasScheduledEvents = false ∧ s.sent.getLast? = some [] ∧ once s.sent = [[], [0xE1, 0], [0xE1, 0, 4], [0xE1, 0], []] := by
  obtain ⟨s, h1, h2⟩ := Option.map_eq_some_iff.1 rtic_holding
  simp only [Prod.mk.injEq] at h2
  have hr := released (by decide +kernel) h1
  refine ⟨s, hr, h2.1, ?_, h2.2.2⟩
  rcases (C96_rtic_at_rest_partial laid (Nothing.Demo.noNesting _) rfl (.inl (by decide)) (by simp) hr h2.1).1 with h | ⟨h, _⟩
  · simpa using h
  · rw [h2.2.1] at h; cases h

/-- And by one on which caps-word is active in the end. -/
example : ∃ s, Released (id : List Byte → List Byte) K refs Search.std 30 quick 2 2 indices (typing.map milli) ((opens 2 2 100).map milli) s ∧
    s.backend.km.hasScheduledEvents = false ∧ s.backend.km.ctx.capsWord.active = true ∧ once s.sent = [[], [0xE1, 0], [0xE1, 0, 0x1E], [0xE1, 0]] := by
  obtain ⟨s, h1, h2⟩ := Option.map_eq_some_iff.1 rtic_typing
  simp only [Prod.mk.injEq] at h2
  exact ⟨s, released (by decide +kernel) h1, h2.1, h2.2.1, h2.2.2⟩

/-- The keymap meets the hypotheses of `C96_rtic_no_stuck_keys_partial`. -/
example (ms : List Milli) : ∃ N, ∀ still s, N ≤ still.length →
    Released (id : List Byte → List Byte) K refs Search.std 30 quick 2 2 indices ms still s → Free id still s :=
  C96_rtic_no_stuck_keys_partial laid acyclic (by decide) (Nothing.Demo.noNesting refs) rfl (.inl (by decide)) ms

/-- And an embassy keyboard those of `C96_embassy_at_rest_partial`. -/
example : ∃ s, Unheld K refs Search.std 30 quick 2 2 indices (holding.map turn) ((opens 2 2 100).map turn) s ∧ s.backend.km.hasScheduledEvents = false ∧
    s.mice.getLastD [0, 0, 0, 0, 0] = [0, 0, 0, 0, 0] ∧
    once s.keyboards = [[0, 0, 0, 0, 0, 0, 0, 0], [2, 0, 0, 0, 0, 0, 0, 0], [2, 0, 4, 0, 0, 0, 0, 0], [2, 0, 0, 0, 0, 0, 0, 0], [0, 0, 0, 0, 0, 0, 0, 0]] := by
  obtain ⟨s, h1, h2⟩ := Option.map_eq_some_iff.1 embassy_holding
  simp only [Prod.mk.injEq] at h2
  rw [embassy, List.map_append] at h1
  obtain ⟨h3, h4⟩ := hearsLoop_sound _ h1
  have hu : Unheld K refs Search.std 30 quick 2 2 indices (holding.map turn) ((opens 2 2 100).map turn) s := by
    refine ⟨fun m hm => ?_, fun m hm => ?_, h3, h4⟩
    · obtain ⟨x, hx', rfl⟩ := List.mem_map.1 hm
      exact (show ∀ x ∈ holding, Size 2 2 x.1 by decide +kernel) x hx'
    · obtain ⟨x, hx', rfl⟩ := List.mem_map.1 hm
      rw [List.eq_of_mem_replicate hx']
      exact ⟨rfl, rfl⟩
  exact ⟨s, hu, h2.1, (C96_embassy_at_rest_partial laid (Nothing.Demo.noNesting _) rfl (.inl (by decide)) (by simp) hu h2.1).2.2 ⟨turn (allOpen 2 2, true),
    by rw [List.map_replicate, List.replicate_succ' (n := 99)]; simp, rfl⟩, h2.2⟩

end UnstuckDemo

/-! ## Where C96 is false -/

namespace StuckDemo

open Nothing.Demo (mixedRefs config)

/-- A macro key, for a macro that types six letters, and a tap-hold key. -/
def K : Keys := { Nothing.Demo.K with automation := [⟨⟨0, 6⟩, ⟨0, 0⟩, ⟨0, 0⟩⟩] }

def six : List Automation.Instruction := (List.range 6).map fun i => .tap (KeyOutput.fromKeyCode (BitVec.ofNat 8 (4 + i)))

abbrev C : Cfg Ref Comp.Ev Comp.Ctx PKS KS := cfg K mixedRefs Search.std

def indices : List (List (Option Nat)) := [[some 0, some 1]]

def during (k : Nat) (a b : Bool) : List Milli := List.replicate k ⟨[[a, b]], .ok, .ok, .ok⟩

/-- The macro key is held for 90 ms, and the tap-hold key for 30 ms meanwhile. -/
def pressing : List Milli := during 30 true false ++ during 30 true true ++ during 30 true false

/-- A run, if no key event is dropped. -/
def hearsRun (s : CBoard) : List Milli → Option CBoard
  | [] => .some s
  | m :: ms =>
    if heard C 30 s.backend.km (((s.deb.events m.raw).2.filterMap (keyEvent indices)).map .input) then
      match s.step C 30 indices m with
      | .ok s => hearsRun s ms
      | _ => none
    else none

theorem hearsRun_sound : ∀ (ms : List Milli) {s s' : CBoard}, hearsRun s ms = .some s' →
    s.run C 30 indices ms = .ok s' ∧ Hears C 30 indices s.toCore (ms.map Milli.turn)
  | [], s, s', h => by cases h; exact ⟨rfl, trivial⟩
  | m :: ms, s, s', h => by
    rw [hearsRun] at h
    split at h
    · next hr =>
      split at h
      · next s1 hs =>
        obtain ⟨h1, h2⟩ := hearsRun_sound ms h
        exact ⟨Res.bind_eq_ok.2 ⟨s1, hs, h1⟩, hr, fun s' h' => by rw [board_turn hs] at h'; cases h'; exact h2⟩
      · cases h
    · cases h

theorem noNesting (refs : List Ref) : Down.NoNesting K refs := by
  intro r _ r' _
  refine .inr fun c hc r2 hl => ?_
  have : ∃ u, c = .keyboard u := by
    cases hc with
    | @tap i k h => rcases i with _ | i <;> simp [K, Nothing.Demo.K] at h; subst h; exact ⟨_, rfl⟩
    | @hold i k h => rcases i with _ | i <;> simp [K, Nothing.Demo.K] at h; subst h; exact ⟨_, rfl⟩
    | @base i k h => simp [K, Nothing.Demo.K] at h
    | @layer i k r h hm => simp [K, Nothing.Demo.K] at h
    | @tapDance i k r h hm => simp [K, Nothing.Demo.K] at h
    | @chord i k id r h hm => simp [K, Nothing.Demo.K] at h
    | @passthrough i k h => simp [K, Nothing.Demo.K] at h
    | @aux i r h => simp [K, Nothing.Demo.K] at h
  obtain ⟨u, rfl⟩ := this
  cases hl with
  | refl => rfl
  | step c _ => cases c

set_option maxRecDepth 100000 in
theorem pressing_eq : ((hearsRun (fresh 1 2 (config six)) (pressing ++ during 300 false false)).map
    fun s => (s.backend.km.hasScheduledEvents, s.backend.km.ctx.capsWord.active, once s.sent, s.sent.getLast?)) =
    some (false, false, [[], [4], [], [5], [], [6], [6, 0x1E], [0x1E], [0x1E, 7], [0x1E], [0x1E, 8], [0x1E], [0x1E, 9], [9]], some [9]) := by decide +kernel

end StuckDemo

/-- C96 is false of a macro next to a tap-hold key. The default durations; the macro types six letters. The tap-hold key is tapped while it does. 300 ms after all the
switches have been opened, with all reports accepted and nothing scheduled, the last report that the driver has accepted is that of the sixth letter. The hypotheses of
C96_rtic_at_rest_partial hold except that some key may have to wait for a decision and that macros do more than wait. -/
theorem C96_stuck_refuted : StuckDemo.K.sticky = [] ∧ Down.NoNesting StuckDemo.K Nothing.Demo.mixedRefs ∧ (∀ i ∈ StuckDemo.six, Nothing.taps i = true) ∧
    Laid 1 2 2 StuckDemo.indices ∧
    ∃ s, Released (id : List Byte → List Byte) StuckDemo.K Nothing.Demo.mixedRefs Search.std 30 (Nothing.Demo.config StuckDemo.six) 1 2 StuckDemo.indices
        StuckDemo.pressing (StuckDemo.during 300 false false) s ∧
      s.backend.km.hasScheduledEvents = false ∧ s.backend.km.ctx.capsWord.active = false ∧ s.sent.getLast? = some [9] := by
  obtain ⟨s, h1, h2⟩ := Option.map_eq_some_iff.1 StuckDemo.pressing_eq
  obtain ⟨h3, h4⟩ := StuckDemo.hearsRun_sound _ h1
  simp only [Prod.mk.injEq] at h2
  refine ⟨rfl, ?_, by decide, ⟨⟨rfl, by decide⟩, ?_, ?_⟩, s, ⟨fun m hm => ?_, fun m hm => ?_, h3, Demo.lawful_of _ _ _ fun m hm => ?_, h4⟩, h2.1, h2.2.1, ?_⟩
  · exact StuckDemo.noNesting _
  · intro r c i h
    rcases r with _ | r <;> rcases c with _ | _ | c <;> simp [KeyAt, entry, StuckDemo.indices] at h <;> omega
  · intro r c r' c' i h h'
    rcases r with _ | r <;> rcases c with _ | _ | c <;> simp [KeyAt, entry, StuckDemo.indices] at h <;>
      rcases r' with _ | r' <;> rcases c' with _ | _ | c' <;> simp [KeyAt, entry, StuckDemo.indices] at h' <;> first | (exact ⟨rfl, rfl⟩) | omega
  · simp only [StuckDemo.pressing, StuckDemo.during, List.mem_append] at hm
    rcases hm with (hm | hm) | hm <;> rw [List.eq_of_mem_replicate hm] <;> exact ⟨rfl, by decide⟩
  · rw [List.eq_of_mem_replicate hm]
    exact ⟨rfl, by decide⟩
  · simp only [StuckDemo.pressing, StuckDemo.during, List.mem_append] at hm
    rcases hm with ((hm | hm) | hm) | hm <;> rw [List.eq_of_mem_replicate hm] <;> decide
  · exact h2.2.2.2


end Verif.Rtic
