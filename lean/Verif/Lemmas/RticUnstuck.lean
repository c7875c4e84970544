import Verif.Spec.RticUnstuck
import Verif.Lemmas.Unstuck
import Verif.Props.RticKeyboard

/-!
# The calls that the Rust firmwares make, and what becomes of a keyboard left alone
-/

namespace Verif.Rtic

open Verif.Board (Entry)
open _root_.Verif.Spec (evDown opDown keyDown)
open Unstuck (run_app heard_app register_run down_inputs ms_run report_take evDown_changed)

section

variable {R Ev Ctx PKS KS : Type} {C : Cfg R Ev Ctx PKS KS} {n : Nat} {indices : List (List (Option Nat))} {rows cols : Nat}

/-- The calls made so far. -/
structure Said (C : Cfg R Ev Ctx PKS KS) (n : Nat) (indices : List (List (Option Nat))) (rows cols : Nat) (km0 : KM R Ev Ctx PKS KS) (raws : List Levels)
    (s : Core R Ev Ctx PKS KS) (ops : List Op) : Prop where
  run : Verif.run C n km0 ops = .ok s.backend.km
  heard : Verif.heard C n km0 ops = true
  keys : ∀ op ∈ ops, Nothing.keysOnly op = true
  plain : ∀ op ∈ ops, (∃ e, op = .input e) ∨ op = .tick ∨ op = .report
  down : ∀ i, keyDown i ops = (moves rows cols indices raws).foldl (evDown i) false
  deb : s.deb = debounced rows cols raws

theorem Said.new (km0 : KM R Ev Ctx PKS KS) : Said C n indices rows cols km0 [] (Core.new rows cols km0) [] :=
  ⟨rfl, rfl, (fun _ h => by cases h), (fun _ h => by cases h), fun _ => rfl, rfl⟩

/-- A turn: the events, and a tick with a report if the last report has been taken. -/
theorem turn_ok {s s' : Core R Ev Ctx PKS KS} {x : Levels × Bool} (hr : s.turn C n indices x = .ok s') :
    ∃ km, Device.register C n s.backend.km ((s.deb.events x.1).2.filterMap (keyEvent indices)) = .ok km ∧ s'.deb = (s.deb.events x.1).1 ∧ s'.success = x.2 ∧
      ((s.success = true ∧ ∃ km1 os, tick C n km = .ok km1 ∧ km1.pressedKeys C = .ok os ∧ s'.backend.km = { km1 with rep := (km1.rep.report os).1 } ∧
          s'.backend.out = (km1.rep.report os).2 ∧ s'.made.getLast? = some s'.backend.out) ∨
        (s.success = false ∧ s'.backend.km = km)) := by
  obtain ⟨s1, g1, g2⟩ := Res.bind_eq_ok.1 hr
  cases g2
  obtain ⟨deb, es, b, k1, k2, k3⟩ := coreScan_ok g1
  have hev := keyboardEvents_ok k1
  rw [hev]
  refine ⟨b.km, feed_register k2, ?_⟩
  rcases k3 with ⟨a1, b', ch, a2, rfl⟩ | ⟨a1, rfl⟩
  · obtain ⟨km1, os, b1, b2, b3, b4⟩ := backendTick_ok a2
    exact ⟨rfl, rfl, .inl ⟨a1, km1, os, b1, b2, b3, b4, by simp⟩⟩
  · exact ⟨rfl, rfl, .inr ⟨a1, rfl⟩⟩

theorem Said.turn {km0 : KM R Ev Ctx PKS KS} {raws : List Levels} {s s' : Core R Ev Ctx PKS KS} {ops : List Op} (h : Said C n indices rows cols km0 raws s ops)
    {x : Levels × Bool} (hh : Verif.heard C n s.backend.km (((s.deb.events x.1).2.filterMap (keyEvent indices)).map .input) = true)
    (hr : s.turn C n indices x = .ok s') : ∃ ops', Said C n indices rows cols km0 (raws ++ [x.1]) s' ops' := by
  obtain ⟨km, h1, h2, _, h3⟩ := turn_ok hr
  have hrun := register_run h1
  generalize he : (s.deb.events x.1).2.filterMap (keyEvent indices) = evs at *
  have hops : ∀ op ∈ evs.map Op.input, Nothing.keysOnly op = true ∧ ((∃ e, op = .input e) ∨ op = .tick ∨ op = .report) := by
    intro op ho
    obtain ⟨e, he', rfl⟩ := List.mem_map.1 ho
    rw [← he] at he'
    obtain ⟨y, _, hy⟩ := List.mem_filterMap.1 he'
    have := keyEvent_physical hy
    refine ⟨?_, .inl ⟨e, rfl⟩⟩
    cases e <;> first | rfl | cases this
  have hd : ∀ i, keyDown i (ops ++ evs.map .input) = (moves rows cols indices (raws ++ [x.1])).foldl (evDown i) false := by
    intro i
    rw [keyDown, List.foldl_append, down_inputs, moves_snoc, List.foldl_append, ← h.deb, he, ← h.down i]; rfl
  have base : Said C n indices rows cols km0 (raws ++ [x.1]) { s' with backend := { s'.backend with km := km } } (ops ++ evs.map .input) := by
    refine ⟨by rw [run_app, h.run]; exact hrun, heard_app h.heard h.run hh, fun op ho => ?_, fun op ho => ?_, hd, ?_⟩
    · rcases List.mem_append.1 ho with ho | ho
      · exact h.keys op ho
      · exact (hops op ho).1
    · rcases List.mem_append.1 ho with ho | ho
      · exact h.plain op ho
      · exact (hops op ho).2
    · show s'.deb = _
      rw [h2, h.deb, debounced_snoc]
  rcases h3 with ⟨_, km1, outs, a1, a2, a3, _⟩ | ⟨_, h3⟩
  · have hrun2 : Verif.run C n km [.tick, .report] = .ok s'.backend.km := by
      simp only [Verif.run, Verif.step, a1, Res.ok_bind, reportOutput, a2, a3]
      rfl
    refine ⟨(ops ++ evs.map .input) ++ [.tick, .report], by rw [run_app, base.run]; exact hrun2, heard_app base.heard base.run ?_, fun op ho => ?_,
      fun op ho => ?_, fun i => ?_, base.deb⟩
    · simp only [Verif.heard, Bool.true_and, Verif.step, a1, reportOutput, a2]
      rfl
    · rcases List.mem_append.1 ho with ho | ho
      · exact base.keys op ho
      · simp at ho; rcases ho with rfl | rfl <;> rfl
    · rcases List.mem_append.1 ho with ho | ho
      · exact base.plain op ho
      · simp at ho; exact .inr ho
    · rw [← base.down i, keyDown, List.foldl_append]; rfl
  · exact ⟨_, by rw [h3]; exact base.run, base.heard, base.keys, base.plain, base.down, base.deb⟩

theorem Said.run_all {km0 : KM R Ev Ctx PKS KS} {xs : List (Levels × Bool)} : ∀ {raws : List Levels} {s s' : Core R Ev Ctx PKS KS} {ops : List Op},
    Said C n indices rows cols km0 raws s ops → Hears C n indices s xs → s.run C n indices xs = .ok s' →
    ∃ ops', Said C n indices rows cols km0 (raws ++ xs.map (·.1)) s' ops' := by
  induction xs with
  | nil => intro raws s s' ops h _ hr; cases hr; exact ⟨ops, by simpa using h⟩
  | cons x xs ih =>
    intro raws s s' ops h hh hr
    obtain ⟨s1, g1, g2⟩ := Res.bind_eq_ok.1 hr
    obtain ⟨ops1, h1⟩ := h.turn hh.1 g1
    obtain ⟨ops2, h2⟩ := ih h1 (hh.2 s1 g1) g2
    exact ⟨ops2, by simpa using h2⟩

theorem hears_append {s s1 : Core R Ev Ctx PKS KS} {xs ys : List (Levels × Bool)} (h1 : s.run C n indices xs = .ok s1) (h : Hears C n indices s (xs ++ ys)) :
    Hears C n indices s xs := by
  induction xs generalizing s with
  | nil => exact trivial
  | cons x xs ih =>
    obtain ⟨s2, g1, g2⟩ := Res.bind_eq_ok.1 h1
    exact ⟨h.1, fun s3 hd => by rw [g1] at hd; cases hd; exact ih g2 (h.2 s2 g1)⟩

/-! ## Which keys are down -/

/-- A board that has all the keys. -/
def board (count : Nat) : List Entry := List.replicate count (.cell (.out CapsWord.shift))

theorem holds_down {count : Nat} (hl : Laid rows cols count indices) (i : Nat) : ∀ (es : List Backend.Event) (b : Board.State),
    ((es.filterMap (keyEvent indices)).foldl (Board.State.input (board count)) b).holds i = (es.filterMap (keyEvent indices)).foldl (evDown i) (b.holds i)
  | [], b => rfl
  | e :: es, b => by
    rw [List.filterMap_cons]
    cases he : keyEvent indices e with
    | none => exact holds_down hl i es b
    | some ie =>
      simp only [List.foldl_cons]
      rw [holds_down hl i es]
      congr 1
      obtain ⟨j, v, hj, rfl⟩ : ∃ j v, j < (board count).length ∧ ie = Firmware.stateChanged j v := by
        cases e with
        | press r c =>
          obtain ⟨j, h1, rfl⟩ := Option.map_eq_some_iff.1 he
          exact ⟨j, true, by rw [board, List.length_replicate]; exact hl.within r c j (Option.join_eq_some_iff.1 h1), rfl⟩
        | release r c =>
          obtain ⟨j, h1, rfl⟩ := Option.map_eq_some_iff.1 he
          exact ⟨j, false, by rw [board, List.length_replicate]; exact hl.within r c j (Option.join_eq_some_iff.1 h1), rfl⟩
      rw [Keyboard.input_holds b hj v i, evDown_changed]

/-- When all switches have been read open 26 times in a row, no key is down. -/
theorem all_up {count : Nat} (hl : Laid rows cols count indices) {raws : List Levels} {k : Nat} (hk : 26 ≤ k) (hs : ∀ m ∈ raws, Size rows cols m)
    (c : Comp.Config) (i : Nat) : (moves rows cols indices (raws ++ List.replicate k (allOpen rows cols))).foldl (evDown i) false = false := by
  have hl' : Laid rows cols (board count).length indices := by rw [board, List.length_replicate]; exact hl
  have hh := held_moves hl' c _ (raws ++ List.replicate k (allOpen rows cols)) rfl (fun x hx => by
    rcases List.mem_append.1 hx with hx | hx
    · exact hs x hx
    · rw [List.eq_of_mem_replicate hx]; exact allOpen_size rows cols) i
  have hcur := (scans_still (rows := rows) (cols := cols) (raws := raws) (raw := allOpen rows cols) (k := k) hk).1
  rw [debounced, C88_debounced] at hcur
  rw [hcur, moves, holds_down hl] at hh
  rw [moves]
  cases hv : ((scans ⟨allOpen rows cols, allOpen rows cols, 0⟩ (raws ++ List.replicate k (allOpen rows cols))).2.flatten.filterMap (keyEvent indices)).foldl
      (evDown i) false with
  | false => rfl
  | true =>
    obtain ⟨r, c, _, hx⟩ := hh.1 hv
    exact absurd hx (allOpen_entry _ _ _ _)

/-! ## All switches open -/

/-- The switches have been read open `26 + j` times. -/
structure Calm (C : Cfg R Ev Ctx PKS KS) (n : Nat) (km : KM R Ev Ctx PKS KS) (j : Nat) (s : Core R Ev Ctx PKS KS) : Prop where
  success : s.success = true
  paced : Rest.Paced C n j km s.backend.km
  report : 1 ≤ j → ∃ outs m, s.backend.km.pressedKeys C = .ok outs ∧ s.backend.out = outs.take m ∧ s.made.getLast? = some s.backend.out

theorem coreRun_deb {xs : List (Levels × Bool)} : ∀ {raws : List Levels} {s s' : Core R Ev Ctx PKS KS}, s.deb = debounced rows cols raws →
    s.run C n indices xs = .ok s' → s'.deb = debounced rows cols (raws ++ xs.map (·.1)) := by
  induction xs with
  | nil => intro raws s s' h hr; cases hr; simpa using h
  | cons x xs ih =>
    intro raws s s' h hr
    obtain ⟨s1, g1, g2⟩ := Res.bind_eq_ok.1 hr
    obtain ⟨_, _, h2, _⟩ := turn_ok g1
    have := ih (raws := raws ++ [x.1]) (by rw [h2, h, debounced_snoc]) g2
    simpa using this

/-- `k` turns in which all the switches are open and the keyboard reports are taken. -/
abbrev opens (rows cols k : Nat) : List (Levels × Bool) := List.replicate k (allOpen rows cols, true)

theorem opens_succ (k : Nat) : opens rows cols (k + 1) = opens rows cols k ++ [(allOpen rows cols, true)] := List.replicate_succ'

theorem Calm.all {km0 : KM R Ev Ctx PKS KS} {xs : List (Levels × Bool)} {s0 : Core R Ev Ctx PKS KS}
    (h0 : (Core.new rows cols km0).run C n indices (xs ++ opens rows cols 26) = .ok s0) : ∀ (j : Nat) {s : Core R Ev Ctx PKS KS},
    (Core.new rows cols km0).run C n indices (xs ++ opens rows cols (26 + j)) = .ok s → Calm C n s0.backend.km j s := by
  intro j
  induction j with
  | zero =>
    intro s hrun
    rw [Nat.add_zero] at hrun
    rw [h0] at hrun
    cases hrun
    rw [opens_succ 25, ← List.append_assoc] at h0
    obtain ⟨s1, _, g2⟩ := coreRun_split h0
    obtain ⟨s2, g3, g4⟩ := Res.bind_eq_ok.1 g2
    cases g4
    obtain ⟨_, _, _, h3, _⟩ := turn_ok g3
    exact ⟨h3, .done _, fun h => by omega⟩
  | succ j ih =>
    intro s hrun
    rw [← Nat.add_assoc, opens_succ, ← List.append_assoc] at hrun
    obtain ⟨s1, g1, g2⟩ := coreRun_split hrun
    obtain ⟨s2, g3, g4⟩ := Res.bind_eq_ok.1 g2
    cases g4
    have hc := ih g1
    have hd := coreRun_deb (rows := rows) (cols := cols) (raws := []) (by rfl) g1
    rw [List.nil_append, List.map_append, List.map_replicate] at hd
    have hq := (scans_still (rows := rows) (cols := cols) (raws := xs.map (·.1)) (raw := allOpen rows cols) (k := 26 + j) (by omega)).2
    rw [← hd] at hq
    obtain ⟨km, h1, h2, h3, h4⟩ := turn_ok g3
    rw [hq] at h1
    cases h1
    rcases h4 with ⟨_, km1, os, b1, b2, b3, b4, b5⟩ | ⟨h4, _⟩
    · refine ⟨h3, ?_, fun _ => ?_⟩
      · rw [b3]; exact hc.paced.snoc _ b1
      · obtain ⟨m, hm⟩ := report_take km1.rep os
        exact ⟨os, m, by rw [b3]; exact b2, by rw [b4, hm], b5⟩
    · rw [hc.success] at h4; cases h4

end

end Verif.Rtic
