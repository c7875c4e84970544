import Verif.Keymap

/-!
# Report histories: src/keymap/distinct_reports.rs, src/keymap/observed_keymap.rs
-/

namespace Verif

/-- `DistinctReports`, src/keymap/distinct_reports.rs 3-6: reports of 8 bytes. -/
abbrev Reports := List (List Byte)

namespace Reports

/-- `[0; 8]`. -/
def zero : List Byte := List.replicate 8 0

/-- `DistinctReports::new`, src/keymap/distinct_reports.rs 108-111. -/
def new : Reports := [zero]

/-- `DistinctReports::update`, src/keymap/distinct_reports.rs 113-119. -/
def update (d : Reports) (r : List Byte) : Reports :=
  if d.getLast? = some r then d else d ++ [r]

/-- The inner loops of `PartialEq for DistinctReports`, src/keymap/distinct_reports.rs 63-68: from index `i`,
skip empty reports other than the last report. The first argument bounds the number of steps. -/
def skip (xs : Reports) : Nat → Nat → Nat
  | 0, i => i
  | n + 1, i => if i < xs.length - 1 ∧ xs.getD i [] = zero then skip xs n (i + 1) else i

/-- The special case of src/keymap/distinct_reports.rs 74-79 (83-89 with the roles exchanged): report `i` of
`xs` is a step on the way from the report before it to the report after it, which is report `j` of `ys`. -/
def split (xs ys : Reports) (i j : Nat) : Bool :=
  decide (i > 0) && decide (i < xs.length - 1) && decide (xs.getD (i + 1) [] = ys.getD j []) &&
    ((decide ((xs.getD (i - 1) []).getD 0 0 = (xs.getD i []).getD 0 0) && decide ((xs.getD i []).drop 2 = (xs.getD (i + 1) []).drop 2)) ||
     (decide ((xs.getD (i - 1) []).drop 2 = (xs.getD i []).drop 2) && decide ((xs.getD i []).getD 0 0 = (xs.getD (i + 1) []).getD 0 0)))

/-- The loop of `PartialEq for DistinctReports`, src/keymap/distinct_reports.rs 60-102; the first argument
bounds the number of rounds. -/
def eqLoop (xs ys : Reports) : Nat → Nat → Nat → Bool
  | 0, i, j => decide (i = xs.length) && decide (j = ys.length)
  | n + 1, i, j =>
    if i < xs.length ∧ j < ys.length then
      let i := skip xs xs.length i
      let j := skip ys ys.length j
      if xs.getD i [] ≠ ys.getD j [] then
        if split xs ys i j then eqLoop xs ys n (i + 2) (j + 1)
        else if split ys xs j i then eqLoop xs ys n (i + 1) (j + 2)
        else false
      else eqLoop xs ys n (i + 1) (j + 1)
    else decide (i = xs.length) && decide (j = ys.length)

/-- `PartialEq for DistinctReports`, src/keymap/distinct_reports.rs 46-104. The histories are not empty. -/
def eq (xs ys : Reports) : Bool :=
  if xs.getD 0 [] ≠ ys.getD 0 [] then false else eqLoop xs ys (xs.length + ys.length) 1 1

end Reports

variable {R Ev Ctx PKS KS : Type} (C : Cfg R Ev Ctx PKS KS)

/-- `ObservedKeymap`, src/keymap/observed_keymap.rs 11-16. -/
structure Observed (R Ev Ctx PKS KS : Type) where
  km : KM R Ev Ctx PKS KS
  reports : Reports

namespace Observed

/-- `ObservedKeymap::new`, src/keymap/observed_keymap.rs 28-34. -/
def new (km : KM R Ev Ctx PKS KS) : Observed R Ev Ctx PKS KS := ⟨km, Reports.new⟩

/-- `distinct_reports.update(keymap.report_output().as_hid_boot_keyboard_report())`,
src/keymap/observed_keymap.rs 44. -/
def observe (o : Observed R Ev Ctx PKS KS) : Res (Observed R Ev Ctx PKS KS) := do
  let (km, out) ← reportOutput C o.km
  .ok ⟨km, o.reports.update (KeymapOutput.asBootReport out)⟩

/-- `ObservedKeymap::tick`, src/keymap/observed_keymap.rs 52-61. -/
def tick (n : Nat) (o : Observed R Ev Ctx PKS KS) : Res (Observed R Ev Ctx PKS KS) := do
  let km ← Verif.tick C n o.km
  observe C { o with km := km }

/-- `k` ticks. -/
def ticks (n : Nat) : Nat → Observed R Ev Ctx PKS KS → Res (Observed R Ev Ctx PKS KS)
  | 0, o => .ok o
  | k + 1, o => do
    let o ← tick C n o
    ticks n k o

/-- `ObservedKeymap::handle_input`, src/keymap/observed_keymap.rs 36-50. -/
def handleInput (n : Nat) (o : Observed R Ev Ctx PKS KS) (e : InputEvent) : Res (Observed R Ev Ctx PKS KS) := do
  let km ← Verif.handleInput C n o.km e
  let o ← observe C { o with km := km }
  ticks C n inputDelay o

/-- `ObservedKeymap::tick_until_no_scheduled_events`, src/keymap/observed_keymap.rs 75-86; the loop is cut
after `k` rounds. -/
def tickUntilNoScheduledEvents (n : Nat) : Nat → Observed R Ev Ctx PKS KS → Res (Observed R Ev Ctx PKS KS)
  | 0, o => if o.km.hasScheduledEvents then .fuel else .ok o
  | k + 1, o =>
    if o.km.hasScheduledEvents then do
      let o ← tick C n o
      tickUntilNoScheduledEvents n k o
    else .ok o

end Observed
end Verif
