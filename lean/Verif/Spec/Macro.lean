import Verif.Spec.Virt
import Verif.Scheduler

/-!
# A keyboard that types strings

The keyboard of `Spec/Virt.lean`, with keys that type a string of outputs. What is still to be typed waits
in a queue of at most eight strings. Typing a letter presses it, and sets two timers: one releases it, the
other types the next letter. When a timer is due is decided by the clock; a tick handles at most one timer
that is due. Among timers due at the same time, where a new one goes is decided by the search `S` of the
standard library.
-/

namespace Verif.Macro

open Virt (Pos Act Mode Slot)

/-- What a timer does: it releases a letter; it types the next letter; it notes that a string is finished.
The last two name the key the string belongs to. -/
inductive Timer where
  | up (ko : KeyOutput)
  | next (i : Nat)
  | done (i : Nat)
  deriving DecidableEq

/-- The state: the keyboard; what is still to be typed; the timers, the next one first; the clock; and, for
the record, what was typed and what was asked for. -/
structure State where
  board : Virt.State
  strings : List (List KeyOutput)
  timers : List (Nat × Timer)
  clock : Nat
  typed : List KeyOutput
  asked : List KeyOutput
  deriving DecidableEq

/-- A timer is set, `d` milliseconds ahead; `none`: there are too many. -/
def State.after (S : Search) (d : Nat) (x : Timer) (s : State) : Option State :=
  if s.timers.length < 32 then
    let k := S.pos (s.timers.map Prod.fst) (s.clock + d)
    some { s with timers := s.timers.take k ++ (s.clock + d, x) :: s.timers.drop k }
  else none

/-- The letter is pressed; `none`: too much is held. -/
def State.down (k : KeyOutput) (s : State) : Option State :=
  if s.board.held.length < 16 then some { s with
    board := { s.board with held := s.board.held ++ [Slot.virt k] }
    typed := s.typed ++ [k] }
  else none

/-- The next letter is typed: the letter is pressed, a timer will release it, and another will type what
follows. -/
def State.letter (S : Search) (d : Nat) (i : Nat) (s : State) : Option State :=
  match s.strings with
  | (k :: ks) :: rest =>
    ({ s with strings := if ks = [] then rest else ks :: rest }.after S d (.up k)).bind fun s =>
    (s.after S d (if ks = [] then .done i else .next i)).bind fun s =>
    (if ks = [] ∧ rest ≠ [] then s.after S d (.next i) else some s).bind fun s =>
    s.down k
  | _ => some s

/-- Key `i` asks for a string: it is typed at once if nothing is queued; else it is queued, unless eight
strings are. -/
def State.request (S : Search) (d : Nat) (i : Nat) (kos : List KeyOutput) (s : State) : Option State :=
  if s.strings = [] then { s with strings := [kos], asked := s.asked ++ kos }.letter S d i
  else if s.strings.length < 8 then some { s with strings := s.strings ++ [kos], asked := s.asked ++ kos }
  else some s

/-- What a new press of key `i` types, if it is a key that types a string. -/
def State.asks (layout : List Pos) (s : State) (i : Nat) : Option (List KeyOutput) :=
  if s.board.holds i then none
  else match layout[i]? with
    | some p => match p.pick s.board with
      | .string kos => some kos
      | _ => none
    | none => none

/-- Key `i` is pressed; `none`: it is not a key of the keymap, or too much is held. -/
def State.press (S : Search) (d : Nat) (layout : List Pos) (mode : Mode) (s : State) (i : Nat) : Option State :=
  match s.asks layout i with
  | some kos =>
    if s.board.held.length < 16 then
      let b := if mode = .onNextPress ∧ s.board.modified.isSome then s.board.unstick else s.board
      { s with board := { b with held := b.held ++ [Slot.key i (.string kos) false] } }.request S d i kos
    else none
  | none => (s.board.press layout mode i).map fun b => { s with board := b }

/-- A key event. -/
def State.input (S : Search) (d : Nat) (layout : List Pos) (mode : Mode) (s : State) : InputEvent → Option State
  | .press i => s.press S d layout mode i
  | .release i => some { s with board := s.board.release i }
  | _ => none

/-- A timer is due. -/
def State.fire (S : Search) (d : Nat) (s : State) : Timer → Option State
  | .up ko => some { s with board := { s.board with held := s.board.held.erase (.virt ko) } }
  | .next i => s.letter S d i
  | .done _ => some s

/-- The clock advances by `ms`; one timer that is due is handled. -/
def State.advance (S : Search) (d ms : Nat) (s : State) : Option State :=
  match s.timers with
  | (t, x) :: rest =>
    if t ≤ s.clock + ms then { s with clock := s.clock + ms, timers := rest }.fire S d x
    else some { s with clock := s.clock + ms }
  | [] => some { s with clock := s.clock + ms }

/-- With the queue of input events, as in `Spec/Virt.lean`. -/
structure Queued where
  state : State
  queue : List InputEvent
  /-- ticks until the next event may be taken -/
  delay : Nat
  deriving DecidableEq

/-- Taking the oldest event. -/
def Queued.take (S : Search) (d : Nat) (layout : List Pos) (mode : Mode) (s : State) : List InputEvent → Option Queued
  | [] => none
  | e :: q => (s.input S d layout mode e).map fun s => ⟨s, q, 1⟩

/-- An input event arrives. -/
def Queued.input (S : Search) (d : Nat) (layout : List Pos) (mode : Mode) (m : Queued) (e : InputEvent) : Option Queued :=
  if m.queue.length ≥ 31 then some m
  else if m.delay = 0 then Queued.take S d layout mode m.state (m.queue ++ [e])
  else some { m with queue := m.queue ++ [e] }

/-- A tick takes an event, if one may be taken. -/
def Queued.taken (S : Search) (d : Nat) (layout : List Pos) (mode : Mode) (m : Queued) : Option Queued :=
  if m.delay = 0 ∧ m.queue ≠ [] then Queued.take S d layout mode m.state m.queue else some m

/-- A tick of `ms` milliseconds. -/
def Queued.tick (S : Search) (d ms : Nat) (layout : List Pos) (mode : Mode) (m : Queued) : Option Queued :=
  (m.taken S d layout mode).bind fun m => (m.state.advance S d ms).map fun s => ⟨s, m.queue, m.delay - 1⟩

/-- A call. -/
def Queued.step (S : Search) (d ms : Nat) (layout : List Pos) (mode : Mode) (m : Queued) : Board.Call → Option Queued
  | .input e => m.input S d layout mode e
  | .tick => m.tick S d ms layout mode
  | .report => some m

/-- The keyboard after some calls; `none`: overloaded. -/
def Queued.run (S : Search) (d ms : Nat) (layout : List Pos) (mode : Mode) (m : Queued) : List Board.Call → Option Queued
  | [] => some m
  | c :: cs => (m.step S d ms layout mode c).bind fun m => m.run S d ms layout mode cs

/-- At the beginning, with `n` layers. -/
def State.new (n : Nat) : State := ⟨Virt.State.new n, [], [], 0, [], []⟩

/-- At the beginning, with `n` layers. -/
def Queued.new (n : Nat) : Queued := ⟨State.new n, [], 0⟩

/-! ## Notions for the properties -/

/-- The letter a timer will release. -/
def Timer.letter : Timer → Option KeyOutput
  | .up ko => some ko
  | _ => none

/-- The letters that are down. -/
def State.letters (s : State) : List KeyOutput := s.timers.filterMap fun p => p.2.letter

/-- The firmware holds the modifiers of the tapped sticky keys, the shift of caps word if it is on, and the
letters that are down, and nothing else. -/
def State.Balanced (s : State) : Prop :=
  ∀ ko, s.board.held.count (.virt ko) =
    (s.board.active.map Virt.modKey).count ko + ((if s.board.caps = true ∧ ko = Virt.shiftKey then 1 else 0) + s.letters.count ko)

/-- The event starts a string while the last letter of the previous one is still down. -/
def State.overlaps (layout : List Pos) (s : State) : InputEvent → Bool
  | .press i => (s.asks layout i).isSome && s.strings.isEmpty && !s.letters.isEmpty
  | _ => false

/-- The event a call takes from the queue. -/
def Queued.takes (m : Queued) : Board.Call → Option InputEvent
  | .input e => if m.queue.length ≥ 31 then none else if m.delay = 0 then (m.queue ++ [e]).head? else none
  | .tick => if m.delay = 0 then m.queue.head? else none
  | .report => none

/-- Every event is such that `P`, in the state in which it is taken. -/
def Queued.Always (S : Search) (d ms : Nat) (layout : List Pos) (mode : Mode) (P : State → InputEvent → Bool) (m : Queued) : List Board.Call → Prop
  | [] => True
  | c :: cs => (∀ e, m.takes c = some e → P m.state e = true) ∧
    ∀ m', m.step S d ms layout mode c = some m' → m'.Always S d ms layout mode P cs

/-- No string is started while the last letter of the previous one is still down. -/
def Queued.Separate (S : Search) (d ms : Nat) (layout : List Pos) (mode : Mode) (m : Queued) (calls : List Board.Call) : Prop :=
  m.Always S d ms layout mode (fun s e => !s.overlaps layout e) calls

/-- No sticky modifier is tapped while four are already waiting for the key they modify. -/
def Queued.AtMostFour (S : Search) (d ms : Nat) (layout : List Pos) (mode : Mode) (m : Queued) (calls : List Board.Call) : Prop :=
  m.Always S d ms layout mode (fun s e => !s.board.fifth e) calls

end Verif.Macro
