import Verif.Backend
import Verif.Output

/-!
# The Rust firmwares

rp2040-rtic-smart-keyboard/src/main.rs and stm32f4-rtic-smart-keyboard/src/main.rs (which differ in the hardware only), and
stm32-embassy-smart-keyboard/src/main.rs: the switches, the debouncing, the keymap, and the use of the USB driver. The USB driver is the environment: each
attempt to write a report has an answer.
-/

namespace Verif.Rtic

/-! ## Debouncing -/

/-- The levels of the switches, by row and column: `PressedKeys`, keyberon-smart-keyboard/src/input.rs 10. -/
abbrev Levels := List (List Bool)

/-- `keyberon::debounce::Debouncer<PressedKeys>`, a dependency which is not in the repository, as of keyberon 0.2: the levels it stands for, the levels that
may be the next ones, and for how many scans they have been read. -/
structure Debouncer where
  cur : Levels
  new : Levels
  since : Nat
  deriving DecidableEq

/-- The third argument of `Debouncer::new`, rp2040-rtic-smart-keyboard/src/main.rs 154, stm32f4-rtic-smart-keyboard/src/main.rs,
stm32-embassy-smart-keyboard/src/main.rs 80. -/
def bounces : Nat := 25

/-- `Debouncer::update` of keyberon: whether the levels have changed; then `new` is what they were. `since` is a `u16` and at most 26. -/
def Debouncer.update (d : Debouncer) (raw : Levels) : Debouncer × Bool :=
  if d.cur = raw then ({ d with since := 0 }, false)
  else
    let d := if d.new ≠ raw then { d with new := raw, since := 1 } else { d with since := d.since + 1 }
    if d.since > bounces then (⟨d.new, d.cur, 0⟩, true) else (d, false)

/-- `Debouncer::events` of keyberon: the changes of row `i`, from column `j` on. (Simplified: rows and columns are not cut to a `u8`.) -/
def rowEvents (i : Nat) : Nat → List Bool → List Bool → List Backend.Event
  | j, false :: os, true :: ns => .press i j :: rowEvents i (j + 1) os ns
  | j, true :: os, false :: ns => .release i j :: rowEvents i (j + 1) os ns
  | j, _ :: os, _ :: ns => rowEvents i (j + 1) os ns
  | _, _, _ => []

/-- `Debouncer::events` of keyberon: the changes, from row `i` on. -/
def changedFrom : Nat → Levels → Levels → List Backend.Event
  | i, o :: os, n :: ns => rowEvents i 0 o n ++ changedFrom (i + 1) os ns
  | _, _, _ => []

/-- `Debouncer::events` of keyberon. -/
def Debouncer.events (d : Debouncer) (raw : Levels) : Debouncer × List Backend.Event :=
  let (d, changed) := d.update raw
  (d, if changed then changedFrom 0 d.new d.cur else [])

/-- `Keyboard::events`, keyberon-smart-keyboard/src/input.rs 36-39: the events are collected into a `heapless::Vec` of 8, which panics on overflow. -/
def keyboardEvents (d : Debouncer) (raw : Levels) : Res (Debouncer × List Backend.Event) :=
  let (d, es) := d.events raw
  if es.length ≤ 8 then .ok (d, es) else .panic .capacity

/-- The levels read by one scan after the other, `Keyboard::events`, keyberon-smart-keyboard/src/input.rs 36-37, given which switches are closed at each. -/
def readings (p : Backend.Pins) : List (Nat → Nat → Bool) → List Levels
  | [] => []
  | closed :: cs =>
    let (p, raw) := p.get closed
    raw :: readings p cs

/-! ## The USB driver -/

/-- What `write_report` returns: `Ok`, `UsbHidError::Duplicate`, `WouldBlock`, or another error. -/
inductive Answer where
  | ok
  | duplicate
  | wouldBlock
  | error
  deriving DecidableEq

/-- What the hardware does in a millisecond: the levels of the switches, and the answers to the attempts to write a report. -/
structure Milli where
  raw : Levels
  keyboard : Answer
  consumer : Answer
  mouse : Answer

/-! ## Scanning, and the keymap -/

variable {R Ev Ctx PKS KS : Type}

/-- What the firmwares have in common: the debouncer, the keyboard backend and whether the last keyboard report was written,
rp2040-rtic-smart-keyboard/src/main.rs 91-98, stm32-embassy-smart-keyboard/src/main.rs 185-189; and, as a ghost trace, the outputs of the keymap. -/
structure Core (R Ev Ctx PKS KS : Type) where
  deb : Debouncer
  backend : Backend.Keyboard R Ev Ctx PKS KS
  success : Bool
  made : List KeymapOutput

/-- At power on, rp2040-rtic-smart-keyboard/src/main.rs 152-184, stm32-embassy-smart-keyboard/src/main.rs 76-80 and 185-189. -/
def Core.new (rows cols : Nat) (km : KM R Ev Ctx PKS KS) : Core R Ev Ctx PKS KS where
  deb := ⟨List.replicate rows (List.replicate cols false), List.replicate rows (List.replicate cols false), 0⟩
  backend := .new km
  success := true
  made := []

section

variable (C : Cfg R Ev Ctx PKS KS) (n : Nat) (indices : List (List (Option Nat)))

/-- The loop over the events, rp2040-rtic-smart-keyboard/src/main.rs 216-220, stm32-embassy-smart-keyboard/src/main.rs 204-208. -/
def feed (b : Backend.Keyboard R Ev Ctx PKS KS) : List Backend.Event → Res (Backend.Keyboard R Ev Ctx PKS KS)
  | [] => .ok b
  | e :: es => do
    match ← Backend.keymapIndexOf indices e with
    | some ie =>
      let b ← b.event C n ie
      feed b es
    | none => feed b es

/-- The scan and the keymap, rp2040-rtic-smart-keyboard/src/main.rs 216-223, stm32-embassy-smart-keyboard/src/main.rs 204-211. -/
def Core.scan (s : Core R Ev Ctx PKS KS) (raw : Levels) : Res (Core R Ev Ctx PKS KS) := do
  let (deb, es) ← keyboardEvents s.deb raw
  let b ← feed C n indices s.backend es
  if s.success then
    let (b, _) ← b.tick C n
    .ok { s with deb := deb, backend := b, made := s.made ++ [b.out] }
  else .ok { s with deb := deb, backend := b }

end

/-! ## RTIC -/

/-- The resources of the task `tick`, rp2040-rtic-smart-keyboard/src/main.rs 91-98; and, as ghost traces, the reports the driver has accepted: of the keyboard,
the key codes it was given. -/
structure Board (R Ev Ctx PKS KS : Type) extends Core R Ev Ctx PKS KS where
  prev : List Byte
  sent : List (List Byte)
  consumers : List (List Byte)
  mice : List MouseOutput

/-- The `MultipleConsumerReport`, rp2040-rtic-smart-keyboard/src/main.rs 243-256, stm32f4-rtic-smart-keyboard/src/main.rs 204-217: the first four codes, or
`Unassigned`. (Simplified: the codes are not converted to the names of the library.) -/
def consumerReport (codes : List Byte) : List Byte := (codes ++ List.replicate 4 0).take 4

/-- The resources at power on, rp2040-rtic-smart-keyboard/src/main.rs 152-184. -/
def Board.new (rows cols : Nat) (km : KM R Ev Ctx PKS KS) : Board R Ev Ctx PKS KS where
  toCore := .new rows cols km
  prev := List.replicate 4 0
  sent := []
  consumers := []
  mice := []

section

variable (C : Cfg R Ev Ctx PKS KS) (n : Nat) (indices : List (List (Option Nat)))

/-- The answer to the keyboard report, rp2040-rtic-smart-keyboard/src/main.rs 233-239. -/
def keyboardAnswer : Answer → Res Bool
  | .wouldBlock => .ok false
  | .error => .panic .explicit
  | .duplicate => .ok true
  | .ok => .ok true

/-- The consumer report, rp2040-rtic-smart-keyboard/src/main.rs 257-267: `previous_consumer` and what was accepted. -/
def writeConsumer (prev : List Byte) (sent : List (List Byte)) (r : List Byte) (a : Answer) : Res (List Byte × List (List Byte)) :=
  if r ≠ prev then
    match a with
    | .wouldBlock => .ok (prev, sent)
    | .ok => .ok (r, sent ++ [r])
    | _ => .panic .explicit
  else .ok (prev, sent)

/-- The scan and the keymap, rp2040-rtic-smart-keyboard/src/main.rs 216-223. -/
def Board.scan (s : Board R Ev Ctx PKS KS) (raw : Levels) : Res (Board R Ev Ctx PKS KS) := do
  let core ← s.toCore.scan C n indices raw
  .ok { s with toCore := core }

/-- The reports, rp2040-rtic-smart-keyboard/src/main.rs 225-279. -/
def Board.write (s : Board R Ev Ctx PKS KS) (m : Milli) : Res (Board R Ev Ctx PKS KS) := do
  let codes ← s.backend.out.pressedKeyCodes
  let success ← keyboardAnswer m.keyboard
  let cs ← s.backend.out.pressedConsumerCodes
  let (prev, consumers) ← writeConsumer s.prev s.consumers (consumerReport cs) m.consumer
  .ok { s with
    success := success
    prev := prev
    sent := if m.keyboard = .ok then s.sent ++ [codes] else s.sent
    consumers := consumers
    mice := if m.mouse = .ok then s.mice ++ [s.backend.out.pressedMouseOutput] else s.mice }

/-- The task `tick`, rp2040-rtic-smart-keyboard/src/main.rs 198-279, stm32f4-rtic-smart-keyboard/src/main.rs 167-242. -/
def Board.step (s : Board R Ev Ctx PKS KS) (m : Milli) : Res (Board R Ev Ctx PKS KS) := do
  let s ← s.scan C n indices m.raw
  s.write m

/-- A history. -/
def Board.run (s : Board R Ev Ctx PKS KS) : List Milli → Res (Board R Ev Ctx PKS KS)
  | [] => .ok s
  | m :: ms => do
    let s ← s.step C n indices m
    s.run ms

end

/-! ## Embassy -/

/-- What happens in a turn of the loop: the levels of the switches, and whether each `write` succeeds. (Simplified: how long `write` waits is not modelled; in the
meantime nothing is scanned.) -/
structure Turn where
  raw : Levels
  keyboard : Bool
  mouse : Bool
  consumer : Bool

/-- The variables of the loop, stm32-embassy-smart-keyboard/src/main.rs 185-198; and, as ghost traces, the reports that were written. -/
structure Loop (R Ev Ctx PKS KS : Type) extends Core R Ev Ctx PKS KS where
  lastMouse : MouseOutput
  lastConsumer : Byte
  keyboards : List (List Byte)
  mice : List (List Byte)
  consumers : List (List Byte)

/-- `MouseOutput::NO_OUTPUT`, src/key.rs. -/
def noMouse : MouseOutput := ⟨0, 0, 0, 0, 0⟩

/-- stm32-embassy-smart-keyboard/src/main.rs 185-198. -/
def Loop.new (rows cols : Nat) (km : KM R Ev Ctx PKS KS) : Loop R Ev Ctx PKS KS where
  toCore := .new rows cols km
  lastMouse := noMouse
  lastConsumer := 0
  keyboards := []
  mice := []
  consumers := []

/-- The mouse report, stm32-embassy-smart-keyboard/src/main.rs 225-239. -/
def mouseBytes (o : MouseOutput) : List Byte :=
  [o.buttons, BitVec.ofInt 8 o.x, BitVec.ofInt 8 o.y, BitVec.ofInt 8 o.vscroll, BitVec.ofInt 8 o.hscroll]

/-- The consumer report, stm32-embassy-smart-keyboard/src/main.rs 245-255: a usage of 16 bits. -/
def consumerBytes (code : Byte) : List Byte := [code, 0]

/-- The keyboard report, stm32-embassy-smart-keyboard/src/main.rs 213-222. -/
def Loop.writeKeyboard (s : Loop R Ev Ctx PKS KS) (ok : Bool) : Loop R Ev Ctx PKS KS :=
  if ok then { s with success := true, keyboards := s.keyboards ++ [s.backend.out.asBootReport] } else { s with success := false }

/-- stm32-embassy-smart-keyboard/src/main.rs 224-243. -/
def Loop.writeMouse (s : Loop R Ev Ctx PKS KS) (ok : Bool) : Loop R Ev Ctx PKS KS :=
  let o := s.backend.out.pressedMouseOutput
  if o ≠ s.lastMouse ∨ o ≠ noMouse then
    if ok then { s with lastMouse := o, mice := s.mice ++ [mouseBytes o] } else s
  else s

/-- stm32-embassy-smart-keyboard/src/main.rs 245-259. -/
def Loop.writeConsumer (s : Loop R Ev Ctx PKS KS) (ok : Bool) : Res (Loop R Ev Ctx PKS KS) := do
  let cs ← s.backend.out.pressedConsumerCodes
  let code := cs.headD 0
  if code ≠ s.lastConsumer then
    if ok then .ok { s with lastConsumer := code, consumers := s.consumers ++ [consumerBytes code] } else .ok s
  else .ok s

section

variable (C : Cfg R Ev Ctx PKS KS) (n : Nat) (indices : List (List (Option Nat)))

/-- A turn of the loop, stm32-embassy-smart-keyboard/src/main.rs 201-260. -/
def Loop.step (s : Loop R Ev Ctx PKS KS) (m : Turn) : Res (Loop R Ev Ctx PKS KS) := do
  let core ← s.toCore.scan C n indices m.raw
  let s : Loop R Ev Ctx PKS KS := { s with toCore := core }
  let s := s.writeKeyboard m.keyboard
  let s := s.writeMouse m.mouse
  s.writeConsumer m.consumer

/-- A history. -/
def Loop.run (s : Loop R Ev Ctx PKS KS) : List Turn → Res (Loop R Ev Ctx PKS KS)
  | [] => .ok s
  | m :: ms => do
    let s ← s.step C n indices m
    s.run ms

end

end Verif.Rtic
