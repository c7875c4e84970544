import Verif.Output

/-!
# Automation keys (macros), src/key/automation.rs
-/

namespace Verif.Automation

/-- `EXECUTION_QUEUE_SIZE`, src/key/automation.rs 9. -/
def queueSize : Nat := 8

/-- `Execution`, src/key/automation.rs 17-22. -/
structure Execution where
  start : Nat
  length : Nat
  deriving DecidableEq, Repr

/-- `Execution::EMPTY`, src/key/automation.rs 26-29. -/
def Execution.empty : Execution := ⟨0, 0⟩

/-- `Execution::is_empty`, src/key/automation.rs 32-34. -/
def Execution.isEmpty (e : Execution) : Bool := e.length = 0

/-- `Execution::incr`, src/key/automation.rs 37-42 (`start` is a `u16`; overflow panics). -/
def Execution.incr (e : Execution) : Res Execution :=
  if e.length > 0 then
    if e.start + 1 < 65536 then .ok ⟨e.start + 1, e.length - 1⟩ else .panic .arith
  else .ok e

/-- `KeyInstructions` and `Key`, src/key/automation.rs 47-61. -/
structure Key where
  onPress : Execution
  whilePressed : Execution
  onRelease : Execution
  deriving DecidableEq, Repr

/-- `Instruction`, src/key/automation.rs 65-77. -/
inductive Instruction where
  | noOp
  | press (ko : KeyOutput)
  | release (ko : KeyOutput)
  | tap (ko : KeyOutput)
  | wait (ticks : Nat)
  deriving DecidableEq, Repr

/-- `Config`, src/key/automation.rs 81-91. -/
structure Config where
  instructions : List Instruction
  duration : Nat
  deriving DecidableEq, Repr

/-- `automation::Event`, src/key/automation.rs 326-333. -/
inductive Ev where
  | enqueue (e : Execution)
  | nextInstruction
  | executionFinished
  deriving DecidableEq, Repr

/-- `Context`, src/key/automation.rs 218-221: the queue is an array of 8 executions, unused slots
hold `EMPTY`. -/
structure Ctx where
  config : Config
  queue : List Execution
  deriving DecidableEq, Repr

/-- `Context::from_config`, src/key/automation.rs 239-245. -/
def Ctx.fromConfig (c : Config) : Ctx := ⟨c, List.replicate queueSize Execution.empty⟩

/-- The loop of `enqueue`, src/key/automation.rs 254-262: the first empty slot takes the execution;
a full queue drops it. -/
def putFirstEmpty (e : Execution) : List Execution → List Execution
  | [] => []
  | x :: xs => if x.isEmpty then e :: xs else x :: putFirstEmpty e xs

/-- `Context::enqueue`, src/key/automation.rs 248-263. -/
def Ctx.enqueue (c : Ctx) (e : Execution) : Ctx :=
  if e.isEmpty then c else { c with queue := putFirstEmpty e c.queue }

/-- `key_events_for`, src/key/automation.rs 336-405. -/
def keyEventsFor (c : Config) (idx : Nat) (e : Execution) : Res (KeyEvents Ev) := do
  let inst ← Res.index c.instructions e.start
  let next : Event Ev := .key idx (if e.length > 1 then .nextInstruction else .executionFinished)
  pure (match inst with
    | .noOp => [SchEv.after c.duration next]
    | .press ko => [SchEv.imm (.input (.vpress ko)), SchEv.after c.duration next]
    | .release ko => [SchEv.imm (.input (.vrelease ko)), SchEv.after c.duration next]
    | .tap ko =>
      [SchEv.imm (.input (.vpress ko)), SchEv.after c.duration (.input (.vrelease ko)),
       SchEv.after c.duration next]
    | .wait t => [SchEv.after t next])

/-- `Context::execute_head`, src/key/automation.rs 265-287. `rotate_left(1)` followed by emptying
the last slot drops the head and appends `EMPTY`. -/
def Ctx.executeHead (c : Ctx) (idx : Nat) : Res (Ctx × KeyEvents Ev) := do
  let head ← Res.index c.queue 0
  let es ← keyEventsFor c.config idx head
  let head' ← head.incr
  if head'.isEmpty then
    let q := c.queue.tail ++ [Execution.empty]
    let c := { c with queue := q }
    let next ← Res.index q 0
    if next.isEmpty then pure (c, es)
    else do
      let es ← es.push (SchEv.after c.config.duration (.key idx .nextInstruction))
      pure (c, es)
  else pure ({ c with queue := head' :: c.queue.tail }, es)

/-- `Context::handle_event`, src/key/automation.rs 293-321. -/
def Ctx.handleEvent (c : Ctx) : Event Ev → Res (Ctx × KeyEvents Ev)
  | .key idx (.enqueue e) =>
    if e.isEmpty then .ok (c, [])
    else do
      let head ← Res.index c.queue 0
      let c := c.enqueue e
      if head.isEmpty then c.executeHead idx else pure (c, [])
  | .key idx .nextInstruction => do
    let head ← Res.index c.queue 0
    if head.isEmpty then pure (c, []) else c.executeHead idx
  | _ => .ok (c, [])

/-- `System::new_pressed_key`, src/key/automation.rs 443-473: the events of pressing the key (the
pressed-key result is `Resolved(KeyState)`). -/
def sysNewPressedKey (keys : List Key) (idx i : Nat) : Res (KeyEvents Ev) := do
  let k ← Res.index keys i
  pure [SchEv.imm (.key idx
    (if k.onPress.isEmpty then .executionFinished else .enqueue k.onPress))]

/-- `System::update_state`, src/key/automation.rs 486-534 (there is no key state). -/
def sysUpdateState (keys : List Key) (i idx : Nat) (ev : Event Ev) : Res (KeyEvents Ev) :=
  match ev with
  | .key ki .executionFinished =>
    if idx = ki then do
      let k ← Res.index keys i
      pure [SchEv.imm (.key idx (.enqueue k.whilePressed))]
    else .ok []
  | .input (.release ki) =>
    if idx = ki then do
      let k ← Res.index keys i
      pure [SchEv.imm (.key idx (.enqueue k.onRelease))]
    else .ok []
  | _ => .ok []

end Verif.Automation
