import Verif.Scheduler
import Verif.Reporter

/-!
# `Keymap`, src/keymap.rs

The model is generic in the key system, as the Rust type is. The private methods of `Keymap` are
mutually recursive through `handle_event`; here every one of them takes the recursive
`handle_event` as an argument `he`, and `handleEvent` ties the knot at a given depth (`fuel`).
Loops are bounded by the same number. Exhausting it yields `Res.fuel`.
-/

namespace Verif

variable {R Ev Ctx PKS KS : Type}

/-- `PendingState<R, Ev, PKS>`, src/keymap.rs 148-154. -/
structure Pending (R Ev PKS : Type) where
  idx : Nat
  ref : R
  pks : PKS
  queued : List (Event Ev)
  deriving DecidableEq, Repr

/-- The mutable part of `Keymap`, src/keymap.rs 235-248. `fired` and `log` are ghost traces (not in
the code, never read): `fired` lists the callbacks invoked so far, oldest first, each with the
function registered for it (a function pointer is represented by a number); `log` lists the input
events taken from the input queue so far (by `handle_input`, 436, and `tick`, 704). -/
structure KM (R Ev Ctx PKS KS : Type) where
  ctx : Ctx
  pressed : List (PressedInput R KS)
  sched : Sched Ev
  msPerTick : Nat
  idle : Nat
  rep : Reporter
  pend : Option (Pending R Ev PKS)
  inq : List InputEvent
  delay : Nat
  callbacks : List (Callback × Nat)
  fired : List (Callback × Nat)
  log : List InputEvent
  deriving DecidableEq, Repr

/-- The immutable part of `Keymap` (`key_refs`, `key_system`), plus the behaviour of the standard
library's binary search. `key_refs` is indexed with a bounds check. -/
structure Cfg (R Ev Ctx PKS KS : Type) where
  sys : System R Ev Ctx PKS KS
  keyRefs : List R
  search : Search

/-- `MAX_QUEUED_INPUT_EVENTS` (src/keymap.rs 35) is 32; an `spsc::Queue` of size 32 holds 31. -/
def inputCap : Nat := 31
/-- `INPUT_QUEUE_TICK_DELAY`, src/keymap.rs 38. -/
def inputDelay : Nat := 1
/-- Capacity of `callbacks`, src/keymap.rs 247. -/
def callbackCap : Nat := 2

/-- `Keymap::new`, src/keymap.rs 286-301. -/
def KM.new (ctx : Ctx) : KM R Ev Ctx PKS KS where
  ctx := ctx
  pressed := []
  sched := Sched.new
  msPerTick := 1
  idle := 0
  rep := Reporter.init
  pend := none
  inq := []
  delay := 0
  callbacks := []
  fired := []
  log := []

/-- `Keymap::init`, src/keymap.rs 304-315. The context and the callbacks are not reset. -/
def KM.init (km : KM R Ev Ctx PKS KS) : KM R Ev Ctx PKS KS :=
  { km with
    pressed := []
    sched := km.sched.init
    rep := Reporter.init
    pend := none
    inq := []
    delay := 0
    msPerTick := 1
    idle := 0 }

/-- `LinearMap::insert`: replaces the value of an existing key, else appends. -/
def insertCallback (c : Callback) (f : Nat) : List (Callback × Nat) → List (Callback × Nat)
  | [] => [(c, f)]
  | (c', f') :: cs => if c' = c then (c', f) :: cs else (c', f') :: insertCallback c f cs

/-- `Keymap::set_callback` / `set_callback_extern`, src/keymap.rs 320-337; `unwrap` panics when a
third distinct callback is registered. -/
def KM.setCallback (km : KM R Ev Ctx PKS KS) (c : Callback) (f : Nat) : Res (KM R Ev Ctx PKS KS) :=
  let cs := insertCallback c f km.callbacks
  if cs.length ≤ callbackCap then .ok { km with callbacks := cs } else .panic .capacity

/-- `Keymap::set_ms_per_tick`, src/keymap.rs 340-342. -/
def KM.setMsPerTick (km : KM R Ev Ctx PKS KS) (ms : Nat) : KM R Ev Ctx PKS KS :=
  { km with msPerTick := ms }

/-- `self.callbacks.get(&callback_id)`, src/keymap.rs 648. -/
def lookupCallback (c : Callback) : List (Callback × Nat) → Option Nat
  | [] => none
  | (c', f) :: cs => if c' = c then some f else lookupCallback c cs

/-- The callback dispatch at the start of `handle_event`, src/keymap.rs 647-657. -/
def KM.fire (km : KM R Ev Ctx PKS KS) (ev : Event Ev) : KM R Ev Ctx PKS KS :=
  match ev with
  | .keymap (.callback c) =>
    match lookupCallback c km.callbacks with
    | some f => { km with fired := km.fired ++ [(c, f)] }
    | none => km
  | _ => km

/-- `Keymap::has_pressed_input_with_keymap_index`, src/keymap.rs 442-449. -/
def hasPressed (idx : Nat) : List (PressedInput R KS) → Bool
  | [] => false
  | .key i _ _ :: ps => i = idx || hasPressed idx ps
  | .virt _ :: ps => hasPressed idx ps

/-- `position(..).map(|i| self.pressed_inputs.remove(i))` for a release, src/keymap.rs 610-619. -/
def removeKey (idx : Nat) : List (PressedInput R KS) → List (PressedInput R KS)
  | [] => []
  | .key i r ks :: ps => if i = idx then ps else .key i r ks :: removeKey idx ps
  | .virt ko :: ps => .virt ko :: removeKey idx ps

/-- `position(..).map(|i| self.pressed_inputs.remove(i))` for a virtual release, src/keymap.rs
628-634. -/
def removeVirt (ko : KeyOutput) : List (PressedInput R KS) → List (PressedInput R KS)
  | [] => []
  | .key i r ks :: ps => .key i r ks :: removeVirt ko ps
  | .virt ko' :: ps => if ko' = ko then ps else .virt ko' :: removeVirt ko ps

/-- Whether a queued event belongs to the pending key: the closure of src/keymap.rs 380-392. -/
def isOwn (idx : Nat) : Event Ev → Bool
  | .input (.press i) => i = idx
  | .input (.release i) => i = idx
  | .key i _ => i = idx
  | _ => false

/-- `key::Event::Input(input_ev)` of a queued event, src/keymap.rs 509. -/
def inputOf? : Event Ev → Option InputEvent
  | .input e => some e
  | _ => none

section Model

variable (C : Cfg R Ev Ctx PKS KS)

/-- Type of `handle_event`. -/
abbrev Handler (R Ev Ctx PKS KS : Type) := KM R Ev Ctx PKS KS → Event Ev → Res (KM R Ev Ctx PKS KS)

/-- Updating each pressed key with the event, src/keymap.rs 528-540 and 663-675. -/
def notifyPressed (ctx : Ctx) (ev : Event Ev) :
    List (PressedInput R KS) → Sched Ev → Res (List (PressedInput R KS) × Sched Ev)
  | [], s => .ok ([], s)
  | .virt ko :: ps, s => do
    let (ps', s') ← notifyPressed ctx ev ps s
    pure (.virt ko :: ps', s')
  | .key i r ks :: ps, s => do
    let (ks', es) ← C.sys.updateState ks r ctx i ev
    let s1 ← s.scheduleAll C.search es
    let (ps', s') ← notifyPressed ctx ev ps s1
    pure (.key i r ks' :: ps', s')

/-- Updating the pressed keys, then the context, src/keymap.rs 528-545 and 663-681. -/
def notifyAll (km : KM R Ev Ctx PKS KS) (ev : Event Ev) : Res (KM R Ev Ctx PKS KS) := do
  let (ps, s) ← notifyPressed C km.ctx ev km.pressed km.sched
  let (ctx, es) ← C.sys.ctxEvent km.ctx ev
  let s ← s.scheduleAll C.search es
  pure { km with pressed := ps, sched := s, ctx := ctx }

/-- `Keymap::handle_pending_events`, src/keymap.rs 688-693. -/
def drain (he : Handler R Ev Ctx PKS KS) : Nat → KM R Ev Ctx PKS KS → Res (KM R Ev Ctx PKS KS)
  | 0, _ => .fuel
  | n + 1, km =>
    match km.sched.dequeue with
    | (none, s) => .ok { km with sched := s }
    | (some ev, s) => do
      let km' ← he { km with sched := s } ev
      drain he n km'

/-- The loop of src/keymap.rs 394-404 that re-queues the events received while pending. -/
def requeue : Nat → List (Event Ev) → List InputEvent → Sched Ev → Res (List InputEvent × Sched Ev)
  | _, [], q, s => .ok (q, s)
  | i, .input ie :: es, q, s => do
    let q' ← pushCap inputCap q ie
    requeue i es q' s
  | i, ev :: es, q, s => do
    let s' ← s.scheduleAfter C.search i ev
    requeue (i + 1) es q s'

/-- The events to re-queue: those of other keys, then the last one of the key itself,
src/keymap.rs 377-394. -/
def requeueList (idx : Nat) (queued : List (Event Ev)) : List (Event Ev) :=
  queued.filter (fun e => !isOwn idx e) ++ (queued.filter (isOwn idx)).getLast?.toList

/-- First part of `Keymap::resolve_pending_key_state`, src/keymap.rs 347-408. -/
def resolveEnter (km : KM R Ev Ctx PKS KS) (p : Pending R Ev PKS) (ks : KS) :
    Res (KM R Ev Ctx PKS KS) := do
  let s := km.sched.cancel p.idx
  let pressed ← pushCap maxPressedKeys km.pressed (.key p.idx p.ref ks)
  let (q, s) ← requeue C 1 (requeueList p.idx p.queued) [] s
  let q ← extendCap inputCap q km.inq
  pure { km with pend := none, pressed := pressed, sched := s, inq := q }

/-- `Keymap::resolve_pending_key_state`, src/keymap.rs 346-421, for the pending state `p`. -/
def resolve (he : Handler R Ev Ctx PKS KS) (n : Nat) (km : KM R Ev Ctx PKS KS)
    (p : Pending R Ev PKS) (ks : KS) : Res (KM R Ev Ctx PKS KS) := do
  let km1 ← resolveEnter C km p ks
  let km2 ← drain he n km1
  match ← C.sys.keyOutput p.ref ks with
  | some ko => he km2 (.keymap (.resolved p.idx ko))
  | none => pure km2

/-- The `while let Some(npk)` loop of `Keymap::update_pending_state`, src/keymap.rs 471-518.
The second `Nat` bounds the number of iterations; `p` is the current pending state. -/
def pendLoop (he : Handler R Ev Ctx PKS KS) (n : Nat) :
    Nat → KM R Ev Ctx PKS KS → Pending R Ev PKS → NPK R → Res (KM R Ev Ctx PKS KS)
  | 0, _, _, _ => .fuel
  | _ + 1, km, p, .noOp => resolve C he n km p C.sys.noOp
  | m + 1, km, p, .key r => do
    let p := { p with ref := r }
    let (pkr, es) ← C.sys.newPressedKey p.idx km.ctx r
    let s ← km.sched.scheduleAll C.search es
    let km := { km with sched := s }
    match pkr with
    | .resolved ks => resolve C he n km p ks
    | .newPressedKey (.key r') => pendLoop he n m km p (.key r')
    | .newPressedKey .noOp => resolve C he n km p C.sys.noOp
    | .pending pks => do
      let q ← extendCap inputCap [] (p.queued.reverse.filterMap inputOf?)
      let q ← extendCap inputCap q km.inq
      pure { km with pend := some { p with pks := pks, queued := [] }, inq := q }

/-- `Keymap::update_pending_state`, src/keymap.rs 451-520. -/
def updatePending (he : Handler R Ev Ctx PKS KS) (n : Nat) (km : KM R Ev Ctx PKS KS)
    (ev : Event Ev) : Res (KM R Ev Ctx PKS KS) :=
  match km.pend with
  | none => pure km
  | some p => do
    let (pks, npk, es) ← C.sys.updatePending p.pks p.idx km.ctx p.ref ev
    let s ← km.sched.scheduleAll C.search es
    let p := { p with pks := pks }
    let km := { km with sched := s, pend := some p }
    match npk with
    | none => pure km
    | some npk => pendLoop C he n n km p npk

/-- The `while let Some(key_ref)` loop of `Keymap::process_input`, src/keymap.rs 553-607. -/
def pressLoop (he : Handler R Ev Ctx PKS KS) (idx : Nat) :
    Nat → KM R Ev Ctx PKS KS → R → Res (KM R Ev Ctx PKS KS)
  | 0, _, _ => .fuel
  | m + 1, km, r => do
    let (pkr, es) ← C.sys.newPressedKey idx km.ctx r
    let s ← km.sched.scheduleAll C.search es
    let km := { km with sched := s }
    match pkr with
    | .resolved ks => do
      let pressed ← pushCap maxPressedKeys km.pressed (.key idx r ks)
      let km := { km with pressed := pressed }
      match ← C.sys.keyOutput r ks with
      | some ko => he km (.keymap (.resolved idx ko))
      | none => pure km
    | .newPressedKey (.key r') => pressLoop he idx m km r'
    | .newPressedKey .noOp => do
      let pressed ← pushCap maxPressedKeys km.pressed (.key idx r C.sys.noOp)
      pure { km with pressed := pressed }
    | .pending pks => pure { km with pend := some ⟨idx, r, pks, []⟩ }

/-- The non-pending branch of `Keymap::process_input`, src/keymap.rs 527-638. -/
def processDirect (he : Handler R Ev Ctx PKS KS) (n : Nat) (km : KM R Ev Ctx PKS KS)
    (ev : InputEvent) : Res (KM R Ev Ctx PKS KS) := do
  let km ← notifyAll C km (.input ev)
  match ev with
  | .press idx =>
    if hasPressed idx km.pressed then pure km
    else do
      let r ← Res.index C.keyRefs idx
      pressLoop C he idx n km r
  | .release idx => pure { km with pressed := removeKey idx km.pressed }
  | .vpress ko => do
    let pressed ← pushCap maxPressedKeys km.pressed (.virt ko)
    pure { km with pressed := pressed }
  | .vrelease ko => pure { km with pressed := removeVirt ko km.pressed }

/-- `Keymap::process_input`, src/keymap.rs 522-642. -/
def processInput (he : Handler R Ev Ctx PKS KS) (n : Nat) (km : KM R Ev Ctx PKS KS)
    (ev : InputEvent) : Res (KM R Ev Ctx PKS KS) := do
  let km ← match km.pend with
    | some p => do
      let q ← pushCap maxPressedKeys p.queued (.input ev)
      updatePending C he n { km with pend := some { p with queued := q } } (.input ev)
    | none => processDirect C he n km ev
  drain he n km

/-- `Keymap::handle_event`, src/keymap.rs 646-686, with the recursive calls going to `he`. -/
def handleBody (he : Handler R Ev Ctx PKS KS) (n : Nat) : Handler R Ev Ctx PKS KS :=
  fun km ev => do
    let km := km.fire ev
    let km ← updatePending C he n km ev
    let km ← notifyAll C km ev
    match ev with
    | .input ie => processInput C he n km ie
    | _ => pure km

/-- `Keymap::handle_event`, cut at recursion depth `n`. -/
def handleEvent : Nat → Handler R Ev Ctx PKS KS
  | 0 => fun _ _ => .fuel
  | n + 1 => handleBody C (handleEvent n) n

/-- `Keymap::process_input` with the real `handle_event`. -/
def processInputN (n : Nat) : KM R Ev Ctx PKS KS → InputEvent → Res (KM R Ev Ctx PKS KS) :=
  processInput C (handleEvent C n) n

/-- `Keymap::handle_pending_events` with the real `handle_event`. -/
def drainN (n : Nat) : KM R Ev Ctx PKS KS → Res (KM R Ev Ctx PKS KS) :=
  drain (handleEvent C n) n

/-- `Keymap::handle_input`, src/keymap.rs 426-440. -/
def handleInput (n : Nat) (km : KM R Ev Ctx PKS KS) (ev : InputEvent) :
    Res (KM R Ev Ctx PKS KS) :=
  let km := { km with idle := 0 }
  if km.inq.length ≥ inputCap then .ok km
  else
    let q := km.inq ++ [ev]
    if km.delay = 0 then
      match q with
      | [] => .panic .unwrap
      | ie :: q => do
        let km ← processInputN C n { km with inq := q, log := km.log ++ [ie] } ie
        pure { km with delay := inputDelay }
    else .ok { km with inq := q }

/-- The queued-input part of `Keymap::tick`, src/keymap.rs 703-707. -/
def tickInput (n : Nat) (km : KM R Ev Ctx PKS KS) : Res (KM R Ev Ctx PKS KS) :=
  match km.inq with
  | ie :: q =>
    if km.delay = 0 then do
      let km ← processInputN C n { km with inq := q, log := km.log ++ [ie] } ie
      pure { km with delay := inputDelay }
    else .ok km
  | [] => .ok km

/-- `Keymap::tick`, src/keymap.rs 696-718. -/
def tick (n : Nat) (km : KM R Ev Ctx PKS KS) : Res (KM R Ev Ctx PKS KS) := do
  let km := { km with ctx := C.sys.setCtx km.ctx km.sched.counter km.idle }
  let km ← tickInput C n km
  let km := { km with delay := km.delay - 1 }
  let s ← km.sched.tick km.msPerTick
  let km ← drainN C n { km with sched := s }
  if km.idle + km.msPerTick < u32Size then pure { km with idle := km.idle + km.msPerTick }
  else .panic .arith

/-- `for _ in 0..k { self.tick(); }`. -/
def ticks (n : Nat) : Nat → KM R Ev Ctx PKS KS → Res (KM R Ev Ctx PKS KS)
  | 0, km => .ok km
  | k + 1, km => do
    let km ← tick C n km
    ticks n k km

/-- `Keymap::tick_by`, src/keymap.rs 732-740 (division by zero panics). -/
def tickBy (n : Nat) (km : KM R Ev Ctx PKS KS) (delta : Nat) : Res (KM R Ev Ctx PKS KS) :=
  if delta = 0 then tick C n km
  else if km.msPerTick = 0 then .panic .arith
  else ticks C n (delta / km.msPerTick) km

/-- `Keymap::handle_input_after_time`, src/keymap.rs 748-754. -/
def handleInputAfterTime (n : Nat) (km : KM R Ev Ctx PKS KS) (delta : Nat) (ev : InputEvent) :
    Res (KM R Ev Ctx PKS KS × Option Nat) := do
  let km ← tickBy C n km delta
  let km ← handleInput C n km ev
  let next ← km.sched.nextEventTime
  if next = some 0 then .panic .assertion else pure (km, next)

/-- `Keymap::tick_to_next_scheduled_event`, src/keymap.rs 761-768. -/
def tickToNext (n : Nat) (km : KM R Ev Ctx PKS KS) : Res (KM R Ev Ctx PKS KS × Option Nat) := do
  match ← km.sched.nextEventTime with
  | some delta => do
    let km ← tickBy C n km delta
    let next ← km.sched.nextEventTime
    pure (km, next)
  | none => pure (km, none)

/-- `Keymap::pressed_keys`, src/keymap.rs 721-730 (at most 16 inputs, so `collect` cannot
overflow). -/
def pressedOutputs (sys : System R Ev Ctx PKS KS) :
    List (PressedInput R KS) → Res (List KeyOutput)
  | [] => .ok []
  | .key _ r ks :: ps => do
    let o ← sys.keyOutput r ks
    let os ← pressedOutputs sys ps
    pure (o.toList ++ os)
  | .virt ko :: ps => do
    let os ← pressedOutputs sys ps
    pure (ko :: os)

/-- `Keymap::pressed_keys`, src/keymap.rs 721-730. -/
def KM.pressedKeys (km : KM R Ev Ctx PKS KS) : Res (List KeyOutput) := pressedOutputs C.sys km.pressed

/-- `Keymap::report_output`, src/keymap.rs 771-776. -/
def reportOutput (km : KM R Ev Ctx PKS KS) : Res (KM R Ev Ctx PKS KS × KeymapOutput) := do
  let os ← km.pressedKeys C
  let (rep, out) := km.rep.report os
  pure ({ km with rep := rep }, out)

/-- `Keymap::boot_keyboard_report`, src/keymap.rs 780-782. -/
def bootKeyboardReport (km : KM R Ev Ctx PKS KS) : Res (List Byte) := do
  let os ← km.pressedKeys C
  pure (KeymapOutput.asBootReport os)

/-- `Keymap::requires_polling`, src/keymap.rs 785-787. -/
def KM.requiresPolling (km : KM R Ev Ctx PKS KS) : Bool :=
  !km.sched.pending.isEmpty || !km.inq.isEmpty

/-- `Keymap::has_scheduled_events`, src/keymap.rs 790-794. -/
def KM.hasScheduledEvents (km : KM R Ev Ctx PKS KS) : Bool :=
  !km.sched.pending.isEmpty || !km.sched.scheduled.isEmpty || !km.inq.isEmpty

/-- The public operations of `Keymap`. -/
inductive Op where
  | input (ev : InputEvent)
  | tick
  | report
  | init
  | setCallback (c : Callback) (f : Nat)
  | setMsPerTick (ms : Nat)
  | inputAfter (delta : Nat) (ev : InputEvent)
  | tickToNext
  deriving DecidableEq, Repr

/-- One public call. -/
def step (n : Nat) (km : KM R Ev Ctx PKS KS) : Op → Res (KM R Ev Ctx PKS KS)
  | .input ev => handleInput C n km ev
  | .tick => tick C n km
  | .report => (·.1) <$> reportOutput C km
  | .init => .ok km.init
  | .setCallback c f => km.setCallback c f
  | .setMsPerTick ms => .ok (km.setMsPerTick ms)
  | .inputAfter d ev => (·.1) <$> handleInputAfterTime C n km d ev
  | .tickToNext => (·.1) <$> tickToNext C n km

/-- A sequence of public calls. -/
def run (n : Nat) (km : KM R Ev Ctx PKS KS) : List Op → Res (KM R Ev Ctx PKS KS)
  | [] => .ok km
  | op :: ops => do
    let km ← step C n km op
    run n km ops

end Model

end Verif
