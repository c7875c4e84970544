import Verif.Types

/-!
# Chords, src/key/chorded.rs

A chord is the list of its keymap indices (`ChordIndices`, 24-27). The sorted vectors of the code
(`pressed_indices` of the pending state, the span of the pressed chords) are only ever asked for
membership and length, so that they are modelled as unsorted lists; chord ids (`u8`) are natural
numbers (the code casts `index as u8`, which is exact for up to 256 chords).
-/

namespace Verif.Chorded

/-- `chorded::Ref`, src/key/chorded.rs 11-16. -/
inductive Ref where
  | chorded (i : Nat)
  | auxiliary (i : Nat)
  deriving DecidableEq, Repr

/-- `ChordIndices`, src/key/chorded.rs 24-27. -/
abbrev Chord := List Nat

/-- `ChordIndices::has_index`, src/key/chorded.rs 45-47. -/
def Chord.hasIndex (c : Chord) (i : Nat) : Bool := c.contains i

/-- `ChordIndices::is_satisfied_by`, src/key/chorded.rs 50-52. -/
def Chord.isSatisfiedBy (c : Chord) (is : List Nat) : Bool := c.all (fun i => is.contains i)

/-- `chorded::Config`, src/key/chorded.rs 65-81, with the constants `MAX_CHORD_SIZE`
(`maxChordSize`) and `MAX_PRESSED_INDICES` (`maxPressed`) of the types. -/
structure Config where
  timeout : Nat
  chords : List Chord
  requiredIdleTime : Option Nat
  maxChordSize : Nat
  maxPressed : Nat
  deriving DecidableEq, Repr

/-- `ChordState`, src/key/chorded.rs 124-131. -/
structure ChordState where
  index : Nat
  chord : Chord
  isSatisfied : Bool
  deriving DecidableEq, Repr

/-- `ChordResolution`, src/key/chorded.rs 742-747. -/
inductive Resolution where
  | chord (id : Nat)
  | passthrough
  deriving DecidableEq, Repr

/-- `chorded::Event`, src/key/chorded.rs 732-738. -/
inductive Ev where
  | chordResolved (r : Resolution)
  | timeout
  deriving DecidableEq, Repr

/-- `chorded::Context`, src/key/chorded.rs 181-192. `pressedIndices` has length `maxPressed`;
`pressedChords` has length `MAX_CHORDS`. -/
structure Ctx where
  config : Config
  pressedIndices : List (Option Nat)
  pressedChords : List Bool
  idle : Nat
  ignoreIdle : Bool
  latest : Option Nat
  deriving DecidableEq, Repr

/-- `Context::from_config`, src/key/chorded.rs 223-233. -/
def Ctx.fromConfig (maxChords : Nat) (c : Config) : Ctx :=
  ⟨c, List.replicate c.maxPressed none, List.replicate maxChords false, 0, false, none⟩

/-- `Context::update_keymap_context`, src/key/chorded.rs 236-241. -/
def Ctx.setIdle (c : Ctx) (idle : Nat) : Ctx := { c with idle := idle }

/-- `Context::sufficient_idle_time`, src/key/chorded.rs 243-248. -/
def Ctx.sufficientIdle (c : Ctx) : Bool :=
  decide (c.idle ≥ c.config.requiredIdleTime.getD 0) || c.ignoreIdle

/-- The pressed chords with their ids, in order: the iterators of src/key/chorded.rs 251-264 and
272-282, for the flags starting at chord `i`. `self.config.chords[index]` panics out of range. -/
def pressedFrom (chords : List Chord) (i : Nat) : List Bool → Res (List (Nat × Chord))
  | [] => .ok []
  | true :: bs => do
    let c ← Res.index chords i
    let rest ← pressedFrom chords (i + 1) bs
    pure ((i, c) :: rest)
  | false :: bs => pressedFrom chords (i + 1) bs

/-- The pressed chords, see `pressedFrom`. -/
def Ctx.pressed (c : Ctx) : Res (List (Nat × Chord)) := pressedFrom c.config.chords 0 c.pressedChords

/-- `Context::pressed_chord_with_index`, src/key/chorded.rs 250-266. (The iterator is lazy; the
model looks up all pressed chords first, which matters only for out-of-range ids.) -/
def Ctx.pressedChordWithIndex (c : Ctx) (idx : Nat) : Res (Option ChordState) := do
  let ps ← c.pressed
  pure ((ps.find? (fun p => Chord.hasIndex p.2 idx)).map (fun p => ⟨p.1, p.2, true⟩))

/-- Inserting one index into the span, src/key/chorded.rs 286-288. -/
def spanInsert (cap : Nat) (span : List Nat) (i : Nat) : Res (List Nat) :=
  if span.contains i then .ok span else pushCap cap span i

/-- The inner loop 285-289 of src/key/chorded.rs. -/
def spanInsertAll (cap : Nat) (span : List Nat) : List Nat → Res (List Nat)
  | [] => .ok span
  | i :: is => do
    let span ← spanInsert cap span i
    spanInsertAll cap span is

/-- The outer loop 284-290 of src/key/chorded.rs. -/
def spanOf (cap : Nat) (span : List Nat) : List (Nat × Chord) → Res (List Nat)
  | [] => .ok span
  | (_, ch) :: rest => do
    let span ← spanInsertAll cap span ch
    spanOf cap span rest

/-- `Context::pressed_chords_indices_span`, src/key/chorded.rs 269-293. -/
def Ctx.span (c : Ctx) : Res (List Nat) := do
  let ps ← c.pressed
  spanOf c.config.maxPressed [] ps

/-- `iter().enumerate()` from `i`. -/
def enumFrom {α : Type} (i : Nat) : List α → List (Nat × α)
  | [] => []
  | x :: xs => (i, x) :: enumFrom (i + 1) xs

/-- `Context::chords_for_keymap_index`, src/key/chorded.rs 300-330 (the result is at most as long
as `chords`, hence fits). -/
def Ctx.chordsFor (c : Ctx) (idx : Nat) : Res (List ChordState) := do
  match ← c.pressedChordWithIndex idx with
  | some cs => pure [cs]
  | none => do
    let span ← c.span
    let cs := (enumFrom 0 c.config.chords).filter (fun p => Chord.hasIndex p.2 idx)
    let cs := cs.filter (fun p => span.isEmpty || p.2.all (fun i => !span.contains i))
    pure (cs.map (fun p => ⟨p.1, p.2, false⟩))

/-- `k.unwrap_or(u16::MAX)`, src/key/chorded.rs 363, 373. -/
def keyOf (k : Option Nat) : Nat := k.getD 65535

/-- The position found by `binary_search_by_key`, src/key/chorded.rs 361-363, 371-374, on the sorted
array: the number of smaller elements. -/
def findPos (idx : Nat) (xs : List (Option Nat)) : Nat := (xs.takeWhile (fun k => keyOf k < idx)).length

/-- Whether `binary_search_by_key` returns `Ok`. -/
def isFound (idx : Nat) (xs : List (Option Nat)) : Bool := (xs[findPos idx xs]?).map keyOf = some idx

/-- `Context::insert_pressed_index`, src/key/chorded.rs 332-344: shift right from `pos` (the last
element falls off), then write. Panics if `pos` is the length: the array is full. -/
def insertPressed (pos idx : Nat) (xs : List (Option Nat)) : Res (List (Option Nat)) :=
  if xs.isEmpty then .ok xs
  else if pos < xs.length then
    .ok ((xs.take pos ++ some idx :: xs.drop pos).dropLast)
  else .panic .capacity

/-- `Context::remove_pressed_index`, src/key/chorded.rs 346-358. -/
def removePressed (pos : Nat) (xs : List (Option Nat)) : List (Option Nat) :=
  if xs.isEmpty then xs else xs.eraseIdx pos ++ [none]

/-- `Context::press_index`, src/key/chorded.rs 360-368. -/
def Ctx.pressIndex (c : Ctx) (idx : Nat) : Res Ctx :=
  if isFound idx c.pressedIndices then .ok c
  else do
    let xs ← insertPressed (findPos idx c.pressedIndices) idx c.pressedIndices
    pure { c with pressedIndices := xs }

/-- `Context::release_index`, src/key/chorded.rs 370-377. -/
def Ctx.releaseIndex (c : Ctx) (idx : Nat) : Ctx :=
  if isFound idx c.pressedIndices then
    { c with pressedIndices := removePressed (findPos idx c.pressedIndices) c.pressedIndices }
  else c

/-- The loop 411-419 of src/key/chorded.rs: every chord with this index is marked not pressed. -/
def clearChords (idx : Nat) : List Chord → List Bool → List Bool
  | ch :: chs, b :: bs => (if Chord.hasIndex ch idx then false else b) :: clearChords idx chs bs
  | _, bs => bs

/-- `Context::handle_event`, src/key/chorded.rs 380-430 (no events are emitted, 440). -/
def Ctx.handleEvent (c : Ctx) : Event Ev → Res Ctx
  | .input (.press idx) => do
    let c ← c.pressIndex idx
    let span ← c.span
    if span.contains idx then pure { c with ignoreIdle := true }
    else
      match c.latest with
      | some id => do
        let ch ← Res.index c.config.chords id
        pure { c with ignoreIdle := Chord.hasIndex ch idx }
      | none => pure { c with ignoreIdle := false, latest := none }
  | .input (.release idx) =>
    let c := c.releaseIndex idx
    .ok { c with pressedChords := clearChords idx c.config.chords c.pressedChords }
  | .key _ (.chordResolved (.chord id)) =>
    if id < c.pressedChords.length then
      .ok { c with pressedChords := c.pressedChords.set id true, latest := some id }
    else .panic .index
  | _ => .ok c

variable {R : Type}

/-- `chorded::Key`, src/key/chorded.rs 449-466. -/
structure Key (R : Type) where
  chords : List (Nat × R)
  passthrough : R
  deriving DecidableEq, Repr

/-- `chorded::PendingKeyState`, src/key/chorded.rs 762-772. -/
structure PKS where
  pressedIndices : List Nat
  possible : List ChordState
  deriving DecidableEq, Repr

/-- `PendingKeyState::new`, src/key/chorded.rs 778-790. -/
def PKS.new (c : Ctx) (idx : Nat) : Res PKS := do
  let is ← pushCap c.config.maxChordSize [] idx
  let cs ← c.chordsFor idx
  pure ⟨is, cs⟩

/-- `PendingKeyState::satisfied_chord`, src/key/chorded.rs 793-797 (its index). -/
def PKS.satisfied (p : PKS) : Option Nat := (p.possible.find? (·.isSatisfied)).map (·.index)

/-- `PendingKeyState::check_resolution`, src/key/chorded.rs 799-826: `none` is
`PendingChordState::Pending(_)` (its payload is never used). -/
def PKS.checkResolution (p : PKS) : Option Resolution :=
  match p.possible with
  | [] => some .passthrough
  | [cs] => if cs.isSatisfied then some (.chord cs.index) else none
  | _ => none

/-- `PendingKeyState::handle_event`, src/key/chorded.rs 829-917. -/
def PKS.handleEvent (p : PKS) (maxChordSize idx : Nat) : Event Ev → Res (PKS × Option Resolution)
  | .key _ .timeout =>
    .ok (p, some (match p.satisfied with | some id => .chord id | none => .passthrough))
  | .input (.press k) => do
    let was := p.satisfied
    if p.pressedIndices.length < maxChordSize then
      let is := k :: p.pressedIndices
      let cs := p.possible.filter (fun cs => Chord.hasIndex cs.chord k)
      let cs := cs.map (fun cs => { cs with isSatisfied := Chord.isSatisfiedBy cs.chord is })
      let p : PKS := ⟨is, cs⟩
      pure (p, match p.checkResolution, was with
        | some .passthrough, some id => some (.chord id)
        | r, _ => r)
    else .panic .capacity
  | .input (.release k) =>
    if k = idx then
      .ok (p, some (match p.satisfied with | some id => .chord id | none => .passthrough))
    else .ok (p, none)
  | _ => .ok (p, none)

/-- The key a resolution stands for at a primary key, src/key/chorded.rs 498-523 and 571-596:
`noOp` when the chord belongs to another key. -/
def Key.refFor (k : Key R) (c : Ctx) (idx : Nat) : Resolution → Res (NPK R)
  | .chord id =>
    match c.config.chords[id]? with
    | some ch => do
      let first ← Res.index ch 0
      if first = idx then
        match k.chords.find? (fun p => p.1 = id) with
        | some (_, r) => pure (.key r)
        | none => .panic .explicit
      else pure .noOp
    | none => .panic .explicit
  | .passthrough => .ok (.key k.passthrough)

/-- The key a resolution stands for at an auxiliary key, src/key/chorded.rs 668-682 and 712-726. -/
def auxRefFor (passthrough : R) : Resolution → NPK R
  | .chord _ => .noOp
  | .passthrough => .key passthrough

/-- The two possible results of pressing a chorded key: pending, or the resolved key. -/
inductive Pressed (R : Type) where
  | pending (p : PKS)
  | npk (n : NPK R)
  deriving DecidableEq, Repr

/-- The common part of `Key::new_pressed_key` (src/key/chorded.rs 489-495, 536-547) and
`AuxiliaryKey::new_pressed_key` (659-665, 683-694): either a resolution, or the pending state. -/
def pressCommon (c : Ctx) (idx : Nat) : Res (Resolution ⊕ PKS) := do
  let p ← PKS.new c idx
  let res := if c.sufficientIdle then p.checkResolution else some .passthrough
  pure (match res with | some r => .inl r | none => .inr p)

/-- The event scheduled when a chorded key becomes pending, src/key/chorded.rs 539-544, 686-691. -/
def timeoutEvents (c : Ctx) (idx : Nat) : KeyEvents Ev :=
  [SchEv.after c.config.timeout (.key idx .timeout)]

/-- `Key::new_pressed_key`, src/key/chorded.rs 477-548. -/
def Key.newPressedKey (k : Key R) (c : Ctx) (idx : Nat) : Res (Pressed R × KeyEvents Ev) := do
  match ← pressCommon c idx with
  | .inl r => do
    let n ← k.refFor c idx r
    pure (.npk n, [])
  | .inr p => pure (.pending p, timeoutEvents c idx)

/-- `AuxiliaryKey::new_pressed_key`, src/key/chorded.rs 647-695. -/
def auxNewPressedKey (passthrough : R) (c : Ctx) (idx : Nat) : Res (Pressed R × KeyEvents Ev) := do
  match ← pressCommon c idx with
  | .inl r => pure (.npk (auxRefFor passthrough r), [])
  | .inr p => pure (.pending p, timeoutEvents c idx)

/-- `Key::update_pending_state`, src/key/chorded.rs 560-613. -/
def Key.updatePending (k : Key R) (p : PKS) (idx : Nat) (c : Ctx) (ev : Event Ev) :
    Res (PKS × Option (NPK R) × KeyEvents Ev) := do
  let (p, res) ← p.handleEvent c.config.maxChordSize idx ev
  match res with
  | some r => do
    let n ← k.refFor c idx r
    pure (p, some n, [SchEv.imm (.key idx (.chordResolved r))])
  | none => pure (p, none, [])

/-- `AuxiliaryKey::update_pending_state`, src/key/chorded.rs 705-727. -/
def auxUpdatePending (passthrough : R) (p : PKS) (idx : Nat) (c : Ctx) (ev : Event Ev) :
    Res (PKS × Option (NPK R) × KeyEvents Ev) := do
  let (p, res) ← p.handleEvent c.config.maxChordSize idx ev
  match res with
  | some r => pure (p, some (auxRefFor passthrough r), [SchEv.imm (.key idx (.chordResolved r))])
  | none => pure (p, none, [])

/-- `System::new_pressed_key`, src/key/chorded.rs 1020-1035. An auxiliary key is its passthrough
key. -/
def sysNewPressedKey (keys : List (Key R)) (aux : List R) (idx : Nat) (c : Ctx) :
    Ref → Res (Pressed R × KeyEvents Ev)
  | .chorded i => do
    let k ← Res.index keys i
    k.newPressedKey c idx
  | .auxiliary i => do
    let pt ← Res.index aux i
    auxNewPressedKey pt c idx

/-- `System::update_pending_state`, src/key/chorded.rs 1037-1058. -/
def sysUpdatePending (keys : List (Key R)) (aux : List R) (p : PKS) (idx : Nat) (c : Ctx)
    (r : Ref) (ev : Event Ev) : Res (PKS × Option (NPK R) × KeyEvents Ev) :=
  match r with
  | .chorded i => do
    let k ← Res.index keys i
    k.updatePending p idx c ev
  | .auxiliary i => do
    let pt ← Res.index aux i
    auxUpdatePending pt p idx c ev

end Verif.Chorded
