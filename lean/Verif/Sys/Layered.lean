import Verif.Types

/-!
# Layers, src/key/layered.rs
-/

namespace Verif.Layered

/-- `MAX_BITSET_LAYER`, src/key/layered.rs 18. -/
def maxBitsetLayer : Nat := 31

/-- `LayerBitset`, src/key/layered.rs 15. -/
abbrev LayerBitset := BitVec 32

/-- `layered::Ref`, src/key/layered.rs 22-27. -/
inductive Ref where
  | modifier (i : Nat)
  | layered (i : Nat)
  deriving DecidableEq, Repr

/-- `ModifierKey`, src/key/layered.rs 31-45. -/
inductive ModifierKey where
  | hold (layer : Nat)
  | toggle (layer : Nat)
  | sticky (layer : Nat)
  | setActiveLayers (set : LayerBitset)
  | default (layer : Nat)
  deriving DecidableEq, Repr

/-- The loop of `ModifierKey::set_active_layers`, src/key/layered.rs 67-78. -/
def bitsetOf (acc : LayerBitset) : List Nat → Res LayerBitset
  | [] => .ok acc
  | l :: ls => if l < maxBitsetLayer then bitsetOf (acc ||| (1#32 <<< l)) ls else .panic .explicit

/-- `ModifierKey::set_active_layers`, src/key/layered.rs 66-81. -/
def ModifierKey.setActive (layers : List Nat) : Res ModifierKey := do
  let b ← bitsetOf 0 layers
  pure (.setActiveLayers b)

/-- `LayerEvent`, src/key/layered.rs 470-483. -/
inductive Ev where
  | activated (layer : Nat)
  | deactivated (layer : Nat)
  | toggled (layer : Nat)
  | stickyActivated (layer : Nat)
  | set (s : LayerBitset)
  | setDefault (layer : Nat)
  deriving DecidableEq, Repr

/-- `Behavior`, src/key/layered.rs 491-496, which is the whole of `ModifierKeyState` (500-502). -/
inductive Behavior where
  | sticky
  | regular
  deriving DecidableEq, Repr

/-- `ModifierKey::new_pressed_key`, src/key/layered.rs 96-116 (it always returns an event). -/
def ModifierKey.newPressedKey : ModifierKey → Behavior × Ev
  | .hold l => (.regular, .activated l)
  | .toggle l => (.regular, .toggled l)
  | .sticky l => (.sticky, .stickyActivated l)
  | .setActiveLayers s => (.regular, .set s)
  | .default l => (.regular, .setDefault l)

/-- `Activity` with `ActivationStyle`, src/key/layered.rs 125-142. -/
inductive Activity where
  | regular
  | sticky
  | inactive
  deriving DecidableEq, Repr

/-- `Activity::is_active`, src/key/layered.rs 146-148. -/
def Activity.isActive : Activity → Bool
  | .inactive => false
  | _ => true

/-- `LayerState::activate` 162-170 and `deactivate` 172-180 of src/key/layered.rs: the slot of layer
`l` becomes `a`. The assertion and the overflow of `l - 1` panic in the debug profile. -/
def setLayer (ls : List Activity) (l : Nat) (a : Activity) : Res (List Activity) :=
  if l ≤ ls.length then
    if l = 0 then .panic .arith else .ok (ls.set (l - 1) a)
  else .panic .assertion

/-- `LayerState::active_layers`, src/key/layered.rs 182-190, for the layers numbered from `i + 1`:
the numbers of the active layers, highest first. -/
def activeLayersFrom (i : Nat) : List Activity → List Nat
  | [] => []
  | a :: as => activeLayersFrom (i + 1) as ++ (if a.isActive then [i + 1] else [])

/-- `LayerState::active_layers`, src/key/layered.rs 182-190. -/
def activeLayers (ls : List Activity) : List Nat := activeLayersFrom 0 ls

/-- `layered::Context`, src/key/layered.rs 217-222; `LAYER_COUNT` is the length of `layers`. -/
structure Ctx where
  defaultLayer : Option Nat
  layers : List Activity
  pressedIdx : Option Nat
  deriving DecidableEq, Repr

/-- `Context::new`, src/key/layered.rs 241-247. -/
def Ctx.new (layerCount : Nat) : Ctx := ⟨none, List.replicate layerCount .inactive, none⟩

/-- `Context::sticky_layer`, src/key/layered.rs 262-267, for the layers numbered from `i + 1`. -/
def stickyLayerFrom (i : Nat) : List Activity → Option Nat
  | [] => none
  | .sticky :: _ => some (i + 1)
  | _ :: as => stickyLayerFrom (i + 1) as

/-- `Context::sticky_layer`, src/key/layered.rs 262-267. -/
def Ctx.stickyLayer (c : Ctx) : Option Nat := stickyLayerFrom 0 c.layers

/-- The loop of `LayerEvent::Set`, src/key/layered.rs 293-300, over the given layer numbers. -/
def setLayers (s : LayerBitset) (ls : List Activity) : List Nat → Res (List Activity)
  | [] => .ok ls
  | li :: lis => do
    let ls ← setLayer ls li (if s &&& (1#32 <<< li) ≠ 0 then .regular else .inactive)
    setLayers s ls lis

/-- `Context::handle_layer_event`, src/key/layered.rs 270-305. -/
def Ctx.handleLayerEvent (c : Ctx) : Ev → Res Ctx
  | .activated l => do
    let ls ← setLayer c.layers l .regular
    pure { c with layers := ls }
  | .deactivated l => do
    let ls ← setLayer c.layers l .inactive
    pure { c with layers := ls }
  | .stickyActivated l => do
    let ls ← setLayer c.layers l .sticky
    pure { c with layers := ls, pressedIdx := none }
  | .toggled l =>
    if l = 0 then .panic .arith
    else do
      let a ← Res.index c.layers (l - 1)
      let ls ← setLayer c.layers l (if a.isActive then .inactive else .regular)
      pure { c with layers := ls }
  | .set s => do
    let ls ← setLayers s c.layers (List.range' 1 (min c.layers.length maxBitsetLayer))
    pure { c with layers := ls }
  | .setDefault l => .ok { c with defaultLayer := if l = 0 then none else some l }

/-- `Context::handle_event`, src/key/layered.rs 308-335 (no events are emitted, 343). -/
def Ctx.handleEvent (c : Ctx) : Event Ev → Res Ctx
  | .input (.press idx) =>
    match c.stickyLayer with
    | some l =>
      if c.pressedIdx.isSome then do
        let ls ← setLayer c.layers l .inactive
        pure { c with layers := ls, pressedIdx := none }
      else .ok { c with pressedIdx := some idx }
    | none => .ok c
  | .input (.release idx) =>
    match c.stickyLayer with
    | some l =>
      if c.pressedIdx = some idx then do
        let ls ← setLayer c.layers l .inactive
        pure { c with layers := ls, pressedIdx := none }
      else .ok c
    | none => .ok c
  | .key _ e => c.handleLayerEvent e
  | _ => .ok c

variable {R : Type}

/-- `LayeredKey<R, LAYER_COUNT>`, src/key/layered.rs 428-435. -/
structure LayeredKey (R : Type) where
  base : R
  layered : List (Option R)
  deriving DecidableEq, Repr

/-- The loop of `highest_active_key`, src/key/layered.rs 379-383, over the active layer numbers. -/
def firstActive (layered : List (Option R)) : List Nat → Res (Option R)
  | [] => .ok none
  | l :: ls => do
    let o ← Res.index layered (l - 1)
    match o with
    | some r => pure (some r)
    | none => firstActive layered ls

/-- `Layers::highest_active_key`, src/key/layered.rs 374-391 (without the layer number, which the
caller ignores). A default layer is never 0 (302), so `l - 1` does not underflow. -/
def highestActiveKey (layered : List (Option R)) (ls : List Activity) (dflt : Option Nat) :
    Res (Option R) := do
  match ← firstActive layered (activeLayers ls) with
  | some r => pure (some r)
  | none =>
    match dflt with
    | some l => Res.index layered (l - 1)
    | none => pure none

/-- `LayeredKey::new_pressed_key`, src/key/layered.rs 458-465. -/
def LayeredKey.newPressedKey (k : LayeredKey R) (c : Ctx) : Res R := do
  let o ← highestActiveKey k.layered c.layers c.defaultLayer
  pure (o.getD k.base)

/-- `ModifierKeyState::handle_event`, src/key/layered.rs 520-568. -/
def handleKeyEvent (ks : Behavior) (idx : Nat) (ev : Event Ev) :
    ModifierKey → Behavior × Option Ev
  | .hold l =>
    match ev with
    | .input (.release ki) => (ks, if idx = ki then some (.deactivated l) else none)
    | _ => (ks, none)
  | .toggle _ => (ks, none)
  | .sticky l =>
    match ev with
    | .input (.press _) =>
      match ks with
      | .sticky => (.regular, some (.activated l))
      | .regular => (.regular, none)
    | .input (.release ki) =>
      (ks, if idx = ki ∧ ks = .regular then some (.deactivated l) else none)
    | _ => (ks, none)
  | .setActiveLayers _ => (ks, none)
  | .default l =>
    match ev with
    | .input (.release ki) => (ks, if idx = ki then some (.setDefault l) else none)
    | _ => (ks, none)

/-- The two possible results of pressing a key of the layer system: a resolved modifier key, or the
key the layered key stands for. -/
inductive Pressed (R : Type) where
  | resolved (b : Behavior)
  | key (r : R)
  deriving DecidableEq, Repr

/-- `System::new_pressed_key`, src/key/layered.rs 612-643. -/
def sysNewPressedKey (mods : List ModifierKey) (keys : List (LayeredKey R)) (idx : Nat) (c : Ctx) :
    Ref → Res (Pressed R × KeyEvents Ev)
  | .modifier i => do
    let k ← Res.index mods i
    let (b, ev) := k.newPressedKey
    pure (.resolved b, [SchEv.imm (.key idx ev)])
  | .layered i => do
    let k ← Res.index keys i
    let r ← k.newPressedKey c
    pure (.key r, [])

/-- `System::update_state`, src/key/layered.rs 656-674. -/
def sysUpdateState (mods : List ModifierKey) (ks : Behavior) (r : Ref) (idx : Nat) (ev : Event Ev) :
    Res (Behavior × KeyEvents Ev) :=
  match r with
  | .modifier i => do
    let k ← Res.index mods i
    let (ks, e) := handleKeyEvent ks idx ev k
    pure (ks, match e with | some e => [SchEv.imm (.key idx e)] | none => [])
  | .layered _ => .ok (ks, [])

end Verif.Layered
