import Verif.Nickel

/-!
# What the records in a keymap file say

`k.Says tidy v`: the value `v` is how the key `k` is written. With `tidy` the record of a macro has no other fields
than the three lists.
-/

namespace Verif.Nickel

open Codegen (Leaf NKey ModRec LayerMod Src SrcChord)

/-- The fields of the record have these names. -/
def Only (ns : List String) (fs : Fields) : Prop := ∀ n ∈ names fs, n ∈ ns

/-- The record `{ f = x }`. -/
def One (f : String) (x : Val) (v : Val) : Prop := ∃ fs, v = .record fs ∧ Only [f] fs ∧ get f fs = some x

/-- The record `{ f = x, g = y }`. -/
def Two (f : String) (x : Val) (g : String) (y : Val) (v : Val) : Prop :=
  ∃ fs, v = .record fs ∧ Only [f, g] fs ∧ get f fs = some x ∧ get g fs = some y

/-- The number of a byte. -/
def ofByte (b : Byte) : Val := .num b.toNat

/-- A modifier is given; one that is left out is not pressed. -/
def Gives (f : String) (b : Bool) (fs : Fields) : Prop := get f fs = some (.bool b) ∨ (get f fs = none ∧ b = false)

/-- The modifiers, as in `{ left_ctrl = true }`. -/
def ModsSaid (m : ModRec) (v : Val) : Prop :=
  ∃ fs, v = .record fs ∧
    Only ["left_ctrl", "left_shift", "left_alt", "left_gui", "right_ctrl", "right_shift", "right_alt", "right_gui"] fs ∧
    Gives "left_ctrl" m.leftCtrl fs ∧ Gives "left_shift" m.leftShift fs ∧ Gives "left_alt" m.leftAlt fs ∧ Gives "left_gui" m.leftGui fs ∧
    Gives "right_ctrl" m.rightCtrl fs ∧ Gives "right_shift" m.rightShift fs ∧ Gives "right_alt" m.rightAlt fs ∧
    Gives "right_gui" m.rightGui fs

/-- The movement of the mouse in a macro: all of the fields have to be given. -/
def MouseSaid (m : MouseOutput) (v : Val) : Prop :=
  ∃ fs, v = .record fs ∧ Only ["pressed_buttons", "x", "y", "vertical_scroll", "horizontal_scroll"] fs ∧
    get "pressed_buttons" fs = some (ofByte m.buttons) ∧ get "x" fs = some (.num m.x) ∧ get "y" fs = some (.num m.y) ∧
    get "vertical_scroll" fs = some (.num m.vscroll) ∧ get "horizontal_scroll" fs = some (.num m.hscroll) ∧
    (-128 ≤ m.x ∧ m.x < 128) ∧ (-128 ≤ m.y ∧ m.y < 128) ∧ (-128 ≤ m.vscroll ∧ m.vscroll < 128) ∧ (-128 ≤ m.hscroll ∧ m.hscroll < 128)

inductive UsageSaid : KeyUsage → Val → Prop where
  | keyboard {kc v} : One "Keyboard" (ofByte kc) v → UsageSaid (.keyboard kc) v
  | consumer {uc v} : One "Consumer" (ofByte uc) v → UsageSaid (.consumer uc) v
  | custom {cc v} : One "Custom" (ofByte cc) v → UsageSaid (.custom cc) v
  | mouse {m w v} : MouseSaid m w → One "MouseOutput" w v → UsageSaid (.mouse m) v

inductive OutputSaid : KeyOutput → Val → Prop where
  | usage {u w v} : UsageSaid u w → One "key_code" w v → OutputSaid (KeyOutput.fromUsage u) v
  | modifiers {m v} : One "key_modifiers" (ofByte m) v → OutputSaid (KeyOutput.fromKeyModifiers m) v
  | both {u w m v} : UsageSaid u w → Two "key_code" w "key_modifiers" (ofByte m) v →
    OutputSaid (KeyOutput.fromUsageWithModifiers u m) v

/-- A macro instruction, as in `{ Tap = { key_code = { Keyboard = 4 } } }`. -/
inductive InstructionSaid : Automation.Instruction → Val → Prop where
  | noOp : InstructionSaid .noOp (.str "NoOp")
  | press {o w v} : OutputSaid o w → One "Press" w v → InstructionSaid (.press o) v
  | release {o w v} : OutputSaid o w → One "Release" w v → InstructionSaid (.release o) v
  | tap {o w v} : OutputSaid o w → One "Tap" w v → InstructionSaid (.tap o) v
  | wait {n : Nat} {v} : One "Wait" (.num n) v → InstructionSaid (.wait n) v

def InstructionsSaid : List Automation.Instruction → List Val → Prop
  | [], [] => True
  | i :: is, v :: vs => InstructionSaid i v ∧ InstructionsSaid is vs
  | _, _ => False

/-- A list of instructions; one that is left out is empty. -/
def ListSaid (f : String) (is : List Automation.Instruction) (fs : Fields) : Prop :=
  (∃ vs, get f fs = some (.arr vs) ∧ InstructionsSaid is vs) ∨ (get f fs = none ∧ is = [])

/-- A macro, as in `{ on_press = [ … ], on_release = [ … ] }`. -/
def MacroSaid (tidy : Bool) (m : Codegen.Macro) (v : Val) : Prop :=
  ∃ fs, v = .record fs ∧ (tidy = true → Only ["on_press", "while_pressed", "on_release"] fs) ∧
    ListSaid "on_press" m.onPress fs ∧ ListSaid "while_pressed" m.whilePressed fs ∧ ListSaid "on_release" m.onRelease fs

/-- The place of a list of instructions, as in `{ start = 0, length = 6 }`. -/
def PlaceSaid (e : Automation.Execution) (v : Val) : Prop := Two "start" (.num e.start) "length" (.num e.length) v

/-- A macro whose instructions have been put into a list with those of the other macros. -/
def PlacesSaid (k : Automation.Key) (v : Val) : Prop :=
  ∃ fs p w r, v = .record fs ∧ Only ["on_press", "while_pressed", "on_release"] fs ∧
    get "on_press" fs = some p ∧ get "while_pressed" fs = some w ∧ get "on_release" fs = some r ∧
    PlaceSaid k.onPress p ∧ PlaceSaid k.whilePressed w ∧ PlaceSaid k.onRelease r

inductive CommandSaid : BtCommand → Val → Prop where
  | disconnect : CommandSaid .disconnect (.str "Disconnect")
  | clear : CommandSaid .clear (.str "Clear")
  | clearAll : CommandSaid .clearAll (.str "ClearAll")
  | previous : CommandSaid .previous (.str "Previous")
  | next : CommandSaid .next (.str "Next")
  | select {n : Nat} {v} : n < 256 → One "Select" (.num n) v → CommandSaid (.select n) v

inductive CallbackSaid : Callback → Val → Prop where
  | reset : CallbackSaid .reset (.str "Reset")
  | resetToBootloader : CallbackSaid .resetToBootloader (.str "ResetToBootloader")
  | bluetooth {c w v} : CommandSaid c w → One "Bluetooth" w v → CallbackSaid (.bluetooth c) v
  | custom {i j : Nat} {v} : i < 256 → j < 256 → One "Custom" (.arr [.num i, .num j]) v → CallbackSaid (.custom i j) v

inductive MouseKeySaid : Mouse.Ref → Val → Prop where
  | button {b : Nat} {v} : b < 256 → One "Button" (.num b) v → MouseKeySaid (.button b) v
  | cursorLeft : MouseKeySaid .cursorLeft (.str "CursorLeft")
  | cursorRight : MouseKeySaid .cursorRight (.str "CursorRight")
  | cursorUp : MouseKeySaid .cursorUp (.str "CursorUp")
  | cursorDown : MouseKeySaid .cursorDown (.str "CursorDown")
  | wheelUp : MouseKeySaid .wheelUp (.str "WheelUp")
  | wheelDown : MouseKeySaid .wheelDown (.str "WheelDown")
  | wheelLeft : MouseKeySaid .wheelLeft (.str "WheelLeft")
  | wheelRight : MouseKeySaid .wheelRight (.str "WheelRight")

inductive LayerSaid : LayerMod → Val → Prop where
  | default {l : Nat} {v} : One "default_" (.num l) v → LayerSaid (.default l) v
  | hold {l : Nat} {v} : One "hold" (.num l) v → LayerSaid (.hold l) v
  | sticky {l : Nat} {v} : One "sticky" (.num l) v → LayerSaid (.sticky l) v
  | toggle {l : Nat} {v} : 0 < l → One "toggle" (.num l) v → LayerSaid (.toggle l) v
  | set {ls : List Nat} {v} : One "set_active_layers_to" (.arr (ls.map fun l : Nat => .num l)) v → LayerSaid (.setActiveLayersTo ls) v

/-- A key that contains no other keys. -/
inductive LeafSaid (tidy : Bool) : Leaf → Val → Prop where
  | automation {m w v} : MacroSaid tidy m w → One "automation_instructions" w v → LeafSaid tidy (.automation m) v
  | compiled {k w v} : PlacesSaid k w → One "automation_instructions" w v → LeafSaid tidy (.compiled k) v
  | callback {c w v} : CallbackSaid c w → One "keymap_callback" w v → LeafSaid tidy (.callback c) v
  | capsWord : LeafSaid tidy .capsWord (.str "ToggleCapsWord")
  | consumer {uc v} : One "consumer_code" (ofByte uc) v → LeafSaid tidy (.consumer uc) v
  | custom {cc v} : One "custom" (ofByte cc) v → LeafSaid tidy (.custom cc) v
  | keyCode {kc v} : One "key_code" (ofByte kc) v → LeafSaid tidy (.keyCode kc) v
  | modifiers {m w v} : ModsSaid m w → One "modifiers" w v → LeafSaid tidy (.modifiers m) v
  | keyCodeModifiers {kc m w v} : ModsSaid m w → Two "key_code" (ofByte kc) "modifiers" w v → LeafSaid tidy (.keyCodeModifiers kc m) v
  | layerModifier {m w v} : LayerSaid m w → One "layer_modifier" w v → LeafSaid tidy (.layerModifier m) v
  | mouse {r w v} : MouseKeySaid r w → One "mouse" w v → LeafSaid tidy (.mouse r) v
  | sticky {m w v} : ModsSaid m w → One "sticky_modifiers" w v → LeafSaid tidy (.sticky m) v

mutual

/-- The value is how the key is written. -/
def _root_.Verif.Codegen.NKey.Says (tidy : Bool) : NKey → Val → Prop
  | .leaf l, v => LeafSaid tidy l v
  /-  `{ hold = h, … }`: the other fields are those of the tap key. -/
  | .hold t h, v => ∃ fs w, v = .record fs ∧ get "layered" fs = none ∧ get "tap_dances" fs = none ∧ get "hold" fs = some w ∧
      t.Says tidy (.record (without "hold" fs)) ∧ h.Says tidy w
  /-  `{ tap_dances = ds, … }`: the other fields are those of the key for one tap. -/
  | .dances t ds, v => ∃ fs vs, v = .record fs ∧ get "layered" fs = none ∧ get "tap_dances" fs = some (.arr vs) ∧
      t.Says tidy (.record (without "tap_dances" fs)) ∧ AllSay tidy ds vs
  /-  `{ layered = ls, … }`: the other fields are those of the key of the base layer. -/
  | .layered b ls, v => ∃ fs vs, v = .record fs ∧ get "layered" fs = some (.arr vs) ∧
      b.Says tidy (.record (without "layered" fs)) ∧ LayersSay tidy ls vs
  | .chorded cs p, v => ∃ vs w, Two "chords" (.arr vs) "passthrough" w v ∧ ChordsSay tidy cs vs ∧ p.Says tidy w
  | .aux p, v => ∃ w, One "passthrough" w v ∧ p.Says tidy w

def AllSay (tidy : Bool) : List NKey → List Val → Prop
  | [], vs => vs = []
  | k :: ks, vs => ∃ v rest, vs = v :: rest ∧ k.Says tidy v ∧ AllSay tidy ks rest

/-- `null` is a transparent key. -/
def LayersSay (tidy : Bool) : List (Option NKey) → List Val → Prop
  | [], vs => vs = []
  | none :: ks, vs => ∃ rest, vs = .null :: rest ∧ LayersSay tidy ks rest
  | some k :: ks, vs => ∃ v rest, vs = v :: rest ∧ k.Says tidy v ∧ LayersSay tidy ks rest

def ChordsSay (tidy : Bool) : List (Nat × NKey) → List Val → Prop
  | [], vs => vs = []
  | (i, k) :: ks, vs => ∃ v rest, vs = .arr [.num i, v] :: rest ∧ k.Says tidy v ∧ ChordsSay tidy ks rest

end

/-- A key of a layer: `null` is a transparent key. -/
def Cell (tidy : Bool) (k : Option NKey) (v : Val) : Prop :=
  match k with
  | none => v = .null
  | some k => k.Says tidy v

/-- The number of positions of a keymap. -/
def Raw.count (r : Raw) : Nat := ((r.layers[0]?).map List.length).getD 0

/-- What a keymap file says. The keys of a layer for positions which the base layer does not have, and the keys of chords
without a position of the base layer, are not looked at. -/
structure Raw.Says (tidy : Bool) (r : Raw) (s : Src) : Prop where
  options : s.options = r.options
  layers : s.layers.map List.length = r.layers.map List.length
  cells : ∀ (l i : Nat) vs ks v k, r.layers[l]? = some vs → s.layers[l]? = some ks → vs[i]? = some v → ks[i]? = some k →
    i < r.count → Cell tidy k v
  indices : s.chords.map (·.indices) = r.chords.map (·.indices)
  chords : ∀ (n : Nat) c d i, r.chords[n]? = some c → s.chords[n]? = some d → c.indices.head? = some i → i < r.count →
    d.key.Says tidy c.key

end Verif.Nickel
