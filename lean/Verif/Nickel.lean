import Verif.Codegen

/-!
# Keys as Nickel records

In the keymap files keys are records without a type. The compiler finds out what a record stands for by trying
the key modules one after the other: ncl/validators.ncl, the `key_validator`, `to_json_value` and `map_accum` functions of
ncl/keymap-ncl-to-json.ncl and ncl/smart_keys/*/keymap-ncl-to-json.ncl, then the `json_validator` and
`codegen_values` functions of ncl/keymap-codegen.ncl and ncl/smart_keys/*/keymap-codegen.ncl.

Simplified: numbers are whole numbers; a verdict is a `Bool` (`'Ok` or not). Where Nickel stops with an error
inside of a validator (a tuple with too many elements, ncl/validators.ncl 263), the verdict is `false`: such a value is not turned
into JSON either. Texts put into Rust expressions are names of constants only.
-/

namespace Verif.Nickel

open Codegen (JKey)

/-! ## Values -/

/-- A Nickel value, as far as keymaps need them. A record is the list of its fields; in Nickel no name occurs twice, here the first
field of a name counts. -/
inductive Val where
  | null
  | bool (b : Bool)
  | num (n : Int)
  | str (s : String)
  | arr (vs : List Val)
  | record (fs : List (String × Val))
  deriving Repr

/-- The fields of a record. -/
abbrev Fields := List (String × Val)

mutual

/-- The size of a value, which bounds the depth of the recursions. -/
def Val.size : Val → Nat
  | .arr vs => 1 + sizes vs
  | .record fs => 1 + fieldSizes fs
  | _ => 1

def sizes : List Val → Nat
  | [] => 0
  | v :: vs => v.size + sizes vs

def fieldSizes : List (String × Val) → Nat
  | [] => 0
  | (_, v) :: fs => 1 + v.size + fieldSizes fs

end

/-- `std.record.fields`. -/
def names (fs : Fields) : List String := fs.map (·.1)

/-- `std.record.get`, or the value a record pattern binds. -/
def get (f : String) (fs : Fields) : Option Val := (fs.find? (fun x => x.1 = f)).map (·.2)

/-- The other fields. -/
def without (f : String) (fs : Fields) : Fields := fs.filter (fun x => x.1 ≠ f)

/-- The record pattern `{ f }`: a record with this field only. -/
def pat (f : String) : Val → Option Val
  | .record fs => if (names fs).all (· = f) then get f fs else none
  | _ => none

/-- The record pattern `{ f, g }`. -/
def pat₂ (f g : String) : Val → Option (Val × Val)
  | .record fs => if (names fs).all (fun n => n = f ∨ n = g) then
      match get f fs, get g fs with
      | some v, some w => some (v, w)
      | _, _ => none
    else none
  | _ => none

/-- The record pattern `{ f, ..rest }`. -/
def patRest (f : String) : Val → Option (Val × Val)
  | .record fs => (get f fs).map fun v => (v, .record (without f fs))
  | _ => none

/-! ## Validators -/

/-- `is_array`, ncl/validators.ncl 19-23. -/
def isArray : Val → Bool
  | .arr _ => true
  | _ => false

/-- `is_bool`, ncl/validators.ncl 25-29. -/
def isBool : Val → Bool
  | .bool _ => true
  | _ => false

/-- `is_null`, ncl/validators.ncl 31-35. -/
def isNull : Val → Bool
  | .null => true
  | _ => false

/-- `is_number`, ncl/validators.ncl 37-41. -/
def isNumber : Val → Bool
  | .num _ => true
  | _ => false

/-- `is_string`, ncl/validators.ncl 49-53. -/
def isString : Val → Bool
  | .str _ => true
  | _ => false

/-- `equals_string`, ncl/validators.ncl 55-59. -/
def equalsString (target : String) : Val → Bool
  | .str s => s = target
  | _ => false

/-- `is_greater_than`, ncl/validators.ncl 67-71. -/
def isGreaterThan (gt : Int) : Val → Bool
  | .num n => n > gt
  | _ => false

/-- `all_of`, ncl/validators.ncl 85-94. -/
def allOf (ps : List (Val → Bool)) (v : Val) : Bool := ps.all (· v)

/-- `any_of`, ncl/validators.ncl 105-114. -/
def anyOf (ps : List (Val → Bool)) (v : Val) : Bool := ps.any (· v)

/-- `array.validator`, ncl/validators.ncl 120-140. -/
def arrayOf (p : Val → Bool) : Val → Bool
  | .arr vs => vs.all p
  | _ => false

/-- The loop of `tuple.validator`, ncl/validators.ncl 258-269: a tuple may have fewer elements than there are
validators. -/
def tupleElements : List (Val → Bool) → List Val → Bool
  | _, [] => true
  | [], _ :: _ => false
  | p :: ps, v :: vs => p v && tupleElements ps vs

/-- `tuple.validator`, ncl/validators.ncl 252-274. -/
def tupleOf (ps : List (Val → Bool)) : Val → Bool
  | .arr vs => tupleElements ps vs
  | _ => false

/-- `record.has_all_fields`, ncl/validators.ncl 165-175. -/
def hasAll (ns : List String) (fs : Fields) : Bool := ns.all ((names fs).contains ·)

/-- `record.has_only_fields`, ncl/validators.ncl 198-208. -/
def hasOnly (ns : List String) (fs : Fields) : Bool := (names fs).all (ns.contains ·)

/-- `record.has_any_field_of`, ncl/validators.ncl 177-188. -/
def hasAnyOf (ns : List String) (fs : Fields) : Bool := (names fs).any (ns.contains ·)

/-- `record.has_exact_fields`, ncl/validators.ncl 190-196. -/
def hasExact (ns : List String) (fs : Fields) : Bool := hasAll ns fs && hasOnly ns fs

/-- The loop of `record.validator` for the fields which have a validator, ncl/validators.ncl 219-236. -/
def fieldsOk (ps : List (String × (Val → Bool))) (fs : Fields) : Bool :=
  ps.all fun p => match get p.1 fs with
    | some v => p.2 v
    | none => true

/-- `record.validator`, ncl/validators.ncl 210-244. -/
def recordOf (shape : Fields → Bool) (ps : List (String × (Val → Bool))) : Val → Bool
  | .record fs => shape fs && fieldsOk ps fs
  | _ => false

/-- `[a, b] |> match { ['Ok, 'Ok] => 'Ok, [err, _] => err, [_, err] => err }`, ncl/smart_keys/tap_hold/keymap-ncl-to-json.ncl 58-63
and likewise in tap_dance 19-24, layered 121-126 and chorded 20-25. If `a` is `'Ok` and `b` is an error, the second line matches,
and the verdict is `'Ok`. -/
def both : Bool → Bool → Bool
  | true, true => true
  | err, _ => err

/-! ## Macro instructions -/

/-- `keyboard_modifiers.json_validator`, ncl/keymap-codegen.ncl 68. -/
def modifiersJson : Val → Bool := isNumber

/-- `mouse_output.json_validator`, ncl/keymap-codegen.ncl 78-88. -/
def mouseOutputJson : Val → Bool :=
  recordOf (hasOnly ["pressed_buttons", "x", "y", "vertical_scroll", "horizontal_scroll"])
    [("pressed_buttons", isNumber), ("x", isNumber), ("y", isNumber), ("vertical_scroll", isNumber), ("horizontal_scroll", isNumber)]

/-- `key_usage.json_validator`, ncl/keymap-codegen.ncl 124-133. -/
def keyUsageJson : Val → Bool :=
  recordOf (hasAnyOf ["Keyboard", "Consumer", "Custom", "MouseOutput"])
    [("Keyboard", isNumber), ("Consumer", isNumber), ("Custom", isNumber), ("MouseOutput", mouseOutputJson)]

/-- `key_output.json_validator`, ncl/keymap-codegen.ncl 157-164. -/
def keyOutputJson : Val → Bool :=
  recordOf (hasOnly ["key_code", "key_modifiers"]) [("key_code", keyUsageJson), ("key_modifiers", modifiersJson)]

/-- `automation.instruction.json_validator`, ncl/smart_keys/automation/keymap-codegen.ncl 27-39. -/
def instructionJson : Val → Bool :=
  anyOf [isString,
    recordOf (hasAnyOf ["Press", "Release", "Tap", "Wait"])
      [("Press", keyOutputJson), ("Release", keyOutputJson), ("Tap", keyOutputJson), ("Wait", isNumber)]]

/-- `automation.execution.json_validator`, ncl/smart_keys/automation/keymap-codegen.ncl 57-64. -/
def executionJson : Val → Bool :=
  recordOf (hasExact ["start", "length"]) [("start", isNumber), ("length", isNumber)]

/-- `std.to_string` of a number as a Rust literal of the type `u8`; a literal out of range is a compile error. -/
def byte : Val → Option Byte
  | .num n => if 0 ≤ n ∧ n < 256 then some (BitVec.ofInt 8 n) else none
  | _ => none

/-- A Rust literal of the type `i8`. -/
def signed : Val → Option Int
  | .num n => if -128 ≤ n ∧ n < 128 then some n else none
  | _ => none

/-- A Rust literal of an unsigned type (simplified: without an upper bound). -/
def natural : Val → Option Nat
  | .num n => if 0 ≤ n then some n.toNat else none
  | _ => none

/-- A Rust literal of the type `u8`, as a number. -/
def small : Val → Option Nat
  | .num n => if 0 ≤ n ∧ n < 256 then some n.toNat else none
  | _ => none

/-- The field of a record: `json.x`. -/
def field (f : String) : Val → Option Val
  | .record fs => get f fs
  | _ => none

/-- `mouse_output.rust_expr`, ncl/keymap-codegen.ncl 92-111: the defaults are not used (`json.x`, not `x`), so that all of the
fields have to be given. -/
def mouseOutput (v : Val) : Option MouseOutput := do
  let buttons ← byte (← field "pressed_buttons" v)
  let x ← signed (← field "x" v)
  let y ← signed (← field "y" v)
  let vscroll ← signed (← field "vertical_scroll" v)
  let hscroll ← signed (← field "horizontal_scroll" v)
  pure ⟨buttons, x, y, vscroll, hscroll⟩

/-- `key_usage.rust_expr`, ncl/keymap-codegen.ncl 137-144. -/
def keyUsage (v : Val) : Option KeyUsage :=
  match pat "Keyboard" v, pat "Consumer" v, pat "Custom" v, pat "MouseOutput" v with
  | some n, _, _, _ => (byte n).map .keyboard
  | _, some n, _, _ => (byte n).map .consumer
  | _, _, some n, _ => (byte n).map .custom
  | _, _, _, some m => (mouseOutput m).map .mouse
  | _, _, _, _ => none

/-- `key_output.rust_expr`, ncl/keymap-codegen.ncl 168-181. -/
def keyOutput (v : Val) : Option KeyOutput :=
  match pat "key_code" v, pat "key_modifiers" v, pat₂ "key_code" "key_modifiers" v with
  | some u, _, _ => (keyUsage u).map KeyOutput.fromUsage
  | _, some m, _ => (byte m).map KeyOutput.fromKeyModifiers
  | _, _, some (u, m) => do
    let u ← keyUsage u
    let m ← byte m
    pure (KeyOutput.fromUsageWithModifiers u m)
  | _, _, _ => none

/-- `automation.instruction.rust_expr`, ncl/smart_keys/automation/keymap-codegen.ncl 43-51, behind the contract of
`config.Json`, 147. -/
def instruction (v : Val) : Option Automation.Instruction :=
  if instructionJson v then
    match v with
    | .str s => if s = "NoOp" then some .noOp else none
    | v => match pat "Press" v, pat "Release" v, pat "Tap" v, pat "Wait" v with
      | some o, _, _, _ => (keyOutput o).map .press
      | _, some o, _, _ => (keyOutput o).map .release
      | _, _, some o, _ => (keyOutput o).map .tap
      | _, _, _, some n => (natural n).map .wait
      | _, _, _, _ => none
  else none

/-! ## Source keys -/

/-- The key modules, ncl/keymap-ncl-to-json.ncl 123-138. -/
inductive Mod where
  | automation | callback | capsWord | chorded | chordedAux | consumer | custom | keyboard | layerModifier | layered | mouse
  | sticky | tapDance | tapHold
  deriving DecidableEq, Repr

/-- `key_modules`, ncl/keymap-ncl-to-json.ncl 123-138. -/
def keyModules : List Mod :=
  [.automation, .callback, .capsWord, .chorded, .chordedAux, .consumer, .custom, .keyboard, .layerModifier, .layered, .mouse,
    .sticky, .tapDance, .tapHold]

/-- The names of the modifiers. -/
def modifierNames : List String :=
  ["left_ctrl", "left_shift", "left_alt", "left_gui", "right_ctrl", "right_shift", "right_alt", "right_gui"]

/-- `keyboard_modifiers.validator`, ncl/keymap-ncl-to-json.ncl 54-78. -/
def modifiersKey : Val → Bool :=
  recordOf (hasOnly modifierNames) (modifierNames.map fun n => (n, isBool))

/-- Whether a modifier is given, and `true`. -/
def flag (f : String) (fs : Fields) : Bool :=
  match get f fs with
  | some (.bool b) => b
  | _ => false

/-- `keyboard_modifiers.to_json_value`, ncl/keymap-ncl-to-json.ncl 82-105, of a value that passed the validator. -/
def modifiersValue : Val → Option Val
  | .record fs => some (.num (
      (if flag "left_ctrl" fs then 1 else 0) + (if flag "left_shift" fs then 2 else 0) + (if flag "left_alt" fs then 4 else 0) +
      (if flag "left_gui" fs then 8 else 0) + (if flag "right_ctrl" fs then 16 else 0) + (if flag "right_shift" fs then 32 else 0) +
      (if flag "right_alt" fs then 64 else 0) + (if flag "right_gui" fs then 128 else 0)))
  | _ => none

/-- `instructions_or_execution`, ncl/smart_keys/automation/keymap-ncl-to-json.ncl 56-60. -/
def instructionsOrExecution : Val → Bool := anyOf [executionJson, arrayOf instructionJson]

/-- `automation.key_instructions.ncl_validator`, ncl/smart_keys/automation/keymap-ncl-to-json.ncl 51-67. -/
def keyInstructions : Val → Bool :=
  recordOf (hasOnly ["on_press", "while_pressed", "on_release"])
    [("on_press", instructionsOrExecution), ("while_pressed", instructionsOrExecution), ("on_release", instructionsOrExecution)]

/-- The commands without a number. -/
def bluetoothNames : List String := ["Clear", "ClearAll", "Disconnect", "Next", "Previous"]

/-- The field of `callback.key_validator`, ncl/smart_keys/callback/keymap-ncl-to-json.ncl 12-21. -/
def callbackKey (c : Val) : Bool :=
  match pat "Bluetooth" c, pat "Custom" c with
  | some (.str s), _ => bluetoothNames.contains s
  | some b, _ => match pat "Select" b with
    | some n => isNumber n
    | none => false
  | none, some (.arr [i, j]) => arrayOf isNumber (.arr [i, j])
  | none, _ => isString c

/-- The field of `layer_modifier.key_validator`, ncl/smart_keys/layered/keymap-ncl-to-json.ncl 36-41. -/
def layerModifierKey (m : Val) : Bool :=
  match pat "default_" m, pat "hold" m, pat "sticky" m, pat "toggle" m, pat "set_active_layers_to" m with
  | some l, _, _, _, _ => isNumber l
  | _, some l, _, _, _ => isNumber l
  | _, _, some l, _, _ => isNumber l
  | _, _, _, some l, _ => allOf [isNumber, isGreaterThan 0] l
  | _, _, _, _, some ls => arrayOf isNumber ls
  | _, _, _, _, _ => false

/-- The `key_validator` functions of ncl/smart_keys/*/keymap-ncl-to-json.ncl: automation 70-77, callback 9-23, caps_word 9-14,
chorded 14-27 and 57-62, consumer 9-16, custom 9-14, keyboard 25-36, layered 33-42 and 110-128, mouse 9-23, sticky 35-42,
tap_dance 13-26, tap_hold 52-65. `key` is `keymap_ncl.key.key_validator`. -/
def Mod.accepts (key : Val → Bool) : Mod → Val → Bool
  | .automation, v => recordOf (hasOnly ["automation_instructions"]) [("automation_instructions", keyInstructions)] v
  | .callback, v =>
    match pat "keymap_callback" v with
    | some c => callbackKey c
    | none => false
  | .capsWord, v => equalsString "ToggleCapsWord" v
  | .chorded, v =>
    match pat₂ "chords" "passthrough" v with
    | some (cs, p) => both (arrayOf (tupleOf [isNumber, key]) cs) (key p)
    | none => false
  | .chordedAux, v =>
    match pat "passthrough" v with
    | some p => key p
    | none => false
  | .consumer, v => recordOf (hasExact ["consumer_code"]) [("consumer_code", isNumber)] v
  | .custom, v =>
    match pat "custom" v with
    | some n => isNumber n
    | none => false
  | .keyboard, v =>
    recordOf (fun fs => hasAnyOf ["key_code", "modifiers"] fs && hasOnly ["key_code", "modifiers"] fs)
      [("key_code", isNumber), ("modifiers", modifiersKey)] v
  | .layerModifier, v =>
    match pat "layer_modifier" v with
    | some m => layerModifierKey m
    | none => false
  | .layered, v =>
    match patRest "layered" v with
    | some (ls, base) => both (arrayOf (anyOf [isNull, key]) ls) (key base)
    | none => false
  | .mouse, v =>
    recordOf (hasExact ["mouse"]) [("mouse", anyOf [isString, recordOf (hasExact ["Button"]) [("Button", isNumber)]])] v
  | .sticky, v => recordOf (hasExact ["sticky_modifiers"]) [("sticky_modifiers", modifiersKey)] v
  | .tapDance, v =>
    match patRest "tap_dances" v with
    | some (ds, tap) => both (arrayOf key ds) (key tap)
    | none => false
  | .tapHold, v =>
    match patRest "hold" v with
    | some (h, tap) => both (key h) (key tap)
    | none => false

/-- `keymap_ncl.key.key_validator`, ncl/keymap-ncl-to-json.ncl 142-144, `n` levels deep. -/
def keyValidatorTo : Nat → Val → Bool
  | 0, _ => false
  | n + 1, v => keyModules.any fun m => m.accepts (keyValidatorTo n) v

/-- `keymap_ncl.key.key_validator`. -/
def keyValidator (v : Val) : Bool := keyValidatorTo v.size v

/-- `keymap_ncl.nullable_key.key_validator`, ncl/keymap-ncl-to-json.ncl 168-173: the contract `KeymapKey` (26) of the keys in a
keymap. -/
def nullableKey (v : Val) : Bool := anyOf [keyValidator, isNull] v

/-- `key_module_for_value`, ncl/keymap-ncl-to-json.ncl 148-154. -/
def moduleFor (v : Val) : Option Mod := keyModules.find? fun m => m.accepts keyValidator v

/-- The sum of the powers of two, ncl/smart_keys/layered/keymap-ncl-to-json.ncl 58-62. (Simplified: a negative layer, whose
power is a fraction, is an error.) -/
def layersValue : List Val → Option Nat
  | [] => some 0
  | v :: vs => do
    let l ← natural v
    let rest ← layersValue vs
    pure (2 ^ l + rest)

/-- `layer_modifier.to_json_value`, ncl/smart_keys/layered/keymap-ncl-to-json.ncl 46-65. `reduce_left` fails for an empty array. -/
def layerModifierValue (m : Val) : Option Val :=
  match pat "default_" m, pat "hold" m, pat "toggle" m, pat "sticky" m, pat "set_active_layers_to" m with
  | some l, _, _, _, _ => some (.record [("Default", l)])
  | _, some l, _, _, _ => some (.record [("Hold", l)])
  | _, _, some l, _, _ => some (.record [("Toggle", l)])
  | _, _, _, some l, _ => some (.record [("Sticky", l)])
  | _, _, _, _, some (.arr (l :: ls)) => (layersValue (l :: ls)).map fun n : Nat => .record [("SetActiveLayers", .num n)]
  | _, _, _, _, _ => none

/-- `std.array.map f` for a function that may fail. -/
def mapAll {α β : Type} (f : α → Option β) : List α → Option (List β)
  | [] => some []
  | a :: as => do
    let b ← f a
    let bs ← mapAll f as
    pure (b :: bs)

/-- `std.array.map` of an array. -/
def mapArray (f : Val → Option Val) : Val → Option Val
  | .arr vs => (mapAll f vs).map .arr
  | _ => none

/-- `if k != null then to_json_value k else null`, ncl/smart_keys/layered/keymap-ncl-to-json.ncl 137. -/
def orNull (f : Val → Option Val) : Val → Option Val
  | .null => some .null
  | v => f v

/-- `fun [i, chord_key] => [i, to_json_value chord_key]`, ncl/smart_keys/chorded/keymap-ncl-to-json.ncl 33. -/
def inPair (f : Val → Option Val) : Val → Option Val
  | .arr [i, k] => (f k).map fun k => .arr [i, k]
  | _ => none

/-- The `to_json_value` functions of ncl/smart_keys/*/keymap-ncl-to-json.ncl: automation 84-85, callback 27, caps_word 18, chorded
31-35 and 66-69, consumer 20, custom 18, keyboard 40-43, layered 46-65 and 132-139, mouse 27, sticky 46, tap_dance 30-33, tap_hold
69-73. `value` is `keymap_ncl.key.to_json_value`. -/
def Mod.value (value : Val → Option Val) : Mod → Val → Option Val
  | .automation, v => (pat "automation_instructions" v).map fun _ => v
  | .chorded, v => do
    let (cs, p) ← pat₂ "chords" "passthrough" v
    let cs ← mapArray (inPair value) cs
    let p ← value p
    pure (.record [("chords", cs), ("passthrough", p)])
  | .chordedAux, v => do
    let p ← pat "passthrough" v
    let p ← value p
    pure (.record [("passthrough", p)])
  | .keyboard, v =>
    match patRest "modifiers" v with
    | some (m, .record fs) => (modifiersValue m).map fun m => .record (fs ++ [("modifiers", m)])
    | _ => some v
  | .layerModifier, v => do
    let m ← pat "layer_modifier" v
    layerModifierValue m
  | .layered, v => do
    let (ls, base) ← patRest "layered" v
    let base ← value base
    let ls ← mapArray (orNull value) ls
    pure (.record [("base", base), ("layered", ls)])
  | .sticky, v => do
    let m ← pat "sticky_modifiers" v
    let m ← modifiersValue m
    pure (.record [("sticky_modifiers", m)])
  | .tapDance, v => do
    let (ds, tap) ← patRest "tap_dances" v
    let tap ← value tap
    match ds with
    | .arr ds =>
      let ds ← mapAll value ds
      pure (.record [("definitions", .arr (tap :: ds))])
    | _ => none
  | .tapHold, v => do
    let (h, tap) ← patRest "hold" v
    let h ← value h
    let tap ← value tap
    pure (.record [("hold", h), ("tap", tap)])
  | .callback, v => some v
  | .capsWord, v => some v
  | .consumer, v => some v
  | .custom, v => some v
  | .mouse, v => some v

/-- `keymap_ncl.key.to_json_value`, ncl/keymap-ncl-to-json.ncl 156-158, `n` levels deep. -/
def toJsonTo : Nat → Val → Option Val
  | 0, _ => none
  | n + 1, v => do
    let m ← moduleFor v
    m.value (toJsonTo n) v

/-- `keymap_ncl.key.to_json_value`. -/
def toJson (v : Val) : Option Val := toJsonTo v.size v

/-! ## Numbering the macro instructions -/

/-- `transform` in `transform_keys_to_instructions`, ncl/smart_keys/automation/keymap-ncl-to-json.ncl 92-100, for the list in the
field `f`, which is empty by default (101-108). `std.array.length` stops for a value that is not an array. -/
def appendField (f : String) (fs : Fields) (acc : List Val) : Option (List Val × Val) :=
  match get f fs with
  | none => some (acc, .record [("length", .num 0), ("start", .num acc.length)])
  | some (.arr is) => some (acc ++ is, .record [("length", .num is.length), ("start", .num acc.length)])
  | some _ => none

/-- `transform_keys_to_instructions`, ncl/smart_keys/automation/keymap-ncl-to-json.ncl 87-124. -/
def transform (acc : List Val) (v : Val) : Option (List Val × Val) :=
  match pat "automation_instructions" v with
  | some (.record fs) => do
    let (acc, onPress) ← appendField "on_press" fs acc
    let (acc, whilePressed) ← appendField "while_pressed" fs acc
    let (acc, onRelease) ← appendField "on_release" fs acc
    pure (acc, .record [("automation_instructions",
      .record [("on_press", onPress), ("on_release", onRelease), ("while_pressed", whilePressed)])])
  | some _ => none
  | none => some (acc, v)

/-- The loops of `map_accum` over arrays, ncl/smart_keys/tap_dance/keymap-ncl-to-json.ncl 36-44 and layered 142-150. -/
def transformAll (acc : List Val) : List Val → Option (List Val × List Val)
  | [] => some (acc, [])
  | v :: vs => do
    let (acc, v) ← transform acc v
    let (acc, vs) ← transformAll acc vs
    pure (acc, v :: vs)

/-- The loop of `chorded.map_accum`, ncl/smart_keys/chorded/keymap-ncl-to-json.ncl 38-46. -/
def transformPairs (acc : List Val) : List Val → Option (List Val × List Val)
  | [] => some (acc, [])
  | .arr [i, v] :: vs => do
    let (acc, v) ← transform acc v
    let (acc, vs) ← transformPairs acc vs
    pure (acc, .arr [i, v] :: vs)
  | _ :: _ => none

/-- `{ f = v } & rest`. -/
def withField (f : String) (v : Val) : Val → Option Val
  | .record fs => if (names fs).contains f then none else some (.record ((f, v) :: fs))
  | _ => none

/-- `map_accum transform_keys_to_instructions` of the modules, ncl/smart_keys/*/keymap-ncl-to-json.ncl: automation 126-127, chorded
37-49 and 71-73, layered 141-154, tap_dance 35-54, tap_hold 75-85, `f acc k` for the others. -/
def Mod.accum (acc : List Val) : Mod → Val → Option (List Val × Val)
  | .chorded, v => do
    let (cs, p) ← pat₂ "chords" "passthrough" v
    match cs with
    | .arr cs =>
      let (acc, cs) ← transformPairs acc cs
      let (acc, p) ← transform acc p
      pure (acc, .record [("chords", .arr cs), ("passthrough", p)])
    | _ => none
  | .chordedAux, v => do
    let p ← pat "passthrough" v
    let (acc, p) ← transform acc p
    pure (acc, .record [("passthrough", p)])
  | .layered, v => do
    let (ls, base) ← patRest "layered" v
    match ls with
    | .arr ls =>
      let (acc, ls) ← transformAll acc ls
      let (acc, base) ← transform acc base
      let v ← withField "layered" (.arr ls) base
      pure (acc, v)
    | _ => none
  | .tapDance, v => do
    let (ds, tap) ← patRest "tap_dances" v
    match ds with
    | .arr ds =>
      let (acc, ds) ← transformAll acc ds
      let (acc, tap) ← transform acc tap
      let v ← withField "tap_dances" (.arr ds) tap
      pure (acc, v)
    | _ => none
  | .tapHold, v => do
    let (h, tap) ← patRest "hold" v
    let (acc, tap) ← transform acc tap
    let (acc, h) ← transform acc h
    let v ← withField "hold" h tap
    pure (acc, v)
  | .automation, v => transform acc v
  | .callback, v => transform acc v
  | .capsWord, v => transform acc v
  | .consumer, v => transform acc v
  | .custom, v => transform acc v
  | .keyboard, v => transform acc v
  | .layerModifier, v => transform acc v
  | .mouse, v => transform acc v
  | .sticky, v => transform acc v

/-- The loop of `json_keymap`, ncl/keymap-ncl-to-json.ncl 294-308, with `keymap_ncl.key.map_accum`, 160-162. -/
def accumAll (acc : List Val) : List Val → Option (List Val × List Val)
  | [] => some (acc, [])
  | v :: vs => do
    let m ← moduleFor v
    let (acc, v) ← m.accum acc v
    let (acc, vs) ← accumAll acc vs
    pure (acc, v :: vs)

/-! ## JSON keys -/

/-- The `codegen_modules`, ncl/keymap-codegen.ncl 251-266. -/
inductive JMod where
  | automation | callback | capsWord | aux | chorded | consumer | custom | keyboard | mouse | layered | modifier | sticky
  | tapDance | tapHold
  deriving DecidableEq, Repr

/-- `codegen_modules`, ncl/keymap-codegen.ncl 251-266. -/
def codegenModules : List JMod :=
  [.automation, .callback, .capsWord, .aux, .chorded, .consumer, .custom, .keyboard, .mouse, .layered, .modifier, .sticky,
    .tapDance, .tapHold]

/-- `automation.key_instructions.json_validator`, ncl/smart_keys/automation/keymap-codegen.ncl 78-86. -/
def keyExecutions : Val → Bool :=
  recordOf (hasOnly ["on_press", "while_pressed", "on_release"])
    [("on_press", executionJson), ("while_pressed", executionJson), ("on_release", executionJson)]

/-- The field of `callback.key.json_validator`, ncl/smart_keys/callback/keymap-codegen.ncl 23-50. -/
def callbackJson : Val → Bool :=
  anyOf [isString,
    recordOf (hasExact ["Bluetooth"])
      [("Bluetooth", anyOf (bluetoothNames.map equalsString ++ [recordOf (hasExact ["Select"]) [("Select", isNumber)]]))],
    recordOf (hasExact ["Custom"]) [("Custom", isArray)]]

/-- The fields of layer keys, ncl/smart_keys/layered/keymap-codegen.ncl 93-94. -/
def layerNames : List String := ["Default", "Hold", "Sticky", "SetActiveLayers", "Toggle"]

/-- The `json_validator` functions of ncl/smart_keys/*/keymap-codegen.ncl: automation 103-110, callback 18-52, caps_word 18-23, chorded
25-33 and 128-134, consumer 16-23, custom 18-24, keyboard 50-61, layered 89-102 and 186-199, mouse 16-30, sticky 22-31, tap_dance
26-32, tap_hold 63-70. `key` is `smart_key.json_validator`. -/
def JMod.accepts (key : Val → Bool) : JMod → Val → Bool
  | .automation => recordOf (hasExact ["automation_instructions"]) [("automation_instructions", keyExecutions)]
  | .callback => recordOf (hasExact ["keymap_callback"]) [("keymap_callback", callbackJson)]
  | .capsWord => equalsString "ToggleCapsWord"
  | .aux => recordOf (hasExact ["passthrough"]) [("passthrough", key)]
  | .chorded => recordOf (hasExact ["chords", "passthrough"]) [("chords", arrayOf (tupleOf [isNumber, key])), ("passthrough", key)]
  | .consumer => recordOf (hasExact ["consumer_code"]) [("consumer_code", isNumber)]
  | .custom => recordOf (hasExact ["custom"]) [("custom", isNumber)]
  | .keyboard =>
    recordOf (fun fs => hasAnyOf ["key_code", "modifiers"] fs && hasOnly ["key_code", "modifiers"] fs)
      [("key_code", isNumber), ("modifiers", modifiersJson)]
  | .mouse =>
    recordOf (hasExact ["mouse"]) [("mouse", anyOf [isString, recordOf (hasExact ["Button"]) [("Button", isNumber)]])]
  | .layered => recordOf (hasExact ["base", "layered"]) [("base", key), ("layered", arrayOf (anyOf [isNull, key]))]
  | .modifier =>
    recordOf (fun fs => hasAnyOf layerNames fs && hasOnly layerNames fs)
      [("Hold", isNumber), ("Toggle", isNumber), ("Sticky", isNumber), ("SetActiveLayers", isNumber)]
  | .sticky => recordOf (hasExact ["sticky_modifiers"]) [("sticky_modifiers", modifiersJson)]
  | .tapDance => recordOf (hasExact ["definitions"]) [("definitions", arrayOf key)]
  | .tapHold => recordOf (hasExact ["tap", "hold"]) [("tap", key), ("hold", key)]

/-- `smart_key.json_validator`, ncl/keymap-codegen.ncl 268-270, `n` levels deep. -/
def jsonValidatorTo : Nat → Val → Bool
  | 0, _ => false
  | n + 1, v => codegenModules.any fun m => m.accepts (jsonValidatorTo n) v

/-- `smart_key.json_validator`. -/
def jsonValidator (v : Val) : Bool := jsonValidatorTo v.size v

/-- `execution.rust_expr`, ncl/smart_keys/automation/keymap-codegen.ncl 68-72. -/
def execution (v : Val) : Option Automation.Execution := do
  let (s, l) ← pat₂ "start" "length" v
  let s ← natural s
  let l ← natural l
  pure ⟨s, l⟩

/-- `key_instructions.rust_expr`, ncl/smart_keys/automation/keymap-codegen.ncl 90-95: the pattern has all of the three fields. -/
def executions : Val → Option Automation.Key
  | .record fs => do
    let p ← get "on_press" fs
    let w ← get "while_pressed" fs
    let r ← get "on_release" fs
    if hasOnly ["on_press", "while_pressed", "on_release"] fs then
      let p ← execution p
      let w ← execution w
      let r ← execution r
      pure ⟨p, w, r⟩
    else none
  | _ => none

/-- The commands by their names, src/keymap.rs 158-171. -/
def bluetooth (s : String) : Option BtCommand :=
  if s = "Clear" then some .clear
  else if s = "ClearAll" then some .clearAll
  else if s = "Disconnect" then some .disconnect
  else if s = "Next" then some .next
  else if s = "Previous" then some .previous
  else none

/-- The Rust expression of a callback, ncl/smart_keys/callback/keymap-codegen.ncl 62-84, src/keymap.rs 175-184. -/
def callbackExpr (c : Val) : Option Callback :=
  match pat "Bluetooth" c, pat "Custom" c with
  | some b, _ => match pat "Select" b, b with
    | some n, _ => (small n).map fun n => .bluetooth (.select n)
    | none, .str s => (bluetooth s).map .bluetooth
    | none, _ => none
  | none, some (.arr [i, j]) => do
    let i ← small i
    let j ← small j
    pure (.custom i j)
  | none, _ => match c with
    | .str s => if s = "Reset" then some .reset else if s = "ResetToBootloader" then some .resetToBootloader else none
    | _ => none

/-- The names of the mouse keys, src/key/mouse.rs 9-28. -/
def mouseNames : List (String × Mouse.Ref) :=
  [("CursorLeft", .cursorLeft), ("CursorRight", .cursorRight), ("CursorUp", .cursorUp), ("CursorDown", .cursorDown),
    ("WheelUp", .wheelUp), ("WheelDown", .wheelDown), ("WheelLeft", .wheelLeft), ("WheelRight", .wheelRight)]

/-- The Rust expression of a mouse key, ncl/smart_keys/mouse/keymap-codegen.ncl 45-51. -/
def mouseExpr (m : Val) : Option Mouse.Ref :=
  match pat "Button" m with
  | some b => (small b).map .button
  | none => match m with
    | .str s => (mouseNames.find? (fun x => x.1 = s)).map (·.2)
    | _ => none

/-- A Rust literal of the type `u32`. -/
def bits : Val → Option (BitVec 32)
  | .num n => if 0 ≤ n ∧ n < 2 ^ 32 then some (BitVec.ofInt 32 n) else none
  | _ => none

/-- `modifier_key.codegen_values`, ncl/smart_keys/layered/keymap-codegen.ncl 106-149. -/
def layerModifier (v : Val) : Option Layered.ModifierKey :=
  match pat "Default" v, pat "Hold" v, pat "Toggle" v, pat "Sticky" v, pat "SetActiveLayers" v with
  | some l, _, _, _, _ => (natural l).map .default
  | _, some l, _, _, _ => (natural l).map .hold
  | _, _, some l, _, _ => (natural l).map .toggle
  | _, _, _, some l, _ => (natural l).map .sticky
  | _, _, _, _, some s => (bits s).map .setActiveLayers
  | _, _, _, _, _ => none

/-- `if json != null then codegen_values json else null`, ncl/smart_keys/layered/keymap-codegen.ncl 207. -/
def optional (f : Val → Option JKey) : Val → Option (Option JKey)
  | .null => some none
  | v => (f v).map some

/-- `fun [id, ch_json] => [id, f ch_json]`, ncl/smart_keys/chorded/keymap-codegen.ncl 37. -/
def numbered (f : Val → Option JKey) : Val → Option (Nat × JKey)
  | .arr [i, k] => do
    let i ← natural i
    let k ← f k
    pure (i, k)
  | _ => none

/-- An array, element by element. -/
def elements {β : Type} (f : Val → Option β) : Val → Option (List β)
  | .arr vs => mapAll f vs
  | _ => none

/-- The `codegen_values` functions and the Rust expressions of ncl/smart_keys/*/keymap-codegen.ncl, as the JSON keys of
Codegen.lean: automation 114-133, callback 56-85, caps_word 27-33, chorded 39-62 and 138-154, consumer 27-44, custom, keyboard
65-81, layered 106-149 and 203-229, mouse 34-51, sticky 35-47, tap_dance 36-50, tap_hold 74-90. `key` is
`smart_key.codegen_values`. -/
def JMod.read (key : Val → Option JKey) : JMod → Val → Option JKey
  | .automation, v => do
    let e ← pat "automation_instructions" v
    (executions e).map .automation
  | .callback, v => do
    let c ← pat "keymap_callback" v
    (callbackExpr c).map .callback
  | .capsWord, _ => some .capsWord
  | .aux, v => do
    let p ← pat "passthrough" v
    (key p).map .aux
  | .chorded, v => do
    let (cs, p) ← pat₂ "chords" "passthrough" v
    let cs ← elements (numbered key) cs
    let p ← key p
    pure (.chorded cs p)
  | .consumer, v => do
    let n ← pat "consumer_code" v
    (byte n).map .consumer
  | .custom, v => do
    let n ← pat "custom" v
    (byte n).map .custom
  | .keyboard, v =>
    match pat "key_code" v, pat "modifiers" v, pat₂ "key_code" "modifiers" v with
    | some n, _, _ => (byte n).map .keyCode
    | _, some m, _ => (byte m).map .modifiers
    | _, _, some (n, m) => do
      let n ← byte n
      let m ← byte m
      pure (.keyCodeModifiers n m)
    | _, _, _ => none
  | .mouse, v => do
    let m ← pat "mouse" v
    (mouseExpr m).map .mouse
  | .layered, v => do
    let (b, ls) ← pat₂ "base" "layered" v
    let b ← key b
    let ls ← elements (optional key) ls
    pure (.layered b ls)
  | .modifier, v => (layerModifier v).map .modifier
  | .sticky, v => do
    let m ← pat "sticky_modifiers" v
    (byte m).map .sticky
  | .tapDance, v => do
    let ds ← pat "definitions" v
    let ds ← elements key ds
    pure (.tapDance ds)
  | .tapHold, v => do
    let (h, t) ← pat₂ "hold" "tap" v
    let h ← key h
    let t ← key t
    pure (.tapHold t h)

/-- `smart_key.codegen_values`, ncl/keymap-codegen.ncl 274-280, `n` levels deep: there has to be exactly one module. -/
def readTo : Nat → Val → Option JKey
  | 0, _ => none
  | n + 1, v =>
    match codegenModules.filter fun m => m.accepts jsonValidator v with
    | [m] => m.read (readTo n) v
    | _ => none

/-- `smart_key.codegen_values`. -/
def read (v : Val) : Option JKey := readTo v.size v

/-! ## Keymaps -/

/-- A chord, `Chord`, ncl/keymap-ncl-to-json.ncl 16. -/
structure RawChord where
  indices : List Nat
  key : Val

/-- A keymap file: layers of values, chords and configuration, ncl/keymap-ncl-to-json.ncl 26-51. -/
structure Raw where
  layers : List (List Val)
  chords : List RawChord := []
  options : Codegen.Options := {}

/-- A value behind the contract `KeymapKey`, ncl/keymap-ncl-to-json.ncl 26-30; it is checked when the value is used. -/
def checked (v : Val) : Option Val := if nullableKey v then some v else none

/-- `std.array.map (std.array.at idx) layered_keys`, ncl/keymap-ncl-to-json.ncl 260. -/
def column (idx : Nat) : List (List Val) → Option (List Val)
  | [] => some []
  | l :: ls => do
    let v ← l[idx]?
    let v ← checked v
    let vs ← column idx ls
    pure (v :: vs)

/-- The key of one position, ncl/keymap-ncl-to-json.ncl 258-265. -/
def stacked (base : Val) (idx : Nat) (upper : List (List Val)) : Option Val := do
  let ls ← column idx upper
  let base ← checked base
  if ls.all isNull then pure base else withField "layered" (.arr ls) base

/-- The loop of `layered_keys` over the base layer, from position `idx` on. -/
def stackedFrom (upper : List (List Val)) (idx : Nat) : List Val → Option (List Val)
  | [] => some []
  | b :: bs => do
    let v ← stacked b idx upper
    let vs ← stackedFrom upper (idx + 1) bs
    pure (v :: vs)

/-- `layered_keys`, ncl/keymap-ncl-to-json.ncl 247-267. -/
def Raw.layeredKeys (r : Raw) : Option (List Val) :=
  match r.layers with
  | [] => none
  | base :: upper => stackedFrom upper 0 base

/-- The chords whose first position is `idx`, with their numbers, ncl/keymap-ncl-to-json.ncl 272-284. -/
def primaryChords (idx n : Nat) : List RawChord → Option (List Val)
  | [] => some []
  | c :: cs =>
    match c.indices with
    | [] => none
    | i :: _ => do
      let rest ← primaryChords idx (n + 1) cs
      if i = idx then
        let v ← checked c.key
        pure (.arr [.num n, v] :: rest)
      else pure rest

/-- The key of one position with the chords it takes part in, ncl/keymap-ncl-to-json.ncl 271-285. -/
def chordedKey (chords : List RawChord) (idx : Nat) (v : Val) : Option Val := do
  match ← primaryChords idx 0 chords with
  | [] => pure (if chords.any (fun c => c.indices.contains idx) then .record [("passthrough", v)] else v)
  | cs => pure (.record [("chords", .arr cs), ("passthrough", v)])

/-- The loop of `chorded_keys`, from position `idx` on. -/
def chordedFrom (chords : List RawChord) (idx : Nat) : List Val → Option (List Val)
  | [] => some []
  | v :: vs => do
    let v ← chordedKey chords idx v
    let vs ← chordedFrom chords (idx + 1) vs
    pure (v :: vs)

/-- `json_keymap`, ncl/keymap-ncl-to-json.ncl 288-332: the keys and the instructions of keymap.json. -/
def Raw.json (r : Raw) : Option (List Val × List Val) := do
  let vs ← r.layeredKeys
  let vs ← chordedFrom r.chords 0 vs
  let (is, vs) ← accumAll [] vs
  let js ← mapAll toJson vs
  pure (js, is)

/-- The whole compiler. -/
def compile (r : Raw) : Option Codegen.Compiled := do
  let (js, is) ← r.json
  let keys ← mapAll read js
  let is ← mapAll instruction is
  Codegen.Json.gen ⟨keys, is, r.chords.map (·.indices), r.options⟩

end Verif.Nickel
