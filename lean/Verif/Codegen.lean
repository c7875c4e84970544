import Verif.Composite

/-!
# The keymap compiler, ncl/keymap-ncl-to-json.ncl and ncl/keymap-codegen.ncl

A keymap is written in Nickel as layers of keys and chords. The first stage (`Src.json`) puts the layers
and chords together into one key for each position and numbers the macro instructions. The second
stage (`gen`) turns each position's key into a reference, and the keys it contains into entries of the key
tables. The Rust constructors of the table entries (`Data.build`) run when the firmware is compiled.
`none` stands for a keymap that does not compile, in either language.

Simplified: Nickel values are typed here; numbers are in the range of their Rust types; macro
instructions are the Rust values they stand for. Nickel.lean has the compiler on records, with the `key_validator`s and
`json_validator`s, and C75 says that the two compile alike. The texts of the generated Rust expressions are
identified with the values they denote.
-/

namespace Verif.Codegen

open Comp (Ref Keys)

/-! ## Source keys -/

/-- The modifiers of a key, as a record of named booleans: `keyboard_modifiers`,
ncl/keymap-ncl-to-json.ncl 53-79. A field that is left out is `false`, 83-95. -/
structure ModRec where
  leftCtrl : Bool := false
  leftShift : Bool := false
  leftAlt : Bool := false
  leftGui : Bool := false
  rightCtrl : Bool := false
  rightShift : Bool := false
  rightAlt : Bool := false
  rightGui : Bool := false
  deriving DecidableEq, Repr

/-- `keyboard_modifiers.to_json_value`, ncl/keymap-ncl-to-json.ncl 82-105. -/
def ModRec.toByte (m : ModRec) : Byte :=
  (if m.leftCtrl then 1 else 0) + (if m.leftShift then 2 else 0) + (if m.leftAlt then 4 else 0) +
  (if m.leftGui then 8 else 0) + (if m.rightCtrl then 16 else 0) + (if m.rightShift then 32 else 0) +
  (if m.rightAlt then 64 else 0) + (if m.rightGui then 128 else 0)

/-- `{ layer_modifier = … }`, ncl/smart_keys/layered/keymap-ncl-to-json.ncl 32-42. -/
inductive LayerMod where
  | default (l : Nat)
  | hold (l : Nat)
  | sticky (l : Nat)
  | toggle (l : Nat)
  | setActiveLayersTo (ls : List Nat)
  deriving DecidableEq, Repr

/-- The instruction lists of a macro; a list that is left out is empty,
ncl/smart_keys/automation/keymap-ncl-to-json.ncl 101-108. -/
structure Macro where
  onPress : List Automation.Instruction := []
  whilePressed : List Automation.Instruction := []
  onRelease : List Automation.Instruction := []
  deriving DecidableEq, Repr

/-- A key which contains no other keys. `compiled` is a macro whose instructions have been numbered by
`transform`; it does not occur in sources. -/
inductive Leaf where
  | automation (m : Macro)
  | compiled (k : Automation.Key)
  | callback (c : Callback)
  | capsWord
  | consumer (uc : Byte)
  | custom (cc : Byte)
  | keyCode (kc : Byte)
  | modifiers (m : ModRec)
  | keyCodeModifiers (kc : Byte) (m : ModRec)
  | layerModifier (m : LayerMod)
  | mouse (r : Mouse.Ref)
  | sticky (m : ModRec)
  deriving DecidableEq, Repr

/-- A source key. In Nickel these are records: `hold t h` is the record `t & { hold = h }`, `dances t ds`
is `t & { tap_dances = ds }`, `layered b ls` is `b & { layered = ls }` (`none` is `null`, the transparent
key `TTTT`). `chorded` and `aux` are made by `Src.chordedKey`. A record with several of the fields `layered`,
`tap_dances` and `hold` is read in this order (the first matching module of `key_modules`,
ncl/keymap-ncl-to-json.ncl 123-138 and 148-154), so it is written with `layered` outermost and `hold`
innermost here. -/
inductive NKey where
  | leaf (l : Leaf)
  | hold (tap hold : NKey)
  | dances (tap : NKey) (ds : List NKey)
  | layered (base : NKey) (ls : List (Option NKey))
  | chorded (chords : List (Nat × NKey)) (passthrough : NKey)
  | aux (passthrough : NKey)

/-! ## JSON keys -/

/-- A key of keymap.json, as the `json_validator`s of ncl/smart_keys/*/keymap-codegen.ncl describe them. -/
inductive JKey where
  | automation (k : Automation.Key)
  | callback (c : Callback)
  | capsWord
  | aux (passthrough : JKey)
  | chorded (chords : List (Nat × JKey)) (passthrough : JKey)
  | consumer (uc : Byte)
  | custom (cc : Byte)
  | keyCode (kc : Byte)
  | modifiers (m : Byte)
  | keyCodeModifiers (kc m : Byte)
  | mouse (r : Mouse.Ref)
  | layered (base : JKey) (layered : List (Option JKey))
  | modifier (m : Layered.ModifierKey)
  | sticky (m : Byte)
  | tapDance (definitions : List JKey)
  | tapHold (tap hold : JKey)

/-- `layer_modifier.to_json_value`, ncl/smart_keys/layered/keymap-ncl-to-json.ncl 46-65: the set of
layers is the sum of the powers of two, and an empty list has no sum (`reduce_left`). A sum over 32 bits
is not a Rust literal of the type `u32` (src/key/layered.rs 15). -/
def LayerMod.toJson : LayerMod → Option Layered.ModifierKey
  | .default l => some (.default l)
  | .hold l => some (.hold l)
  | .toggle l => some (.toggle l)
  | .sticky l => some (.sticky l)
  | .setActiveLayersTo ls =>
    let sum := (ls.map (2 ^ ·)).sum
    if ls = [] then none else if sum < 2 ^ 32 then some (.setActiveLayers (BitVec.ofNat 32 sum)) else none

/-- The `to_json_value` functions of the keys without other keys,
ncl/smart_keys/*/keymap-ncl-to-json.ncl. The instruction lists of a macro that was not numbered are not
accepted by the `json_validator` of ncl/smart_keys/automation/keymap-codegen.ncl 103-111. -/
def Leaf.toJson : Leaf → Option JKey
  | .automation _ => none
  | .compiled k => some (.automation k)
  | .callback c => some (.callback c)
  | .capsWord => some .capsWord
  | .consumer uc => some (.consumer uc)
  | .custom cc => some (.custom cc)
  | .keyCode kc => some (.keyCode kc)
  | .modifiers m => some (.modifiers m.toByte)
  | .keyCodeModifiers kc m => some (.keyCodeModifiers kc m.toByte)
  | .layerModifier m => m.toJson.map .modifier
  | .mouse r => some (.mouse r)
  | .sticky m => some (.sticky m.toByte)

mutual

/-- `keymap_ncl.key.to_json_value`, ncl/keymap-ncl-to-json.ncl 156-158, and the `to_json_value` functions
of tap_hold 69-73, tap_dance 30-33, layered 132-139 and chorded 31-35 and 66-69 in
ncl/smart_keys/*/keymap-ncl-to-json.ncl. -/
def NKey.toJson : NKey → Option JKey
  | .leaf l => l.toJson
  | .hold t h => do
    let h ← h.toJson
    let t ← t.toJson
    pure (.tapHold t h)
  | .dances t ds => do
    let t ← t.toJson
    let ds ← toJsonAll ds
    pure (.tapDance (t :: ds))
  | .layered b ls => do
    let b ← b.toJson
    let ls ← toJsonLayers ls
    pure (.layered b ls)
  | .chorded cs p => do
    let cs ← toJsonChords cs
    let p ← p.toJson
    pure (.chorded cs p)
  | .aux p => do
    let p ← p.toJson
    pure (.aux p)

/-- `std.array.map keymap_ncl.key.to_json_value tap_dances`, ncl/smart_keys/tap_dance/keymap-ncl-to-json.ncl 32. -/
def toJsonAll : List NKey → Option (List JKey)
  | [] => some []
  | k :: ks => do
    let k ← k.toJson
    let ks ← toJsonAll ks
    pure (k :: ks)

/-- The `layered` field, ncl/smart_keys/layered/keymap-ncl-to-json.ncl 135-138. -/
def toJsonLayers : List (Option NKey) → Option (List (Option JKey))
  | [] => some []
  | none :: ks => do
    let ks ← toJsonLayers ks
    pure (none :: ks)
  | some k :: ks => do
    let k ← k.toJson
    let ks ← toJsonLayers ks
    pure (some k :: ks)

/-- The `chords` field, ncl/smart_keys/chorded/keymap-ncl-to-json.ncl 33. -/
def toJsonChords : List (Nat × NKey) → Option (List (Nat × JKey))
  | [] => some []
  | (i, k) :: ks => do
    let k ← k.toJson
    let ks ← toJsonChords ks
    pure ((i, k) :: ks)

end

/-! ## Numbering the macro instructions -/

/-- `transform` inside of `transform_keys_to_instructions`,
ncl/smart_keys/automation/keymap-ncl-to-json.ncl 92-100: the instructions are appended to those already
there. -/
def append (acc instrs : List Automation.Instruction) : List Automation.Instruction × Automation.Execution :=
  (acc ++ instrs, ⟨acc.length, instrs.length⟩)

/-- `transform_keys_to_instructions`, ncl/smart_keys/automation/keymap-ncl-to-json.ncl 87-124: a macro key
is replaced by the places of its three instruction lists; other keys stay as they are (the pattern
`{ automation_instructions = … }` matches records with this one field only). -/
def transform (acc : List Automation.Instruction) : NKey → List Automation.Instruction × NKey
  | .leaf (.automation m) =>
    let (acc, onPress) := append acc m.onPress
    let (acc, whilePressed) := append acc m.whilePressed
    let (acc, onRelease) := append acc m.onRelease
    (acc, .leaf (.compiled ⟨onPress, whilePressed, onRelease⟩))
  | k => (acc, k)

/-- The loop of `tap_dance.map_accum`, ncl/smart_keys/tap_dance/keymap-ncl-to-json.ncl 36-44. -/
def transformAll (acc : List Automation.Instruction) : List NKey → List Automation.Instruction × List NKey
  | [] => (acc, [])
  | k :: ks =>
    let (acc, k) := transform acc k
    let (acc, ks) := transformAll acc ks
    (acc, k :: ks)

/-- The loop of `layered.map_accum`, ncl/smart_keys/layered/keymap-ncl-to-json.ncl 142-150. -/
def transformLayers (acc : List Automation.Instruction) :
    List (Option NKey) → List Automation.Instruction × List (Option NKey)
  | [] => (acc, [])
  | none :: ks =>
    let (acc, ks) := transformLayers acc ks
    (acc, none :: ks)
  | some k :: ks =>
    let (acc, k) := transform acc k
    let (acc, ks) := transformLayers acc ks
    (acc, some k :: ks)

/-- The loop of `chorded.map_accum`, ncl/smart_keys/chorded/keymap-ncl-to-json.ncl 38-46. -/
def transformChords (acc : List Automation.Instruction) :
    List (Nat × NKey) → List Automation.Instruction × List (Nat × NKey)
  | [] => (acc, [])
  | (i, k) :: ks =>
    let (acc, k) := transform acc k
    let (acc, ks) := transformChords acc ks
    (acc, (i, k) :: ks)

/-- `keymap_ncl.key.map_accum transform_keys_to_instructions`, ncl/keymap-ncl-to-json.ncl 160-162, with
the `map_accum` functions of ncl/smart_keys/*/keymap-ncl-to-json.ncl (tap_hold 75-85, tap_dance 35-55, layered
141-154, chorded 37-48 and 71-73, f itself for the others): the macros among the keys a key
contains are numbered, but not those further down. -/
def mapAccum (acc : List Automation.Instruction) : NKey → List Automation.Instruction × NKey
  | .leaf l => transform acc (.leaf l)
  | .hold t h =>
    let (acc, t) := transform acc t
    let (acc, h) := transform acc h
    (acc, .hold t h)
  | .dances t ds =>
    let (acc, ds) := transformAll acc ds
    let (acc, t) := transform acc t
    (acc, .dances t ds)
  | .layered b ls =>
    let (acc, ls) := transformLayers acc ls
    let (acc, b) := transform acc b
    (acc, .layered b ls)
  | .chorded cs p =>
    let (acc, cs) := transformChords acc cs
    let (acc, p) := transform acc p
    (acc, .chorded cs p)
  | .aux p =>
    let (acc, p) := transform acc p
    (acc, .aux p)

/-- The loop of `json_keymap`, ncl/keymap-ncl-to-json.ncl 294-308. -/
def mapAccumAll (acc : List Automation.Instruction) : List NKey → List Automation.Instruction × List NKey
  | [] => (acc, [])
  | k :: ks =>
    let (acc, k) := mapAccum acc k
    let (acc, ks) := mapAccumAll acc ks
    (acc, k :: ks)

/-! ## Layers and chords -/

/-- The `config` of a keymap, ncl/keymap-ncl-to-json.ncl 18-24; a field that is left out takes its default
value: `Config::new()` of src/key/automation.rs 100-105, src/key/sticky.rs, src/key/tap_dance.rs 29-31, src/key/tap_hold.rs
87-91, src/key/chorded.rs 104-110. -/
structure Options where
  instructionDuration : Nat := 10
  chordTimeout : Nat := 200
  chordIdle : Option Nat := none
  sticky : Sticky.Release := .onModifiedKeyRelease
  tapDance : TapDance.Config := .default
  tapHold : TapHold.Config := .default

/-- A chord: the positions and the key, `Chord`, ncl/keymap-ncl-to-json.ncl 16. -/
structure SrcChord where
  indices : List Nat
  key : NKey

/-- A keymap source: its layers (`null` is `none`), chords and configuration, ncl/keymap-ncl-to-json.ncl
26-51. Layers written as strings of key names are resolved in Names.lean. -/
structure Src where
  layers : List (List (Option NKey))
  chords : List SrcChord := []
  options : Options := {}

/-- `base_key & { layered = … }`, ncl/keymap-ncl-to-json.ncl 265: `null` and the caps-word key (a
string) are not records, and a record with another array `layered` does not merge (simplified: not
even with the same array). -/
def withLayers (base : Option NKey) (ls : List (Option NKey)) : Option NKey :=
  match base with
  | none => none
  | some (.leaf .capsWord) => none
  | some (.layered _ _) => none
  | some k => some (.layered k ls)

/-- `std.array.map (std.array.at idx) layered_keys`, ncl/keymap-ncl-to-json.ncl 260: a layer with too few
keys is an error. -/
def column (idx : Nat) : List (List (Option NKey)) → Option (List (Option NKey))
  | [] => some []
  | l :: ls => do
    let k ← l[idx]?
    let ks ← column idx ls
    pure (k :: ks)

/-- The key of one position, ncl/keymap-ncl-to-json.ncl 259-265. A base key that is `null` is rejected
later on, by `keymap_ncl.key.map_accum` (153: "unknown key type"). -/
def stacked (base : Option NKey) (idx : Nat) (upper : List (List (Option NKey))) : Option NKey := do
  let ls ← column idx upper
  if ls.all (·.isNone) then base else withLayers base ls

/-- The loop of `layered_keys` over the base layer, from position `idx` on. -/
def stackedFrom (upper : List (List (Option NKey))) (idx : Nat) : List (Option NKey) → Option (List NKey)
  | [] => some []
  | b :: bs => do
    let k ← stacked b idx upper
    let ks ← stackedFrom upper (idx + 1) bs
    pure (k :: ks)

/-- `layered_keys`, ncl/keymap-ncl-to-json.ncl 247-267. A keymap with one layer takes its keys as they
are, which is the general case with no upper layers. -/
def Src.layeredKeys (s : Src) : Option (List NKey) :=
  match s.layers with
  | [] => none
  | base :: upper => stackedFrom upper 0 base

/-- The chords whose first position is `idx`, with their numbers (from `n` on),
ncl/keymap-ncl-to-json.ncl 272-274. A chord without positions does not match the pattern
`[chord_primary_key_index, ..]`. -/
def primaryChords (idx n : Nat) : List SrcChord → Option (List (Nat × NKey))
  | [] => some []
  | c :: cs =>
    match c.indices with
    | [] => none
    | i :: _ => do
      let rest ← primaryChords idx (n + 1) cs
      pure (if i = idx then (n, c.key) :: rest else rest)

/-- The key of one position with the chords it takes part in, ncl/keymap-ncl-to-json.ncl 271-285. -/
def chordedKey (chords : List SrcChord) (idx : Nat) (k : NKey) : Option NKey := do
  match ← primaryChords idx 0 chords with
  | [] => pure (if chords.any (fun c => c.indices.contains idx) then .aux k else k)
  | cs => pure (.chorded cs k)

/-- The loop of `chorded_keys`, from position `idx` on. -/
def chordedFrom (chords : List SrcChord) (idx : Nat) : List NKey → Option (List NKey)
  | [] => some []
  | k :: ks => do
    let k ← chordedKey chords idx k
    let ks ← chordedFrom chords (idx + 1) ks
    pure (k :: ks)

/-- `chorded_keys`, ncl/keymap-ncl-to-json.ncl 269-286. -/
def Src.chordedKeys (s : Src) : Option (List NKey) := do
  let ks ← s.layeredKeys
  chordedFrom s.chords 0 ks

/-- keymap.json: `json_keymap`, ncl/keymap-ncl-to-json.ncl 288-332. -/
structure Json where
  keys : List JKey
  instructions : List Automation.Instruction
  chords : List (List Nat)
  options : Options

/-- `json_keymap`, ncl/keymap-ncl-to-json.ncl 288-332. -/
def Src.json (s : Src) : Option Json := do
  let ks ← s.chordedKeys
  let (instructions, ks) := mapAccumAll [] ks
  let keys ← toJsonAll ks
  pure ⟨keys, instructions, s.chords.map (·.indices), s.options⟩

/-! ## Key tables -/

/-- `key_data`, ncl/keymap-codegen.ncl 39-55: the entries of the key tables, before their Rust
constructors have run. -/
structure Data where
  automation : List Automation.Key := []
  callback : List Callback := []
  chorded : List (Chorded.Key Ref) := []
  chordedAux : List Ref := []
  keyboard : List Keyboard.Key := []
  layered : List (Layered.LayeredKey Ref) := []
  layerMods : List Layered.ModifierKey := []
  sticky : List Byte := []
  tapDance : List (List Ref) := []
  tapHold : List (TapHold.Key Ref) := []

mutual

/-- `smart_key.data_and_ref`, ncl/keymap-codegen.ncl 297-299, and the `data_and_ref` functions of
ncl/smart_keys/*/keymap-codegen.ncl: automation 123-142, callback, caps_word, chorded 79-122 and 167-195, consumer, custom,
keyboard 84-133, layered 153-170 and 253-300, mouse, sticky 50-66, tap_dance 69-108, tap_hold 108-138. The keys inside
come first; the new entry is appended to its table, and its index is the length the table had. -/
def dataAndRef (d : Data) : JKey → Data × Ref
  | .automation k => ({ d with automation := d.automation ++ [k] }, .automation d.automation.length)
  | .callback c => ({ d with callback := d.callback ++ [c] }, .callback d.callback.length)
  | .capsWord => (d, .capsWord)
  | .aux p =>
    let (d, p) := dataAndRef d p
    ({ d with chordedAux := d.chordedAux ++ [p] }, .chorded (.auxiliary d.chordedAux.length))
  | .chorded cs p =>
    let (d, cs) := dataAndRefChords d cs
    let (d, p) := dataAndRef d p
    ({ d with chorded := d.chorded ++ [⟨cs, p⟩] }, .chorded (.chorded d.chorded.length))
  | .consumer uc => (d, .consumer uc)
  | .custom cc => (d, .custom cc)
  | .keyCode kc => (d, .keyboard (.keyCode kc))
  | .modifiers m => (d, .keyboard (.modifiers m))
  | .keyCodeModifiers kc m =>
    ({ d with keyboard := d.keyboard ++ [⟨kc, m⟩] }, .keyboard (.keyCodeAndModifier d.keyboard.length))
  | .mouse r => (d, .mouse r)
  | .layered b ls =>
    let (d, b) := dataAndRef d b
    let (d, ls) := dataAndRefLayers d ls
    ({ d with layered := d.layered ++ [⟨b, ls⟩] }, .layered (.layered d.layered.length))
  | .modifier m => ({ d with layerMods := d.layerMods ++ [m] }, .layered (.modifier d.layerMods.length))
  | .sticky m => ({ d with sticky := d.sticky ++ [m] }, .sticky d.sticky.length)
  | .tapDance defs =>
    let (d, defs) := dataAndRefAll d defs
    ({ d with tapDance := d.tapDance ++ [defs] }, .tapDance d.tapDance.length)
  | .tapHold t h =>
    let (d, t) := dataAndRef d t
    let (d, h) := dataAndRef d h
    ({ d with tapHold := d.tapHold ++ [⟨t, h⟩] }, .tapHold d.tapHold.length)

/-- `key_data_and_refs`, ncl/keymap-codegen.ncl 39-55, and the loop over the tap-dance definitions,
ncl/smart_keys/tap_dance/keymap-codegen.ncl 70-79. -/
def dataAndRefAll (d : Data) : List JKey → Data × List Ref
  | [] => (d, [])
  | k :: ks =>
    let (d, r) := dataAndRef d k
    let (d, rs) := dataAndRefAll d ks
    (d, r :: rs)

/-- The loop over the layers, ncl/smart_keys/layered/keymap-codegen.ncl 256-268. -/
def dataAndRefLayers (d : Data) : List (Option JKey) → Data × List (Option Ref)
  | [] => (d, [])
  | none :: ks =>
    let (d, rs) := dataAndRefLayers d ks
    (d, none :: rs)
  | some k :: ks =>
    let (d, r) := dataAndRef d k
    let (d, rs) := dataAndRefLayers d ks
    (d, some r :: rs)

/-- The loop over the chords, ncl/smart_keys/chorded/keymap-codegen.ncl 80-89. -/
def dataAndRefChords (d : Data) : List (Nat × JKey) → Data × List (Nat × Ref)
  | [] => (d, [])
  | (i, k) :: ks =>
    let (d, r) := dataAndRef d k
    let (d, rs) := dataAndRefChords d ks
    (d, (i, r) :: rs)

end

/-! ## Sizes -/

mutual

/-- `max_td_defs`, ncl/keymap-codegen.ncl 316-336, for one key: the length of the longest list of
tap-dance definitions in it (`traverse` visits a key and all the keys inside it). -/
def JKey.maxDefs : JKey → Nat
  | .aux p => p.maxDefs
  | .chorded cs p => max (maxDefsChords cs) p.maxDefs
  | .layered b ls => max b.maxDefs (maxDefsLayers ls)
  | .tapDance ds => max ds.length (maxDefsAll ds)
  | .tapHold t h => max t.maxDefs h.maxDefs
  | _ => 0

/-- `max_td_defs`, for a list of keys. -/
def maxDefsAll : List JKey → Nat
  | [] => 0
  | k :: ks => max k.maxDefs (maxDefsAll ks)

/-- `max_td_defs`, for the keys of the layers. -/
def maxDefsLayers : List (Option JKey) → Nat
  | [] => 0
  | none :: ks => maxDefsLayers ks
  | some k :: ks => max k.maxDefs (maxDefsLayers ks)

/-- `max_td_defs`, for the keys of the chords. -/
def maxDefsChords : List (Nat × JKey) → Nat
  | [] => 0
  | (_, k) :: ks => max k.maxDefs (maxDefsChords ks)

end

mutual

/-- `max_layered_lengths`, ncl/keymap-codegen.ncl 340-358, for one key: the length of the longest
`layered` in it. -/
def JKey.maxLayers : JKey → Nat
  | .aux p => p.maxLayers
  | .chorded cs p => max (maxLayersChords cs) p.maxLayers
  | .layered b ls => max ls.length (max b.maxLayers (maxLayersLayers ls))
  | .tapDance ds => maxLayersAll ds
  | .tapHold t h => max t.maxLayers h.maxLayers
  | _ => 0

/-- `max_layered_lengths`, for a list of keys. -/
def maxLayersAll : List JKey → Nat
  | [] => 0
  | k :: ks => max k.maxLayers (maxLayersAll ks)

/-- `max_layered_lengths`, for the keys of the layers. -/
def maxLayersLayers : List (Option JKey) → Nat
  | [] => 0
  | none :: ks => maxLayersLayers ks
  | some k :: ks => max k.maxLayers (maxLayersLayers ks)

/-- `max_layered_lengths`, for the keys of the chords. -/
def maxLayersChords : List (Nat × JKey) → Nat
  | [] => 0
  | (_, k) :: ks => max k.maxLayers (maxLayersChords ks)

end

/-- `max_chord_size`, ncl/keymap-codegen.ncl 364. -/
def maxChordSize (chords : List (List Nat)) : Nat := (chords.map List.length).foldl max 0

/-- `max_overlapping_chord_size`, ncl/keymap-codegen.ncl 365-374: how many chords have the same first
position, at most. (The record counts the chords for each first position.) -/
def maxOverlap (chords : List (List Nat)) : Nat :=
  (chords.map fun c => chords.countP fun c' => c'.head? = c.head?).foldl max 0

/-- The constants of `init`, ncl/keymap-codegen.ncl 407-423 and src/key/composite.rs 18. -/
structure Sizes where
  layers : Nat
  definitions : Nat
  chords : Nat
  chordSize : Nat
  overlap : Nat
  deriving DecidableEq, Repr

/-- ncl/keymap-codegen.ncl 302-375. `none`: `reduce_left` of no keys (338, 360), or a chord without
positions (367). -/
def Json.sizes (j : Json) : Option Sizes :=
  if j.keys = [] ∨ [] ∈ j.chords then none
  else some ⟨maxLayersAll j.keys, maxDefsAll j.keys, j.chords.length, maxChordSize j.chords, maxOverlap j.chords⟩

/-- `LayeredKey::new` with `layered_keys`, src/key/layered.rs 407-424 and 450-453, for `n` layers. -/
def buildLayered (n : Nat) (k : Layered.LayeredKey Ref) : Option (Layered.LayeredKey Ref) :=
  if k.layered.length > n then none
  else some ⟨k.base, k.layered ++ List.replicate (n - k.layered.length) none⟩

/-- `chorded::Key::new`, src/key/chorded.rs 551-558, with room for `n` chords. -/
def buildChorded (n : Nat) (k : Chorded.Key Ref) : Option (Chorded.Key Ref) :=
  if k.chords.length > n then none else some k

/-- The key tables of the firmware, ncl/keymap-codegen.ncl 232-246: the Rust expressions of the entries. -/
def Data.build (z : Sizes) (d : Data) : Option Keys := do
  let layered ← d.layered.mapM (buildLayered z.layers)
  let chorded ← d.chorded.mapM (buildChorded z.overlap)
  pure {
    automation := d.automation
    callback := d.callback
    chorded := chorded
    chordedAux := d.chordedAux
    keyboard := d.keyboard
    layerMods := d.layerMods
    layered := layered
    sticky := d.sticky
    tapDance := d.tapDance.map (TapDance.Key.fromDefinitions z.definitions)
    tapHold := d.tapHold }

/-- `composite::Config` as generated, ncl/keymap-codegen.ncl 221-229, with the sizes of `init`. -/
def Json.config (j : Json) (z : Sizes) : Comp.Config where
  automation := ⟨j.instructions, j.options.instructionDuration⟩
  chorded := ⟨j.options.chordTimeout, j.chords, j.options.chordIdle, z.chordSize, z.chordSize * 2⟩
  sticky := j.options.sticky
  tapDance := j.options.tapDance
  tapHold := j.options.tapHold
  layerCount := z.layers
  maxChords := z.chords

/-- A compiled keymap: the key references (`KEY_REFS`), tables (`SYSTEM`) and configuration (`CONFIG`). -/
structure Compiled where
  refs : List Ref
  keys : Keys
  config : Comp.Config

/-- keymap.rs, ncl/keymap-codegen.ncl 402-489. -/
def Json.gen (j : Json) : Option Compiled := do
  let z ← j.sizes
  let (d, refs) := dataAndRefAll {} j.keys
  let keys ← d.build z
  pure ⟨refs, keys, j.config z⟩

/-- The whole compiler. -/
def compile (s : Src) : Option Compiled := do
  let j ← s.json
  j.gen

end Verif.Codegen
