import Verif.Codegen

/-!
# Key names, layers written as text, and string macros

ncl/keys.ncl with the extensions of ncl/smart_keys/*/key-extensions.ncl, and the two functions that read text: `layer_as_array_of_keys` of
ncl/keymap-ncl-to-json.ncl and `string_to_instructions` of ncl/smart_keys/automation/lib.ncl. `none` is an error of the
keymap compiler, here a field that does not exist.
-/

namespace Verif.Codegen

/-! ## Key names -/

/-- ncl/hid-usage-keyboard.ncl. -/
def keyboardUsages : List (String × Nat) :=
  [("NO", 0x00), ("A", 0x04), ("B", 0x05), ("C", 0x06), ("D", 0x07), ("E", 0x08), ("F", 0x09), ("G", 0x0A),
   ("H", 0x0B), ("I", 0x0C), ("J", 0x0D), ("K", 0x0E), ("L", 0x0F), ("M", 0x10), ("N", 0x11), ("O", 0x12), ("P", 0x13),
   ("Q", 0x14), ("R", 0x15), ("S", 0x16), ("T", 0x17), ("U", 0x18), ("V", 0x19), ("W", 0x1A), ("X", 0x1B), ("Y", 0x1C),
   ("Z", 0x1D), ("N1", 0x1E), ("N2", 0x1F), ("N3", 0x20), ("N4", 0x21), ("N5", 0x22), ("N6", 0x23), ("N7", 0x24),
   ("N8", 0x25), ("N9", 0x26), ("N0", 0x27), ("Return", 0x28), ("Escape", 0x29), ("Backspace", 0x2A), ("Tab", 0x2B),
   ("Space", 0x2C), ("Minus", 0x2D), ("Equals", 0x2E), ("LeftBracket", 0x2F), ("RightBracket", 0x30),
   ("Backslash", 0x31), ("NonUSHash", 0x32), ("Semicolon", 0x33), ("Quote", 0x34), ("Grave", 0x35), ("Comma", 0x36),
   ("Dot", 0x37), ("Slash", 0x38), ("CapsLock", 0x39), ("F1", 0x3A), ("F2", 0x3B), ("F3", 0x3C), ("F4", 0x3D),
   ("F5", 0x3E), ("F6", 0x3F), ("F7", 0x40), ("F8", 0x41), ("F9", 0x42), ("F10", 0x43), ("F11", 0x44), ("F12", 0x45),
   ("PrintScreen", 0x46), ("ScrollLock", 0x47), ("Pause", 0x48), ("Insert", 0x49), ("Home", 0x4A), ("PageUp", 0x4B),
   ("Delete", 0x4C), ("End", 0x4D), ("PageDown", 0x4E), ("Right", 0x4F), ("Left", 0x50), ("Down", 0x51), ("Up", 0x52),
   ("NumLock", 0x53), ("NPSlash", 0x54), ("NPStar", 0x55), ("NPMinus", 0x56), ("NPPlus", 0x57), ("NPEnter", 0x58),
   ("NP1", 0x59), ("NP2", 0x5A), ("NP3", 0x5B), ("NP4", 0x5C), ("NP5", 0x5D), ("NP6", 0x5E), ("NP7", 0x5F),
   ("NP8", 0x60), ("NP9", 0x61), ("NP0", 0x62), ("NPDot", 0x63), ("NonUSBackslash", 0x64), ("Application", 0x65),
   ("LeftCtrl", 0xE0), ("LeftShift", 0xE1), ("LeftAlt", 0xE2), ("LeftGUI", 0xE3), ("RightCtrl", 0xE4),
   ("RightShift", 0xE5), ("RightAlt", 0xE6), ("RightGUI", 0xE7)]

/-- ncl/hid-usage-consumer.ncl. -/
def consumerUsages : List (String × Nat) :=
  [("PlayPause", 0xCD), ("FastForward", 0xB3), ("Rewind", 0xB4), ("ScanNext", 0xB5), ("ScanPrevious", 0xB6),
   ("Stop", 0xB7), ("Eject", 0xB8), ("Mute", 0xE2), ("VolumeUp", 0xE9), ("VolumeDown", 0xEA)]

/-- The record of a usage: a modifier for E0 to E7, otherwise a key code, ncl/smart_keys/keyboard/key-extensions.ncl 3-26. -/
def usageKey (kc : Nat) : NKey :=
  match kc with
  | 224 => .leaf (.modifiers { leftCtrl := true })
  | 225 => .leaf (.modifiers { leftShift := true })
  | 226 => .leaf (.modifiers { leftAlt := true })
  | 227 => .leaf (.modifiers { leftGui := true })
  | 228 => .leaf (.modifiers { rightCtrl := true })
  | 229 => .leaf (.modifiers { rightShift := true })
  | 230 => .leaf (.modifiers { rightAlt := true })
  | 231 => .leaf (.modifiers { rightGui := true })
  | kc => .leaf (.keyCode (BitVec.ofNat 8 kc))

/-- ncl/smart_keys/mouse/key-extensions.ncl 3-20. -/
def mouseNames : List (String × Mouse.Ref) :=
  [("MouseButton1", .button 1), ("MouseButton2", .button 2), ("MouseButton3", .button 3), ("MouseButton4", .button 4),
   ("MouseButton5", .button 5), ("MouseButton6", .button 6), ("MouseButton7", .button 7), ("MouseButton8", .button 8),
   ("MouseLeft", .cursorLeft), ("MouseRight", .cursorRight), ("MouseUp", .cursorUp), ("MouseDown", .cursorDown),
   ("MouseWheelUp", .wheelUp), ("MouseWheelDown", .wheelDown), ("MouseWheelLeft", .wheelLeft), ("MouseWheelRight", .wheelRight)]

/-- The names that do not refer to other names: `key_extensions.keyboard`, `consumer` (ncl/smart_keys/consumer/key-extensions.ncl 3-5),
`mouse`, `callback` (ncl/smart_keys/callback/key-extensions.ncl 12-13) and `layered` (27: `TTTT = null`). The other fields of
those records are functions and records of functions, which are not keys. -/
def plainNames : List (String × Option NKey) :=
  keyboardUsages.map (fun p => (p.1, some (usageKey p.2))) ++
  consumerUsages.map (fun p => (p.1, some (.leaf (.consumer (BitVec.ofNat 8 p.2))))) ++
  mouseNames.map (fun p => (p.1, some (.leaf (.mouse p.2)))) ++
  [("reset", some (.leaf (.callback .reset))), ("reset_to_bootloader", some (.leaf (.callback .resetToBootloader))), ("TTTT", none)]

/-- `shifted`, ncl/smart_keys/keyboard/key-extensions.ncl 198-228: the key that is merged with `keys.LeftShift`. -/
def shiftedNames : List (String × String) :=
  [("Exclaim", "N1"), ("At", "N2"), ("Hash", "N3"), ("Dollar", "N4"), ("Percent", "N5"), ("Caret", "N6"),
   ("Ampersand", "N7"), ("Asterisk", "N8"), ("LeftParen", "N9"), ("RightParen", "N0"),
   ("LeftCurlyBracket", "LeftBracket"), ("RightCurlyBracket", "RightBracket"), ("Tilde", "Grave"), ("Plus", "Equals"),
   ("Underscore", "Minus"), ("Question", "Slash"), ("Pipe", "Backslash"), ("Colon", "Semicolon"),
   ("DoubleQuote", "Quote"), ("LeftAngleBracket", "Comma"), ("RightAngleBracket", "Dot")]

/-- `aliases`, ncl/smart_keys/keyboard/key-extensions.ncl 133-140, consumer/key-extensions.ncl 7-11 and
mouse/key-extensions.ncl 21-36. -/
def aliasNames : List (String × String) :=
  [("Enter", "Return"), ("Circumflex", "Caret"), ("LeftBrace", "LeftCurlyBracket"), ("RightBrace", "RightCurlyBracket"),
   ("VolUp", "VolumeUp"), ("VolDown", "VolumeDown"),
   ("MouseBtn1", "MouseButton1"), ("MouseBtn2", "MouseButton2"), ("MouseBtn3", "MouseButton3"), ("MouseBtn4", "MouseButton4"),
   ("MouseBtn5", "MouseButton5"), ("MouseBtn6", "MouseButton6"), ("MouseBtn7", "MouseButton7"), ("MouseBtn8", "MouseButton8"),
   ("MouseScrollUp", "MouseWheelUp"), ("MouseScrollDown", "MouseWheelDown"), ("MouseScrollLeft", "MouseWheelLeft"),
   ("MouseScrollRight", "MouseWheelRight")]

/-- `abbreviations` but for `CWTG`, ncl/smart_keys/keyboard/key-extensions.ncl 28-131. -/
def abbreviationNames : List (String × String) :=
  [("XXXX", "NO"), ("RET", "Return"), ("ESC", "Escape"), ("BSPC", "Backspace"), ("TAB", "Tab"), ("SPC", "Space"),
   ("ENT", "Enter"), ("EXCL", "Exclaim"), ("AT", "At"), ("HASH", "Hash"), ("DLR", "Dollar"), ("PCT", "Percent"),
   ("CARE", "Caret"), ("AMP", "Ampersand"), ("ASTR", "Asterisk"), ("LPRN", "LeftParen"), ("RPRN", "RightParen"),
   ("PERC", "Percent"), ("CIRC", "Circumflex"), ("LBRK", "LeftBracket"), ("LCBR", "LeftCurlyBracket"),
   ("LBRC", "LeftBrace"), ("RBRK", "RightBracket"), ("RCBR", "RightCurlyBracket"), ("RBRC", "RightBrace"),
   ("GRV", "Grave"), ("TILD", "Tilde"), ("MINS", "Minus"), ("UNDS", "Underscore"), ("EQLS", "Equals"),
   ("PLUS", "Plus"), ("SLSH", "Slash"), ("QUES", "Question"), ("BSLS", "Backslash"), ("PIPE", "Pipe"),
   ("SCLN", "Semicolon"), ("COLN", "Colon"), ("QUOT", "Quote"), ("DQUO", "DoubleQuote"), ("COMM", "Comma"),
   ("LABR", "LeftAngleBracket"), ("DOT", "Dot"), ("RABR", "RightAngleBracket"), ("CAPS", "CapsLock"),
   ("PSCR", "PrintScreen"), ("SCRL", "ScrollLock"), ("PAUS", "Pause"), ("SLCK", "ScrollLock"), ("INS", "Insert"),
   ("HOME", "Home"), ("PGUP", "PageUp"), ("DEL", "Delete"), ("END", "End"), ("PGDN", "PageDown"), ("RGHT", "Right"),
   ("LEFT", "Left"), ("DOWN", "Down"), ("UP", "Up"), ("NPNL", "NumLock"), ("NPSL", "NPSlash"), ("NPST", "NPStar"),
   ("NPMN", "NPMinus"), ("NPPL", "NPPlus"), ("NPEN", "NPEnter"), ("NPDT", "NPDot"), ("LCTL", "LeftCtrl"),
   ("LSFT", "LeftShift"), ("LALT", "LeftAlt"), ("LGUI", "LeftGUI"), ("RCTL", "RightCtrl"), ("RSFT", "RightShift"),
   ("RALT", "RightAlt"), ("RGUI", "RightGUI"), ("APPN", "Application"), ("NUSH", "NonUSHash"),
   ("NUSB", "NonUSBackslash"), ("RST", "reset"), ("BOOT", "reset_to_bootloader")]

/-- `literals`, ncl/smart_keys/keyboard/key-extensions.ncl 142-196. -/
def literalNames : List (String × String) :=
  [("1", "N1"), ("2", "N2"), ("3", "N3"), ("4", "N4"), ("5", "N5"), ("6", "N6"), ("7", "N7"), ("8", "N8"), ("9", "N9"),
   ("0", "N0"), ("!", "Exclaim"), ("@", "At"), ("#", "Hash"), ("$", "Dollar"), ("%", "Percent"), ("^", "Caret"),
   ("&", "Ampersand"), ("*", "Asterisk"), ("(", "LeftParen"), (")", "RightParen"), ("[", "LeftBracket"),
   ("{", "LeftCurlyBracket"), ("]", "RightBracket"), ("}", "RightCurlyBracket"), ("`", "Grave"), ("~", "Tilde"),
   ("-", "Minus"), ("_", "Underscore"), ("=", "Equals"), ("+", "Plus"), ("/", "Slash"), ("?", "Question"),
   ("\\", "Backslash"), ("|", "Pipe"), (";", "Semicolon"), (":", "Colon"), ("'", "Quote"), ("\"", "DoubleQuote"),
   (",", "Comma"), ("<", "LeftAngleBracket"), (".", "Dot"), (">", "RightAngleBracket"), (" ", "Space")]

/-- `keys.X & keys.LeftShift`: the record with the fields of both. -/
def withShift : Option NKey → Option NKey
  | some (.leaf (.keyCode kc)) => some (.leaf (.keyCodeModifiers kc { leftShift := true }))
  | k => k

/-- The fields with the values `keys.X`, for the fields `X` in the table. -/
def follow (table : List (String × Option NKey)) (names : List (String × String)) : List (String × Option NKey) :=
  names.filterMap fun p => (table.lookup p.2).map fun k => (p.1, k)

/-- `plainNames` and `shiftedNames`. -/
def shiftTable : List (String × Option NKey) :=
  plainNames ++ (follow plainNames shiftedNames).map fun p => (p.1, withShift p.2)

/-- And `aliasNames`, which refer to those. -/
def aliasTable : List (String × Option NKey) := shiftTable ++ follow shiftTable aliasNames

/-- All the names of keys.ncl that are keys, ncl/keys.ncl 1-23; `H_LCtrl` and the like (ncl/smart_keys/tap_hold/key-extensions.ncl 9-16) have no
tap key, and are no keys by themselves. `TTTT` is `none`. -/
def keyNames : List (String × Option NKey) :=
  aliasTable ++ follow aliasTable abbreviationNames ++ follow aliasTable literalNames ++ [("CWTG", some (.leaf .capsWord))]

/-! ## Layers written as text -/

/-- What `\s` matches: the Unicode white space characters. -/
def isSpace (c : Char) : Bool :=
  [0x09, 0x0A, 0x0B, 0x0C, 0x0D, 0x20, 0x85, 0xA0, 0x1680, 0x2000, 0x2001, 0x2002, 0x2003, 0x2004, 0x2005, 0x2006, 0x2007, 0x2008,
   0x2009, 0x200A, 0x2028, 0x2029, 0x202F, 0x205F, 0x3000].contains c.toNat

/-- `std.string.replace_regex "\\s+" " "`, ncl/keymap-ncl-to-json.ncl 203. `inside`: the previous character was white space. -/
def squeeze (inside : Bool) : List Char → List Char
  | [] => []
  | c :: cs => if isSpace c then (if inside then squeeze true cs else ' ' :: squeeze true cs) else c :: squeeze false cs

/-- `std.string.split " "`, ncl/keymap-ncl-to-json.ncl 204. `word`: the characters since the last space. -/
def splitSpaces (word : List Char) : List Char → List (List Char)
  | [] => [word]
  | c :: cs => if c = ' ' then word :: splitSpaces [] cs else splitSpaces (word ++ [c]) cs

/-- `words_from_whitespace_delimited_string`, ncl/keymap-ncl-to-json.ncl 198-205. -/
def wordsOf (s : List Char) : List (List Char) := (splitSpaces [] (squeeze false s)).filter (· ≠ [])

/-- `map_fields_with_record`, ncl/keymap-ncl-to-json.ncl 213-216; the names and those of `custom_keys` (which may not
redefine a name: not checked here). -/
def lookupAll (custom : List (String × Option NKey)) : List (List Char) → Option (List (Option NKey))
  | [] => some []
  | w :: ws => do
    let k ← (keyNames ++ custom).lookup (String.ofList w)
    let ks ← lookupAll custom ws
    pure (k :: ks)

/-- A layer as the user writes it: `KeymapLayer`, ncl/keymap-ncl-to-json.ncl 30. -/
inductive LayerSrc where
  | text (s : String)
  | keys (ks : List (Option NKey))

/-- `layer_as_array_of_keys`, ncl/keymap-ncl-to-json.ncl 235-243. -/
def LayerSrc.read (custom : List (String × Option NKey)) : LayerSrc → Option (List (Option NKey))
  | .text s => lookupAll custom (wordsOf s.toList)
  | .keys ks => some ks

/-- `layers_of_keys`, ncl/keymap-ncl-to-json.ncl 245. -/
def readLayers (custom : List (String × Option NKey)) : List LayerSrc → Option (List (List (Option NKey)))
  | [] => some []
  | l :: ls => do
    let ks ← l.read custom
    let kss ← readLayers custom ls
    pure (ks :: kss)

/-- A keymap source as the user writes it, with its own names, ncl/keymap-ncl-to-json.ncl 26-51. -/
structure TextSrc where
  layers : List LayerSrc
  custom : List (String × Option NKey) := []
  chords : List SrcChord := []
  options : Options := {}

/-- The source with the names resolved. -/
def TextSrc.toSrc (t : TextSrc) : Option Src := do
  let ls ← readLayers t.custom t.layers
  pure { layers := ls, chords := t.chords, options := t.options }

/-! ## String macros -/

/-- `{ key_code = kc, modifiers = km_ncl } = K."…" & { modifiers = {} }`, ncl/smart_keys/automation/lib.ncl 9: other keys do not match. -/
def codeAndModifiers : NKey → Option (Byte × ModRec)
  | .leaf (.keyCode kc) => some (kc, {})
  | .leaf (.keyCodeModifiers kc m) => some (kc, m)
  | _ => none

/-- `std.string.uppercase`, for a character of ASCII (simplified: other characters are left as they are; they are not key
names either way, but for the long s `ſ` and the dotless `ı`, whose upper case is S and I). -/
def upper (c : Char) : Char := if 'a' ≤ c ∧ c ≤ 'z' then Char.ofNat (c.toNat - 32) else c

/-- The loop body of `string_to_instructions`, ncl/smart_keys/automation/lib.ncl 6-31, and the Rust expression of the
key output, ncl/keymap-codegen.ncl 168-181. The sum over the fields of the modifiers is that of `ModRec.toByte`, since no name has a
modifier that is `false`. -/
def charInstruction (c : Char) : Option Automation.Instruction := do
  let k ← (keyNames.lookup (String.singleton (upper c))).join
  let (kc, m) ← codeAndModifiers k
  let m := if 'A' ≤ c ∧ c ≤ 'Z' then { m with leftShift := true } else m
  pure (.tap (if m.toByte = 0 then KeyOutput.fromUsage (.keyboard kc) else KeyOutput.fromUsageWithModifiers (.keyboard kc) m.toByte))

/-- `string_to_instructions`, ncl/smart_keys/automation/lib.ncl 2-33 (`std.string.characters` gives the grapheme clusters; they
are the characters, if the text is ASCII without carriage returns). -/
def stringInstructions : List Char → Option (List Automation.Instruction)
  | [] => some []
  | c :: cs => do
    let i ← charInstruction c
    let is ← stringInstructions cs
    pure (i :: is)

/-- `string_macro`, ncl/smart_keys/automation/key-extensions.ncl 5-8. -/
def stringMacro (s : String) : Option NKey := do
  let is ← stringInstructions s.toList
  pure (.leaf (.automation { onPress := is }))

end Verif.Codegen
