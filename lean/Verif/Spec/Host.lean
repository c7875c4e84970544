import Verif.Types

/-!
# A computer with a US keyboard

How a computer reads boot keyboard reports: byte 0 has the modifiers, bytes 2 to 7 the codes of the keys that are down. A key
that was not down in the report before has just been pressed, and types a character. The table is that of the HID Usage Tables
(keyboard page) for the US layout.
-/

namespace Verif.Host

/-- Key code, character, character with shift. -/
def us : List (Nat × Char × Char) :=
  [(0x04, 'a', 'A'), (0x05, 'b', 'B'), (0x06, 'c', 'C'), (0x07, 'd', 'D'), (0x08, 'e', 'E'), (0x09, 'f', 'F'), (0x0A, 'g', 'G'),
   (0x0B, 'h', 'H'), (0x0C, 'i', 'I'), (0x0D, 'j', 'J'), (0x0E, 'k', 'K'), (0x0F, 'l', 'L'), (0x10, 'm', 'M'), (0x11, 'n', 'N'),
   (0x12, 'o', 'O'), (0x13, 'p', 'P'), (0x14, 'q', 'Q'), (0x15, 'r', 'R'), (0x16, 's', 'S'), (0x17, 't', 'T'), (0x18, 'u', 'U'),
   (0x19, 'v', 'V'), (0x1A, 'w', 'W'), (0x1B, 'x', 'X'), (0x1C, 'y', 'Y'), (0x1D, 'z', 'Z'),
   (0x1E, '1', '!'), (0x1F, '2', '@'), (0x20, '3', '#'), (0x21, '4', '$'), (0x22, '5', '%'), (0x23, '6', '^'), (0x24, '7', '&'),
   (0x25, '8', '*'), (0x26, '9', '('), (0x27, '0', ')'), (0x2C, ' ', ' '), (0x2D, '-', '_'), (0x2E, '=', '+'), (0x2F, '[', '{'),
   (0x30, ']', '}'), (0x31, '\\', '|'), (0x33, ';', ':'), (0x34, '\'', '"'), (0x35, '`', '~'), (0x36, ',', '<'), (0x37, '.', '>'),
   (0x38, '/', '?')]

/-- The character a key types with these modifiers: bits 1 and 5 are the shift keys; with another modifier, or for another
key, it is none. -/
def types (mods code : Byte) : Option Char :=
  if mods &&& 0xDD#8 ≠ 0 then none
  else (us.lookup code.toNat).map fun p => if mods &&& 0x22#8 ≠ 0 then p.2 else p.1

/-- The keys in a report. -/
def keys (r : List Byte) : List Byte := (r.drop 2).filter (· ≠ 0)

/-- What the keys type that are pressed one report after the other; `none` is a key that types no character. `down`: the keys
that are down before. -/
def read (down : List Byte) : List (List Byte) → List (Option Char)
  | [] => []
  | r :: rs => ((keys r).filter (· ∉ down)).map (types (r.headD 0)) ++ read (keys r) rs

/-- a, then shift-a while the a is held (no new key), release, A, and the return key, which types no character. -/
example : read [] [[0, 0, 4, 0, 0, 0, 0, 0], [2, 0, 4, 0, 0, 0, 0, 0], [0, 0, 0, 0, 0, 0, 0, 0], [2, 0, 4, 0, 0, 0, 0, 0],
    [0, 0, 0x28, 0, 0, 0, 0, 0]] = [some 'a', some 'A', none] := by decide

/-- The keyboard page of the HID Usage Tables, from usage 4 on, by the names of keys.ncl. -/
def keyboardPage : List String :=
  ["A", "B", "C", "D", "E", "F", "G", "H", "I", "J", "K", "L", "M", "N", "O", "P", "Q", "R", "S", "T", "U", "V", "W", "X", "Y", "Z",
   "N1", "N2", "N3", "N4", "N5", "N6", "N7", "N8", "N9", "N0", "Return", "Escape", "Backspace", "Tab", "Space", "Minus", "Equals",
   "LeftBracket", "RightBracket", "Backslash", "NonUSHash", "Semicolon", "Quote", "Grave", "Comma", "Dot", "Slash", "CapsLock",
   "F1", "F2", "F3", "F4", "F5", "F6", "F7", "F8", "F9", "F10", "F11", "F12", "PrintScreen", "ScrollLock", "Pause", "Insert", "Home",
   "PageUp", "Delete", "End", "PageDown", "Right", "Left", "Down", "Up", "NumLock", "NPSlash", "NPStar", "NPMinus", "NPPlus", "NPEnter",
   "NP1", "NP2", "NP3", "NP4", "NP5", "NP6", "NP7", "NP8", "NP9", "NP0", "NPDot", "NonUSBackslash", "Application"]

/-- The modifiers, in the order of their usages (from E0 on) and of their bits in the report. -/
def modifierKeys : List String := ["LeftCtrl", "LeftShift", "LeftAlt", "LeftGUI", "RightCtrl", "RightShift", "RightAlt", "RightGUI"]

/-- Of the consumer page: fast forward, rewind, scan next track, scan previous track, stop and eject are B3 to B8. -/
def transportKeys : List String := ["FastForward", "Rewind", "ScanNext", "ScanPrevious", "Stop", "Eject"]

/-- And play/pause, mute, volume increment, volume decrement. -/
def mediaKeys : List (String × Byte) := [("PlayPause", 0xCD), ("Mute", 0xE2), ("VolumeUp", 0xE9), ("VolumeDown", 0xEA), ("VolUp", 0xE9), ("VolDown", 0xEA)]

/-- The short names: usage on the keyboard page and modifiers (2: left shift). -/
def shortKeys : List (String × Byte × Byte) :=
  [("XXXX", 0, 0), ("RET", 0x28, 0), ("ENT", 0x28, 0), ("Enter", 0x28, 0), ("ESC", 0x29, 0), ("BSPC", 0x2A, 0), ("TAB", 0x2B, 0), ("SPC", 0x2C, 0),
   ("MINS", 0x2D, 0), ("EQLS", 0x2E, 0), ("LBRK", 0x2F, 0), ("RBRK", 0x30, 0), ("BSLS", 0x31, 0), ("NUSH", 0x32, 0), ("SCLN", 0x33, 0),
   ("QUOT", 0x34, 0), ("GRV", 0x35, 0), ("COMM", 0x36, 0), ("DOT", 0x37, 0), ("SLSH", 0x38, 0), ("CAPS", 0x39, 0), ("PSCR", 0x46, 0),
   ("SCRL", 0x47, 0), ("SLCK", 0x47, 0), ("PAUS", 0x48, 0), ("INS", 0x49, 0), ("HOME", 0x4A, 0), ("PGUP", 0x4B, 0), ("DEL", 0x4C, 0),
   ("END", 0x4D, 0), ("PGDN", 0x4E, 0), ("RGHT", 0x4F, 0), ("LEFT", 0x50, 0), ("DOWN", 0x51, 0), ("UP", 0x52, 0), ("NPNL", 0x53, 0),
   ("NPSL", 0x54, 0), ("NPST", 0x55, 0), ("NPMN", 0x56, 0), ("NPPL", 0x57, 0), ("NPEN", 0x58, 0), ("NPDT", 0x63, 0), ("NUSB", 0x64, 0),
   ("APPN", 0x65, 0),
   ("EXCL", 0x1E, 2), ("AT", 0x1F, 2), ("HASH", 0x20, 2), ("DLR", 0x21, 2), ("PCT", 0x22, 2), ("PERC", 0x22, 2), ("CARE", 0x23, 2),
   ("CIRC", 0x23, 2), ("AMP", 0x24, 2), ("ASTR", 0x25, 2), ("LPRN", 0x26, 2), ("RPRN", 0x27, 2), ("LCBR", 0x2F, 2), ("LBRC", 0x2F, 2),
   ("RCBR", 0x30, 2), ("RBRC", 0x30, 2), ("TILD", 0x35, 2), ("UNDS", 0x2D, 2), ("PLUS", 0x2E, 2), ("QUES", 0x38, 2), ("PIPE", 0x31, 2),
   ("COLN", 0x33, 2), ("DQUO", 0x34, 2), ("LABR", 0x36, 2), ("RABR", 0x37, 2),
   ("LCTL", 0, 1), ("LSFT", 0, 2), ("LALT", 0, 4), ("LGUI", 0, 8), ("RCTL", 0, 16), ("RSFT", 0, 32), ("RALT", 0, 64), ("RGUI", 0, 128)]

/-- A mouse that does nothing. -/
def still : MouseOutput := ⟨0, 0, 0, 0, 0⟩

/-- The mouse keys: buttons are bits of the report; x grows to the right, y downwards, and the wheels grow upwards and to the right. -/
def mouseKeys : List (String × MouseOutput) :=
  [("MouseLeft", { still with x := -5 }), ("MouseRight", { still with x := 5 }),
   ("MouseUp", { still with y := -5 }), ("MouseDown", { still with y := 5 })] ++
  ["MouseWheel", "MouseScroll"].flatMap (fun w => [(w ++ "Left", { still with hscroll := -1 }),
    (w ++ "Right", { still with hscroll := 1 }), (w ++ "Up", { still with vscroll := 1 }),
    (w ++ "Down", { still with vscroll := -1 })]) ++
  ["MouseButton", "MouseBtn"].flatMap (fun w => [("1", 1), ("2", 2), ("3", 4), ("4", 8), ("5", 16), ("6", 32), ("7", 64), ("8", 128)].map
    fun p => (w ++ p.1, { still with buttons := p.2 }))

end Verif.Host
