import Verif.Sys.Automation
import Verif.Keymap

/-! # Words for C93 -/

namespace Verif.Nothing

/-- An instruction that presses nothing. -/
def waits : Automation.Instruction → Bool
  | .noOp | .wait _ => true
  | _ => false

/-- An instruction that presses nothing that it does not release. -/
def taps : Automation.Instruction → Bool
  | .tap _ => true
  | i => waits i

/-- The caller reports presses and releases of keys, not of virtual keys. -/
def keysOnly : Op → Bool
  | .input (.vpress _) | .input (.vrelease _) => false
  | .inputAfter _ (.vpress _) | .inputAfter _ (.vrelease _) => false
  | _ => true

end Verif.Nothing
