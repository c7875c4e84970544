import Verif.Types

/-!
# Specification vocabulary for outputs and reports

Only the data types of `Verif.Types` are used here.
-/

namespace Verif.Spec

/-- What a user asks to be pressed: a usage, with modifiers. -/
structure Request where
  usage : KeyUsage
  mods : Byte
  deriving DecidableEq, Repr

/-- The key code of modifier number `i`. -/
def modCode (i : Nat) : Byte := BitVec.ofNat 8 (0xE0 + i)

/-- The request asks for modifier number `i`: by its flag, or by its key code. -/
def Request.asksModifier (q : Request) (i : Nat) : Prop :=
  q.mods.getLsbD i = true ∨ q.usage = .keyboard (modCode i)

/-- A keyboard code that is an ordinary key: not 0 and not a modifier code. -/
def plainCode? : KeyUsage → Option Byte
  | .keyboard kc => if kc = 0 ∨ (0xE0 ≤ kc.toNat ∧ kc.toNat ≤ 0xE7) then none else some kc
  | _ => none

/-- The ordinary key codes asked for, in order. -/
def plainCodes (qs : List Request) : List Byte := qs.filterMap (fun q => plainCode? q.usage)

/-- The first `n` elements, filled up with zeros. -/
def padTo (n : Nat) (xs : List Byte) : List Byte := xs.take n ++ List.replicate (n - xs.length) 0

/-- Number of the modifiers of a byte, ascending. -/
def modsOf (b : Byte) : List Nat := (List.range 8).filter (fun i => b.getLsbD i)

end Verif.Spec
