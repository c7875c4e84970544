import Verif.Types

/-!
# How a host reads HID reports

The Device Class Definition for HID 1.11: a report descriptor (6.2.2) is a list of items, which say how many bits of a report are for
which control. Only the items the firmwares use are understood: others make the descriptor unreadable (`none`).
-/

namespace Verif.Hid

/-- A control: its usage page and its usage on that page. -/
abbrev Usage := Nat × Nat

/-- The global items, 6.2.2.7. -/
structure Globals where
  page : Nat := 0
  lo : Int := 0
  hi : Int := 0
  size : Nat := 0
  count : Nat := 0
  id : Nat := 0
  deriving DecidableEq, Repr

/-- An Input item (6.2.2.5): `count` elements of `size` bits in report number `id`. The usages are given as ranges: a page, the first
and the last usage. -/
structure Field where
  id : Nat
  inside : List Usage
  const : Bool
  var : Bool
  relative : Bool
  usages : List (Nat × Nat × Nat)
  lo : Int
  hi : Int
  size : Nat
  count : Nat
  deriving DecidableEq, Repr

/-- The state of a parser, 5.4: the global and the local items so far (6.2.2.8: usages, and a minimum without its maximum), the
collections it is in, the innermost first, and the Input items so far. -/
structure Parser where
  globals : Globals := {}
  usages : List (Nat × Nat) := []
  least : Option Nat := none
  inside : List Usage := []
  inputs : List Field := []
  deriving DecidableEq, Repr

/-- The signed number which `n` bytes with the unsigned value `v` stand for. -/
def signed (n v : Nat) : Int := if 2 * v < 256 ^ n then v else v - (256 ^ n : Nat)

/-- Forget the local items, 6.2.2.8: they do not carry over to the next main item. -/
def Parser.main (p : Parser) : Parser := { p with usages := [], least := none }

/-- One item with `n` bytes of data, whose unsigned value is `v`: 6.2.2.4 to 6.2.2.8. -/
def Parser.item (p : Parser) (tag n v : Nat) : Option Parser :=
  match tag with
  | 0x04 => some { p with globals := { p.globals with page := v } }
  | 0x14 => some { p with globals := { p.globals with lo := signed n v } }
  | 0x24 => some { p with globals := { p.globals with hi := signed n v } }
  | 0x74 => some { p with globals := { p.globals with size := v } }
  | 0x84 => some { p with globals := { p.globals with id := v } }
  | 0x94 => some { p with globals := { p.globals with count := v } }
  | 0x08 => some { p with usages := p.usages ++ [(v, v)] }
  | 0x18 => some { p with least := some v }
  | 0x28 => p.least.map fun a => { p with usages := p.usages ++ [(a, v)], least := none }
  | 0x80 =>
    let g := p.globals
    let f : Field := ⟨g.id, p.inside, v.testBit 0, v.testBit 1, v.testBit 2, p.usages.map fun (a, b) => (g.page, a, b), g.lo, g.hi, g.size, g.count⟩
    some { p.main with inputs := p.inputs ++ [f] }
  | 0x90 | 0xB0 => some p.main
  | 0xA0 => p.usages.head?.map fun (a, _) => { p.main with inside := (p.globals.page, a) :: p.inside }
  | 0xC0 => match p.inside with
    | [] => none
    | _ :: inside => some { p.main with inside := inside }
  | _ => none

/-- The items of a descriptor, 6.2.2.2: the first byte of an item has its tag and the number of bytes that follow (3 stands for 4). -/
def Parser.parse (p : Parser) : List Byte → Option Parser
  | [] => if p.inside = [] then some p else none
  | b :: bs =>
    let tag := b.toNat / 4 * 4
    match b.toNat % 4, bs with
    | 0, bs => (p.item tag 0 0).bind (·.parse bs)
    | 1, x :: bs => (p.item tag 1 x.toNat).bind (·.parse bs)
    | 2, x :: y :: bs => (p.item tag 2 (x.toNat + 256 * y.toNat)).bind (·.parse bs)
    | 3, x :: y :: z :: w :: bs =>
      (p.item tag 4 (x.toNat + 256 * y.toNat + 256 ^ 2 * z.toNat + 256 ^ 3 * w.toNat)).bind (·.parse bs)
    | _, _ => none

/-- The Input items of a report descriptor. -/
def inputs (descriptor : List Byte) : Option (List Field) := (Parser.parse {} descriptor).map (·.inputs)

/-- The bits of a report, the lowest bit of a byte first (8.4). -/
def bits (bs : List Byte) : List Bool := bs.flatMap fun b => (List.range 8).map fun i => b.getLsbD i

/-- The number with these bits, the lowest first. -/
def number : List Bool → Nat
  | [] => 0
  | b :: bs => b.toNat + 2 * number bs

/-- The value of an element; it is signed if the least value is negative (5.8). -/
def Field.value (f : Field) (bs : List Bool) : Int :=
  if f.lo < 0 ∧ 2 ^ bs.length ≤ 2 * number bs then (number bs : Int) - (2 ^ bs.length : Nat) else number bs

/-- The elements of a field. -/
def elements (size : Nat) : Nat → List Bool → List (List Bool)
  | 0, _ => []
  | n + 1, bs => bs.take size :: elements size n (bs.drop size)

/-- The `i`-th usage of ranges of usages. -/
def usageAt : List (Nat × Nat × Nat) → Nat → Option Usage
  | [], _ => none
  | (p, a, b) :: rs, i => if i ≤ b - a then some (p, a + i) else usageAt rs (i - (b - a + 1))

/-- What a host takes from a field (6.2.2.5): nothing from padding; from the `i`-th element of a variable field the value of the `i`-th usage;
and an element of an array is the number of a usage that is on. Values out of range are no values (5.10). -/
def Field.read (f : Field) (bs : List Bool) : List (Usage × Int) :=
  let vs := (elements f.size f.count bs).map f.value
  if f.const then []
  else if f.var then
    vs.zipIdx.filterMap fun (v, i) => if f.lo ≤ v ∧ v ≤ f.hi then (usageAt f.usages i).map (·, v) else none
  else vs.filterMap fun v => if f.lo ≤ v ∧ v ≤ f.hi then (usageAt f.usages (v - f.lo).toNat).map (·, 1) else none

/-- The fields, one after the other. -/
def readFields : List Field → List Bool → List (Usage × Int)
  | [], _ => []
  | f :: fs, bs => f.read bs ++ readFields fs (bs.drop (f.size * f.count))

/-- What a host takes from an input report with number `id` (0 if the descriptor has no numbers), if it is a report with this descriptor:
it has to have the length the descriptor says. -/
def reading (descriptor : List Byte) (id : Nat) (report : List Byte) : Option (List (Usage × Int)) :=
  (inputs descriptor).bind fun fs =>
    let mine := fs.filter (·.id = id)
    if mine ≠ [] ∧ (mine.map fun f => f.size * f.count).sum = 8 * report.length then some (readFields mine (bits report)) else none

/-- The control is on. -/
def On (r : List (Usage × Int)) (u : Usage) : Prop := ∃ v, (u, v) ∈ r ∧ v ≠ 0

/-- The usage pages and usages of the HID Usage Tables which matter here. -/
def keyPage : Nat := 0x07
def buttonPage : Nat := 0x09
def consumerPage : Nat := 0x0C
def usageX : Usage := (0x01, 0x30)
def usageY : Usage := (0x01, 0x31)
def usageWheel : Usage := (0x01, 0x38)
def usagePan : Usage := (0x0C, 0x238)
def keyboardUsage : Usage := (0x01, 0x06)
def mouseUsage : Usage := (0x01, 0x02)
def pointerUsage : Usage := (0x01, 0x01)
def consumerUsage : Usage := (0x0C, 0x01)

end Verif.Hid
